import Verif.Proofs.Kmeans

/-! # Proofs: clustering into two clusters

With two clusters the neighbour lists hold one entry, and each point goes to the other cluster exactly if the other
centroid is better for it.  `better t c x`: the point `x` leaves `c` for `t`. -/

namespace Cniic
open Kmeans Spec.Kmeans

variable {T : Type}

/-- Points of `P` are moved by `better`, the shortcuts taken into account; `F` are the computed distances. -/
structure Decides (env : Env T) (P : T → Prop) (F : T → T → Rat) (better : T → T → T → Bool) : Prop where
  dist : ∀ a b, P a → P b → env.pt.dist a b = some (F a b)
  near : ∀ c t x, P c → P t → P x → F c x ≤ env.fl.div (F c t) 2 → better t c x = false
  far  : ∀ c t x, P c → P t → P x → F c t > env.fl.mul 2 (F c x) → better t c x = false
  lt   : ∀ c t x, P c → P t → P x → (better t c x = true ↔ F t x < F c x)

variable {env : Env T} {P : T → Prop} {F : T → T → Rat} {better : T → T → T → Bool}

theorem choose_one (hm : Decides env P F better) {cs : List T} {i j : Nat} {c t : T} (hc : cs[i]? = some c)
    (ht : cs[j]? = some t) (pc : P c) (pt : P t) (w : Nat) (x : T) (px : P x) :
    ∃ w', choose env cs ⟨i, [(j, F c t)], w⟩ i x = .ok (if better t c x then j else i, ⟨i, [(j, F c t)], w'⟩) := by
  have hcx := hm.dist c x pc px
  have htx := hm.dist t x pt px
  rw [choose, hc]
  simp only [Ret.expect, Ret.bind_ok_eq, hcx]
  by_cases hst : Neigh.stays env.fl ⟨i, [(j, F c t)], w⟩ (F c x) = true
  · rw [if_pos hst]
    have hle : F c x ≤ env.fl.div (F c t) 2 := by
      simpa [Neigh.stays, Neigh.certaintyRadius] using hst
    rw [hm.near c t x pc pt px hle]
    exact ⟨w, rfl⟩
  · rw [if_neg hst]
    rw [scan]
    by_cases hcut : F c t > env.fl.mul 2 (F c x)
    · rw [if_pos hcut, hm.far c t x pc pt px hcut]
      exact ⟨0, rfl⟩
    · rw [if_neg hcut, ht]
      refine ⟨1, ?_⟩
      have hlt := hm.lt c t x pc pt px
      cases hb : better t c x with
      | true =>
        have h' := hlt.1 hb
        simp only [Ret.expect, Ret.bind_ok_eq, htx, if_pos h', scan, if_true]
      | false =>
        have h' : ¬ F t x < F c x := fun h0 => by simp [hlt.2 h0] at hb
        simp only [Ret.expect, Ret.bind_ok_eq, htx, if_neg h', scan, Bool.false_eq_true, if_false]

/-- Where a point of cluster `i` goes. -/
def goes (better : T → T → T → Bool) (a b : T) (e : Nat × T) : Nat :=
  if e.1 = 0 then (if better b a e.2 then 1 else 0) else (if better a b e.2 then 0 else 1)

/-- The points that go to cluster `j`. -/
def into (better : T → T → T → Bool) (a b : T) (l : List (Nat × T)) (j : Nat) : List T :=
  (l.filter fun e => goes better a b e == j).map (·.2)

theorem assignLoop_two (hm : Decides env P F better) {a b : T} (pa : P a) (pb : P b) (l : List (Nat × T))
    (hl : ∀ e ∈ l, (e.1 = 0 ∨ e.1 = 1) ∧ P e.2) (A B : List T) (w0 w1 : Nat) (ch : Bool) :
    ∃ w0' w1', assignLoop env [a, b] l [A, B] [⟨0, [(1, F a b)], w0⟩, ⟨1, [(0, F b a)], w1⟩] ch =
      .ok ([A ++ into better a b l 0, B ++ into better a b l 1],
        [⟨0, [(1, F a b)], w0'⟩, ⟨1, [(0, F b a)], w1'⟩], ch || l.any fun e => goes better a b e != e.1) := by
  induction l generalizing A B w0 w1 ch with
  | nil => exact ⟨w0, w1, by simp [assignLoop, into]⟩
  | cons e l ih =>
    obtain ⟨i, x⟩ := e
    have hl' : ∀ e ∈ l, (e.1 = 0 ∨ e.1 = 1) ∧ P e.2 := fun e he => hl e (by simp [he])
    have px : P x := (hl (i, x) (by simp)).2
    rcases (hl (i, x) (by simp)).1 with h | h
    · dsimp only at h
      subst h
      obtain ⟨w, hw⟩ := choose_one hm (cs := [a, b]) (i := 0) (j := 1) rfl rfl pa pb w0 x px
      by_cases hlt : better b a x
      · rw [if_pos hlt] at hw
        obtain ⟨w0', w1', h⟩ := ih hl' A (B ++ [x]) w w1 true
        refine ⟨w0', w1', ?_⟩
        rw [assignLoop]
        simp only [Ret.expect, Ret.bind_ok_eq, List.getElem?_cons_zero, hw, update, List.length_cons, List.length_nil]
        have hg : goes better a b (0, x) = 1 := by simp [goes, hlt]
        simp [h, into, hg, Ret.bind_ok_eq]
      · rw [if_neg hlt] at hw
        obtain ⟨w0', w1', h⟩ := ih hl' (A ++ [x]) B w w1 ch
        refine ⟨w0', w1', ?_⟩
        rw [assignLoop]
        simp only [Ret.expect, Ret.bind_ok_eq, List.getElem?_cons_zero, hw, update, List.length_cons, List.length_nil]
        have hg : goes better a b (0, x) = 0 := by simp [goes, hlt]
        simp [h, into, hg, Ret.bind_ok_eq]
    · dsimp only at h
      subst h
      obtain ⟨w, hw⟩ := choose_one hm (cs := [a, b]) (i := 1) (j := 0) rfl rfl pb pa w1 x px
      by_cases hlt : better a b x
      · rw [if_pos hlt] at hw
        obtain ⟨w0', w1', h⟩ := ih hl' (A ++ [x]) B w0 w true
        refine ⟨w0', w1', ?_⟩
        rw [assignLoop]
        simp only [Ret.expect, Ret.bind_ok_eq, List.getElem?_cons_zero, List.getElem?_cons_succ, hw, update,
          List.length_cons, List.length_nil]
        have hg : goes better a b (1, x) = 0 := by simp [goes, hlt]
        simp [h, into, hg, Ret.bind_ok_eq]
      · rw [if_neg hlt] at hw
        obtain ⟨w0', w1', h⟩ := ih hl' A (B ++ [x]) w0 w ch
        refine ⟨w0', w1', ?_⟩
        rw [assignLoop]
        simp only [Ret.expect, Ret.bind_ok_eq, List.getElem?_cons_zero, List.getElem?_cons_succ, hw, update,
          List.length_cons, List.length_nil]
        have hg : goes better a b (1, x) = 1 := by simp [goes, hlt]
        simp [h, into, hg, Ret.bind_ok_eq]

/-- The points of the first cluster after a step. -/
def nextA (better : T → T → T → Bool) (a b : T) (A B : List T) : List T :=
  (A.filter fun x => !better b a x) ++ B.filter fun x => better a b x

/-- The points of the second cluster after a step. -/
def nextB (better : T → T → T → Bool) (a b : T) (A B : List T) : List T :=
  (A.filter fun x => better b a x) ++ B.filter fun x => !better a b x

/-- Whether any point moved. -/
def moved (better : T → T → T → Bool) (a b : T) (A B : List T) : Bool :=
  (A.any fun x => better b a x) || B.any fun x => better a b x

theorem tagged_two (A B : List T) : tagged [A, B] = A.map (fun x => (0, x)) ++ B.map (fun x => (1, x)) := by
  simp [tagged]

theorem goes_zero (a b x : T) : goes better a b (0, x) = if better b a x then 1 else 0 := rfl
theorem goes_one (a b x : T) : goes better a b (1, x) = if better a b x then 0 else 1 := rfl

theorem into_tagged_zero (a b : T) (A B : List T) : into better a b (tagged [A, B]) 0 = nextA better a b A B := by
  rw [tagged_two, into, List.filter_append, List.map_append, List.filter_map, List.filter_map, List.map_map, List.map_map,
    nextA]
  congr 1
  · rw [show ((·.2) ∘ fun x : T => (0, x)) = id from rfl, List.map_id]
    apply List.filter_congr
    intro x _
    show (goes better a b (0, x) == 0) = _
    rw [goes_zero]
    by_cases h : better b a x <;> simp [h]
  · rw [show ((fun e : Nat × T => e.2) ∘ fun x : T => (1, x)) = id from rfl, List.map_id]
    apply List.filter_congr
    intro x _
    show (goes better a b (1, x) == 0) = _
    rw [goes_one]
    by_cases h : better a b x <;> simp [h]

theorem into_tagged_one (a b : T) (A B : List T) : into better a b (tagged [A, B]) 1 = nextB better a b A B := by
  rw [tagged_two, into, List.filter_append, List.map_append, List.filter_map, List.filter_map, List.map_map, List.map_map,
    nextB]
  congr 1
  · rw [show ((·.2) ∘ fun x : T => (0, x)) = id from rfl, List.map_id]
    apply List.filter_congr
    intro x _
    show (goes better a b (0, x) == 1) = _
    rw [goes_zero]
    by_cases h : better b a x <;> simp [h]
  · rw [show ((fun e : Nat × T => e.2) ∘ fun x : T => (1, x)) = id from rfl, List.map_id]
    apply List.filter_congr
    intro x _
    show (goes better a b (1, x) == 1) = _
    rw [goes_one]
    by_cases h : better a b x <;> simp [h]

theorem any_tagged (a b : T) (A B : List T) : ((tagged [A, B]).any fun e => goes better a b e != e.1) = moved better a b A B := by
  rw [tagged_two, List.any_append, List.any_map, List.any_map, moved]
  congr 1
  · congr 1
    funext x
    show (goes better a b (0, x) != 0) = _
    rw [goes_zero]
    by_cases h : better b a x <;> simp [h]
  · congr 1
    funext x
    show (goes better a b (1, x) != 1) = _
    rw [goes_one]
    by_cases h : better a b x <;> simp [h]

theorem sort_one (hs : IsSort env.sort) (e : Nat × Rat) : env.sort [e] = [e] :=
  List.perm_singleton.1 (hs [e]).1

theorem computeOne_one (hm : Decides env P F better) (hs : IsSort env.sort) (hlow : 0 < env.lower 2) {a b c t : T} {i j : Nat}
    (hc : [a, b][i]? = some c) (ht : [a, b][j]? = some t) (pc : P c) (pt : P t) (d : Rat) (w fuel : Nat) :
    computeOne env [a, b] (fuel + 1) ⟨i, [(j, d)], w⟩ = .ok ⟨i, [(j, F c t)], 0⟩ := by
  rw [computeOne]
  simp only [Neigh.updateDistances, hc, distances, ht, hm.dist c t pc pt, Ret.expect, Ret.bind_ok_eq, sort_one hs]
  have e : min (max (2 * w) (env.lower 2)) (2 - 1) = 1 := by omega
  simp [Neigh.resize, e]

/-- A state with two clusters at the beginning of the loop. -/
structure Two (F : T → T → Rat) (cl : Clusters T) (a b : T) (A B : List T) : Prop where
  centroids  : cl.centroids = [a, b]
  assignment : cl.assignment = [A, B]
  neighbours : cl.neighbours = [⟨0, [(1, F a b)], 0⟩, ⟨1, [(0, F b a)], 0⟩]

theorem iteration_two (hm : Decides env P F better) (hs : IsSort env.sort) (hlow : 0 < env.lower 2) {cl : Clusters T} {a b a' b' : T}
    {A B : List T} (h : Two F cl a b A B) (pa : P a) (pb : P b) (pA : ∀ x ∈ A, P x) (pB : ∀ x ∈ B, P x) (pa' : P a')
    (pb' : P b') (ha : env.pt.mean (nextA better a b A B) = .ok a')
    (hb : env.pt.mean (nextB better a b A B) = .ok b') (fuel k : Nat) :
    ∃ cl', iteration env (fuel + 1) cl k = .ok (cl', moved better a b A B, k) ∧
      Two F cl' a' b' (nextA better a b A B) (nextB better a b A B) := by
  obtain ⟨cs, asg, ns⟩ := cl
  obtain ⟨h1, h2, h3⟩ := h
  dsimp only at h1 h2 h3
  subst h1 h2 h3
  obtain ⟨w0, w1, hl⟩ := assignLoop_two hm pa pb (tagged [A, B]) (by
    intro e he
    rw [tagged_two] at he
    rcases List.mem_append.1 he with he | he <;> obtain ⟨x, hx, rfl⟩ := List.mem_map.1 he
    · exact ⟨.inl rfl, pA x hx⟩
    · exact ⟨.inr rfl, pB x hx⟩) [] [] 0 0 false
  rw [into_tagged_zero, into_tagged_one, any_tagged] at hl
  have hasg : assignPoints env ⟨[a, b], [A, B], [⟨0, [(1, F a b)], 0⟩, ⟨1, [(0, F b a)], 0⟩]⟩ =
      .ok (⟨[a, b], [nextA better a b A B, nextB better a b A B],
        [⟨0, [(1, F a b)], w0⟩, ⟨1, [(0, F b a)], w1⟩]⟩, moved better a b A B) := by
    rw [assignPoints, if_pos (by rfl)]
    show (assignLoop env [a, b] (tagged [A, B]) [[], []] _ false >>= _) = _
    rw [hl, Ret.bind_ok_eq]
    simp
  refine ⟨⟨[a', b'], [nextA better a b A B, nextB better a b A B],
    [⟨0, [(1, F a' b')], 0⟩, ⟨1, [(0, F b' a')], 0⟩]⟩, ?_, rfl, rfl, rfl⟩
  rw [iteration, hasg]
  simp only [Ret.bind_ok_eq, updateCentroids, computeCentroids, ha, hb, updateNeighbours, computeNeighbours,
    computeOne_one hm hs hlow (a := a') (b := b') (i := 0) (j := 1) rfl rfl pa' pb',
    computeOne_one hm hs hlow (a := a') (b := b') (i := 1) (j := 0) rfl rfl pb' pa']

theorem init_two (hm : Decides env P F better) (hs : IsSort env.sort) (hlow : 0 < env.lower 2) {points A B : List T} {a b a' b' : T}
    (hA : points.drop (points.length - points.length / 2) = a :: A)
    (hB : points.take (points.length - points.length / 2) = b :: B) (hma : env.pt.mean [a] = .ok a')
    (hmb : env.pt.mean [b] = .ok b') (pa' : P a') (pb' : P b') (fuel : Nat) :
    ∃ cl, init env (fuel + 1) points 2 = .ok cl ∧ Two F cl a' b' (a :: A) (b :: B) := by
  refine ⟨⟨[a', b'], [a :: A, b :: B], [⟨0, [(1, F a' b')], 0⟩, ⟨1, [(0, F b' a')], 0⟩]⟩, ?_, rfl, rfl, rfl⟩
  have hl := congrArg List.length hA
  rw [List.length_drop, List.length_cons] at hl
  have hia : initAssignment points 2 = .ok [a :: A, b :: B] := by
    rw [initAssignment, if_neg (by decide), if_pos (by omega)]
    simp [splitPoints, hA, hB]
  have hn : (List.range 2).map (fun i => Neigh.new i 2) = [⟨0, [(1, 0)], 1⟩, ⟨1, [(0, 0)], 1⟩] := by decide +kernel
  rw [init, hia]
  simp only [Ret.bind_ok_eq, initCentroids, List.getElem?_cons_zero, Ret.expect, fakeClone, hma, hmb, initNeighbours,
    List.length_cons, List.length_nil, Nat.zero_add, Nat.reduceAdd, hn, computeNeighbours,
    computeOne_one hm hs hlow (a := a') (b := b') (i := 0) (j := 1) rfl rfl pa' pb',
    computeOne_one hm hs hlow (a := a') (b := b') (i := 1) (j := 0) rfl rfl pb' pa']

theorem init_zero {points A B : List T} {a b a' b' : T} (hA : points.drop (points.length - points.length / 2) = a :: A)
    (hB : points.take (points.length - points.length / 2) = b :: B) (hma : env.pt.mean [a] = .ok a')
    (hmb : env.pt.mean [b] = .ok b') : init env 0 points 2 = .err () := by
  have hl := congrArg List.length hA
  rw [List.length_drop, List.length_cons] at hl
  have hia : initAssignment points 2 = .ok [a :: A, b :: B] := by
    rw [initAssignment, if_neg (by decide), if_pos (by omega)]
    simp [splitPoints, hA, hB]
  rw [init, hia]
  simp only [Ret.bind_ok_eq, initCentroids, List.getElem?_cons_zero, Ret.expect, fakeClone, hma, hmb, initNeighbours,
    List.length_cons, List.length_nil, Nat.zero_add, Nat.reduceAdd, List.range_succ, List.map_cons,
    List.range_zero, List.map_nil, List.nil_append, List.cons_append, computeNeighbours, computeOne]
  rfl

/-! ## Endless loops -/

/-- A set of states that is never left and in which something always changes. -/
theorem iterate_endless {Q : Clusters T → Prop} {fuel : Nat}
    (h : ∀ cl k, Q cl → ∃ cl' k', iteration env fuel cl k = .ok (cl', true, k') ∧ Q cl') {cl : Clusters T} (hq : Q cl)
    (left k : Nat) : iterate env fuel left cl k = .err () := by
  induction left generalizing cl k with
  | zero => rfl
  | succ left ih =>
    obtain ⟨cl', k', h1, h2⟩ := h cl k hq
    rw [iterate, h1]
    exact ih h2 k'

/-- From the start on, every iteration moves a point. -/
def Circles (env : Env T) (points : List T) (n : Nat) : Prop :=
  init env 0 points n = .err () ∧ ∃ Q : Clusters T → Prop, (∀ fuel, ∃ cl, init env (fuel + 1) points n = .ok cl ∧ Q cl) ∧
    ∀ fuel cl k, Q cl → ∃ cl' k', iteration env (fuel + 1) cl k = .ok (cl', true, k') ∧ Q cl'

theorem cluster_endless {points : List T} {n : Nat} (hc : Circles env points n) (fuel : Nat) :
    cluster env fuel points n = .err () := by
  obtain ⟨h0, Q, hstart, h⟩ := hc
  cases fuel with
  | zero => rw [cluster, h0]; rfl
  | succ fuel =>
    obtain ⟨cl, h1, h2⟩ := hstart fuel
    rw [cluster, h1, Ret.bind_ok_eq, iterate_endless (h fuel) h2]
    rfl

/-! ## Parts of a list -/

/-- The items marked by `true`. -/
def pick : List T → List Bool → List T
  | x :: xs, true :: bs => x :: pick xs bs
  | _ :: xs, false :: bs => pick xs bs
  | _, _ => []

/-- Marks changed depending on the items: `p` for the items marked, `q` for the others. -/
def remark (p q : T → Bool) : List T → List Bool → List Bool
  | x :: xs, b :: bs => (if b then p x else q x) :: remark p q xs bs
  | _, _ => []

theorem pick_remark (p q : T → Bool) (l : List T) (bs : List Bool) :
    ((pick l bs).filter p ++ (pick l (bs.map (!·))).filter q).Perm (pick l (remark p q l bs)) := by
  induction l generalizing bs with
  | nil => cases bs <;> simp [pick]
  | cons x xs ih =>
    cases bs with
    | nil => simp [pick, remark]
    | cons b bs =>
      cases b with
      | true =>
        simp only [pick, List.map_cons, Bool.not_true, List.filter_cons, remark, if_true]
        cases hp : p x with
        | true => simpa [pick] using ih bs
        | false => simpa [pick] using ih bs
      | false =>
        simp only [pick, List.map_cons, Bool.not_false, List.filter_cons, remark]
        cases hp : q x with
        | true =>
          simp only [pick, if_true, Bool.false_eq_true, if_false]
          exact List.perm_middle.trans ((ih bs).cons x)
        | false => simpa [pick, hp] using ih bs

theorem remark_eq (p q : T → Bool) (l : List T) (bs : List Bool) (hlen : bs.length = l.length)
    (hp : ∀ x ∈ pick l bs, p x = true) (hq : ∀ x ∈ pick l (bs.map (!·)), q x = false) : remark p q l bs = bs := by
  induction l generalizing bs with
  | nil => cases bs <;> simp_all [remark]
  | cons x xs ih =>
    cases bs with
    | nil => simp at hlen
    | cons b bs =>
      cases b <;> simp_all [remark, pick]

theorem remark_length (p q : T → Bool) (l : List T) (bs : List Bool) (h : bs.length = l.length) :
    (remark p q l bs).length = l.length := by
  induction l generalizing bs with
  | nil => cases bs <;> simp [remark]
  | cons x xs ih =>
    cases bs with
    | nil => simp at h
    | cons b bs => simpa [remark] using ih bs (by simpa using h)

theorem remark_not (p q : T → Bool) (l : List T) (bs : List Bool) :
    (remark p q l bs).map (!·) = remark (fun x => !q x) (fun x => !p x) l (bs.map (!·)) := by
  induction l generalizing bs with
  | nil => cases bs <;> simp [remark]
  | cons x xs ih =>
    cases bs with
    | nil => simp [remark]
    | cons b bs => cases b <;> simp [remark, ih]

/-- A list split in two parts marks the items of each. -/
theorem exists_marks {A B l : List T} (h : (A ++ B).Perm l) :
    ∃ bs : List Bool, bs.length = l.length ∧ A.Perm (pick l bs) ∧ B.Perm (pick l (bs.map (!·))) := by
  induction l generalizing A B with
  | nil =>
    have := h.eq_nil
    obtain ⟨rfl, rfl⟩ := List.append_eq_nil_iff.1 this
    exact ⟨[], rfl, by simp [pick], by simp [pick]⟩
  | cons x l ih =>
    have hx : x ∈ A ++ B := h.mem_iff.2 (by simp)
    rcases List.mem_append.1 hx with hx | hx
    · obtain ⟨s, t, rfl⟩ := List.append_of_mem hx
      have h' : ((s ++ t) ++ B).Perm l := by
        have : ((s ++ x :: t) ++ B).Perm (x :: (s ++ t ++ B)) := by
          rw [List.append_assoc, List.append_assoc]
          exact List.perm_middle
        exact (this.symm.trans h).cons_inv
      obtain ⟨bs, h1, h2, h3⟩ := ih h'
      exact ⟨true :: bs, by simp [h1], List.perm_middle.trans (by simpa [pick] using h2), by simpa [pick] using h3⟩
    · obtain ⟨s, t, rfl⟩ := List.append_of_mem hx
      have h' : (A ++ (s ++ t)).Perm l := by
        have : (A ++ (s ++ x :: t)).Perm (x :: (A ++ (s ++ t))) := by
          rw [← List.append_assoc, ← List.append_assoc]
          exact List.perm_middle
        exact (this.symm.trans h).cons_inv
      obtain ⟨bs, h1, h2, h3⟩ := ih h'
      exact ⟨false :: bs, by simp [h1], by simpa [pick] using h2, List.perm_middle.trans (by simpa [pick] using h3)⟩

/-- All lists of `n` marks. -/
def allMarks : Nat → List (List Bool)
  | 0 => [[]]
  | n + 1 => (allMarks n).flatMap fun bs => [true :: bs, false :: bs]

theorem mem_allMarks (bs : List Bool) : bs ∈ allMarks bs.length := by
  induction bs with
  | nil => simp [allMarks]
  | cons b bs ih =>
    rw [List.length_cons, allMarks, List.mem_flatMap]
    exact ⟨bs, ih, by cases b <;> simp⟩

end Cniic
