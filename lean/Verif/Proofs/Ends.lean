import Mathlib.Algebra.BigOperators.Group.Finset.Piecewise
import Mathlib.Algebra.Order.BigOperators.Group.Finset
import Verif.Spec.Ends
import Verif.Proofs.Fuel
import Verif.Proofs.Extreme

/-!
# Proofs: clustering ends if moving to the mean never makes a cluster worse
-/

namespace Cniic
open Kmeans Spec Spec.Kmeans

/-- A computation that ends once enough iterations are granted. -/
def Ends {α : Type} (f : Nat → Ret Unit α) : Prop := ∃ n, f n ≠ .err ()

theorem Ends.bind {α β : Type} {f : Nat → Ret Unit α} {g : α → Nat → Ret Unit β} (hf : Stable f) (he : Ends f)
    (hg : ∀ a, Stable (g a)) (hge : ∀ a n, f n = .ok a → Ends (g a)) : Ends fun n => f n >>= fun a => g a n := by
  obtain ⟨n, hn⟩ := he
  cases e : f n with
  | err u => exact absurd e hn
  | panic =>
    refine ⟨n, ?_⟩
    dsimp only
    rw [e]
    intro h
    cases h
  | ok a =>
    obtain ⟨m, hm⟩ := hge a n e
    refine ⟨max n m, ?_⟩
    dsimp only
    rw [hf n (max n m) (le_max_left _ _) hn, e, Ret.bind_ok_eq, hg a m (max n m) (le_max_right _ _) hm]
    exact hm

namespace Kmeans
variable {T : Type}

/-! ## The bill -/

/-- What it costs that the centroid of the cluster `i` stands for `x`. -/
def price (cost : T → T → Nat) (cs : List T) (i : Nat) (x : T) : Nat :=
  match cs[i]? with
  | some c => cost c x
  | none => 0

/-- The cost of all points. -/
def bill (cost : T → T → Nat) (cs : List T) (asg : List (List T)) : Nat :=
  ∑ j ∈ Finset.range asg.length, ((asg[j]?.getD []).map (price cost cs j)).sum

theorem tagged_sum (f : Nat → T → Nat) (asg : List (List T)) (i : Nat) :
    ((tagged asg i).map fun e => f e.1 e.2).sum =
      ∑ j ∈ Finset.range asg.length, ((asg[j]?.getD []).map (f (i + j))).sum := by
  induction asg generalizing i with
  | nil => rfl
  | cons v asg ih =>
    rw [tagged, List.map_append, List.sum_append, ih, List.length_cons, Finset.sum_range_succ', List.map_map, Nat.add_comm]
    congr 1
    apply Finset.sum_congr rfl
    intro j _
    rw [List.getElem?_cons_succ, show i + 1 + j = i + (j + 1) by omega]

theorem arrivals_sum (f : Nat → T → Nat) (moves : List (Move T)) (n : Nat) (h : ∀ m ∈ moves, m.target < n) :
    ∑ j ∈ Finset.range n, ((arrivals moves j).map (f j)).sum = (moves.map fun m => f m.target m.point).sum := by
  induction moves with
  | nil => simp [arrivals]
  | cons m moves ih =>
    rw [List.map_cons, List.sum_cons, ← ih fun m' hm' => h m' (List.mem_cons_of_mem _ hm')]
    have : ∀ j, ((arrivals (m :: moves) j).map (f j)).sum =
        (if m.target = j then f m.target m.point else 0) + ((arrivals moves j).map (f j)).sum := by
      intro j
      unfold arrivals
      rw [List.filter_cons]
      by_cases e : m.target = j
      · subst e
        simp
      · simp [e]
    simp only [this]
    rw [Finset.sum_add_distrib, Finset.sum_ite_eq, if_pos (Finset.mem_range.2 (h m (by simp)))]

/-! ## Moving points -/

theorem scan_lower {pt : PointOps T} {cs : List T} {x : T} {cutoff : Rat} {l : List (Nat × Rat)} {pos j0 j w : Nat}
    {d0 d : Rat} (h : scan pt cs x cutoff l pos d0 j0 = .ok (d, j, w)) :
    (j = j0 ∧ d = d0) ∨ ∃ c, cs[j]? = some c ∧ pt.dist c x = some d ∧ d < d0 := by
  induction l generalizing pos j0 d0 with
  | nil => cases h; exact .inl ⟨rfl, rfl⟩
  | cons a l ih =>
    obtain ⟨t, ct⟩ := a
    rw [scan] at h
    split at h
    · cases h; exact .inl ⟨rfl, rfl⟩
    · obtain ⟨c, h1, h⟩ := Ret.bind_ok.1 h
      obtain ⟨dt, h2, h⟩ := Ret.bind_ok.1 h
      split at h
      · rename_i hlt
        rcases ih h with ⟨rfl, rfl⟩ | ⟨c', r1, r2, r3⟩
        · exact .inr ⟨c, Ret.expect_ok.1 h1, Ret.expect_ok.1 h2, hlt⟩
        · exact .inr ⟨c', r1, r2, lt_trans r3 hlt⟩
      · exact ih h

theorem choose_lower {env : Env T} {cs : List T} {g g' : Neigh} {i j : Nat} {x : T}
    (h : choose env cs g i x = .ok (j, g')) :
    j = i ∨ ∃ c d c' d', cs[i]? = some c ∧ env.pt.dist c x = some d ∧ cs[j]? = some c' ∧ env.pt.dist c' x = some d' ∧
      d' < d := by
  rw [choose] at h
  obtain ⟨c, h1, h⟩ := Ret.bind_ok.1 h
  obtain ⟨d, h2, h⟩ := Ret.bind_ok.1 h
  split at h
  · cases h; exact .inl rfl
  · obtain ⟨⟨d', j', w⟩, h3, h⟩ := Ret.bind_ok.1 h
    cases h
    rcases scan_lower h3 with ⟨rfl, -⟩ | ⟨c', r1, r2, r3⟩
    · exact .inl rfl
    · exact .inr ⟨c, d, c', d', Ret.expect_ok.1 h1, Ret.expect_ok.1 h2, r1, r2, r3⟩

theorem sum_map_le {α : Type} {l : List α} {f g : α → Nat} (h : ∀ a ∈ l, f a ≤ g a) : (l.map f).sum ≤ (l.map g).sum := by
  induction l with
  | nil => exact le_refl _
  | cons a l ih =>
    have := h a (by simp)
    have := ih fun b hb => h b (List.mem_cons_of_mem _ hb)
    simp only [List.map_cons, List.sum_cons]
    omega

theorem sum_map_lt {α : Type} {l : List α} {f g : α → Nat} (h : ∀ a ∈ l, f a ≤ g a) {b : α} (hb : b ∈ l) (hlt : f b < g b) :
    (l.map f).sum < (l.map g).sum := by
  induction l with
  | nil => cases hb
  | cons a l ih =>
    have ha := h a (by simp)
    have hl := sum_map_le fun b hb => h b (List.mem_cons_of_mem a hb)
    simp only [List.map_cons, List.sum_cons]
    rcases List.mem_cons.1 hb with rfl | hb
    · omega
    · have := ih (fun b hb => h b (List.mem_cons_of_mem _ hb)) hb
      omega

theorem assign_lowers {env : Env T} {P : T → Prop} {points : List T} {cost : T → T → Nat}
    (hl : ∀ c t x dc dt, P c → P t → x ∈ points → env.pt.dist c x = some dc → env.pt.dist t x = some dt → dt < dc → cost t x < cost c x)
    {cl cl' : Clusters T} {changed : Bool} (hcs : ∀ c ∈ cl.centroids, P c) (hp : cl.assignment.flatten.Perm points)
    (h : assignPoints env cl = .ok (cl', changed)) :
    bill cost cl.centroids cl'.assignment ≤ bill cost cl.centroids cl.assignment ∧
      (changed = true → bill cost cl.centroids cl'.assignment < bill cost cl.centroids cl.assignment) := by
  obtain ⟨a1, a2, a3, a4, a5, moves, m1, m2, m3, m4, m5⟩ := assignPoints_ok h
  have e1 : bill cost cl.centroids cl.assignment = (moves.map fun m => price cost cl.centroids m.source m.point).sum := by
    have := tagged_sum (price cost cl.centroids) cl.assignment 0
    rw [← m1, List.map_map] at this
    simp only [Nat.zero_add] at this
    rw [bill, ← this]
    rfl
  have e2 : bill cost cl.centroids cl'.assignment = (moves.map fun m => price cost cl.centroids m.target m.point).sum := by
    rw [← arrivals_sum (price cost cl.centroids) moves cl.assignment.length m2, bill, a3]
    apply Finset.sum_congr rfl
    intro j hj
    rw [m3 j (Finset.mem_range.1 hj), Option.getD_some]
  have key : ∀ m ∈ moves, m.target = m.source ∨
      price cost cl.centroids m.target m.point < price cost cl.centroids m.source m.point := by
    intro m hm
    obtain ⟨g, g1, -, hc⟩ := m5 m hm
    rcases choose_lower hc with h | ⟨c, d, c', d', r1, r2, r3, r4, r5⟩
    · exact .inl h
    · right
      have hx : m.point ∈ points := by
        rw [← hp.mem_iff, ← tagged_points cl.assignment 0, ← m1, List.map_map]
        exact List.mem_map_of_mem (f := fun m : Move T => m.point) hm
      simp only [price, r1, r3]
      exact hl c c' m.point d d' (hcs c (List.mem_of_getElem? r1)) (hcs c' (List.mem_of_getElem? r3)) hx r2 r4 r5
  have hle : ∀ m ∈ moves, price cost cl.centroids m.target m.point ≤ price cost cl.centroids m.source m.point := by
    intro m hm
    rcases key m hm with h | h
    · rw [h]
    · exact le_of_lt h
  rw [e1, e2]
  refine ⟨sum_map_le hle, fun hch => ?_⟩
  rw [m4, List.any_eq_true] at hch
  obtain ⟨m, hm, hne⟩ := hch
  refine sum_map_lt hle hm ?_
  rcases key m hm with h | h
  · rw [h] at hne
    simp at hne
  · exact h

/-! ## Moving centroids -/

theorem update_lowers {env : Env T} {P : T → Prop} {points : List T} {cost : T → T → Nat} (hl : Lowers env.pt P points cost)
    (hm : MeanOfSome env.pt) {asg : List (List T)} {cs cs' : List T} {fuel k k' : Nat} (hlen : cs.length = asg.length)
    (hcs : ∀ c ∈ cs, P c) (hp : asg.flatten.Perm points)
    (h : computeCentroids env fuel asg asg k = .ok (cs', k')) : bill cost cs' asg ≤ bill cost cs asg := by
  obtain ⟨c1, c2⟩ := computeCentroids_ok h
  unfold bill
  apply Finset.sum_le_sum
  intro j hj
  have hj := Finset.mem_range.1 hj
  have ha := List.getElem?_eq_getElem hj
  have hc := List.getElem?_eq_getElem (l := cs) (i := j) (by omega)
  have hc' := List.getElem?_eq_getElem (l := cs') (i := j) (by omega)
  rw [ha, Option.getD_some]
  have e1 : price cost cs j = cost cs[j] := by
    funext x
    simp only [price, hc]
  have e2 : price cost cs' j = cost cs'[j] := by
    funext x
    simp only [price, hc']
  rw [e1, e2]
  rcases c2 j _ _ hc' ha with h | ⟨h, -⟩
  · exact hl.mean _ _ _ (part_of_mem hp (List.mem_of_getElem? ha)) h (hcs _ (List.mem_of_getElem? hc))
  · rw [(hm _).1 h]
    exact le_refl _

theorem iteration_lowers {env : Env T} {P : T → Prop} {points : List T} {cost : T → T → Nat}
    (hl : Lowers env.pt P points cost) (hm : MeanOfSome env.pt) {fuel n k k' : Nat} {cl cl' : Clusters T}
    (hi : Invariant env points n cl) (hcs : ∀ c ∈ cl.centroids, P c)
    (h : iteration env fuel cl k = .ok (cl', true, k')) :
    bill cost cl'.centroids cl'.assignment < bill cost cl.centroids cl.assignment := by
  obtain ⟨cl1, h1, h2, h3, h4⟩ := iteration_parts h
  obtain ⟨a1, a2, a3, a4, a5, -⟩ := assignPoints_ok h1
  have hlt := (assign_lowers hl.nearer hcs hi.points h1).2 rfl
  have hle := update_lowers hl hm (cs := cl.centroids) (by rw [a2, a3]) hcs (a5.trans hi.points) h3
  rw [h2]
  exact lt_of_le_of_lt hle hlt

/-! ## The loops -/

theorem pickVictim_ends {rand : Nat → Nat} {asg : List (List T)} (hf : Fair rand asg.length) {v : List T} (hv : v ∈ asg)
    (hne : v ≠ []) (k : Nat) : Ends fun fuel => pickVictim rand asg fuel k := by
  obtain ⟨i, hi⟩ := List.mem_iff_getElem?.1 hv
  obtain ⟨k', hk, hr⟩ := hf i (List.getElem?_eq_some_iff.1 hi).1 k
  refine ⟨k' - k + 1, ?_⟩
  generalize hd : k' - k = d
  dsimp only
  induction d generalizing k with
  | zero =>
    have : k' = k := by omega
    subst this
    rw [pickVictim, hr, hi]
    simp only [Ret.expect, Ret.bind_ok_eq]
    rw [if_neg (by simpa using hne)]
    intro h
    cases h
  | succ d ih =>
    rw [pickVictim]
    intro h
    rcases Ret.bind_err.1 h with h | ⟨w, -, h⟩
    · exact Ret.expect_ne_err h
    split at h
    · exact ih (k + 1) (by omega) (by omega) h
    · cases h

theorem computeCentroids_ends {env : Env T} {all : List (List T)} (hf : Fair env.rand all.length) {v : List T}
    (hv : v ∈ all) (hne : v ≠ []) (asg : List (List T)) (k : Nat) :
    Ends fun fuel => computeCentroids env fuel all asg k := by
  induction asg generalizing k with
  | nil => exact ⟨0, fun h => by cases h⟩
  | cons a asg ih =>
    simp only [computeCentroids]
    cases env.pt.mean a with
    | ok c =>
      exact Ends.bind (computeCentroids_stable env all asg k) (ih k) (fun _ => Stable.const _)
        fun _ _ _ => ⟨0, fun h => by cases h⟩
    | err u =>
      refine Ends.bind (pickVictim_stable env.rand all k) (pickVictim_ends hf hv hne k) (fun r => ?_) fun r _ _ => ?_
      · exact (Stable.const _).bind fun b => (Stable.const _).bind fun c =>
          (computeCentroids_stable env all asg _).bind fun d => Stable.const _
      · refine Ends.bind (Stable.const _) ⟨0, Ret.expect_ne_err⟩ (fun b => ?_) fun b _ _ => ?_
        · exact (Stable.const _).bind fun c => (computeCentroids_stable env all asg _).bind fun d => Stable.const _
        · refine Ends.bind (Stable.const _) ⟨0, ?_⟩ (fun c => ?_) fun c _ _ => ?_
          · unfold fakeClone
            cases env.pt.mean [b] <;> intro h <;> cases h
          · exact (computeCentroids_stable env all asg _).bind fun d => Stable.const _
          · exact Ends.bind (computeCentroids_stable env all asg _) (ih _) (fun _ => Stable.const _)
              fun _ _ _ => ⟨0, fun h => by cases h⟩
    | panic => exact ⟨0, fun h => by cases h⟩

theorem iteration_ends {env : Env T} (hs : IsSort env.sort) {points : List T} {n : Nat} (hne : points ≠ [])
    (hf : Fair env.rand n) {cl : Clusters T} (hi : Invariant env points n cl) (k : Nat) :
    Ends fun fuel => iteration env fuel cl k := by
  simp only [iteration, updateCentroids, updateNeighbours]
  refine Ends.bind (Stable.const _) ⟨0, assignPoints_ne_err⟩ (fun a => ?_) fun a _ ha => ?_
  · exact ((computeCentroids_stable env _ _ _).bind fun b => Stable.const _).bind fun b =>
      ((computeNeighbours_stable env _ _).bind fun d => Stable.const _).bind fun c => Stable.const _
  obtain ⟨cl1, ch⟩ := a
  obtain ⟨a1, a2, a3, a4, a5, -⟩ := assignPoints_ok ha
  have hsome : ∃ v ∈ cl1.assignment, v ≠ [] := by
    apply Classical.byContradiction
    intro h
    have : cl1.assignment.flatten = [] := by
      rw [List.flatten_eq_nil_iff]
      intro v hv
      exact Classical.byContradiction fun hn => h ⟨v, hv, hn⟩
    apply hne
    have h2 := a5.trans hi.points
    rw [this] at h2
    exact h2.symm.eq_nil
  obtain ⟨v, hv, hvne⟩ := hsome
  have hf' : Fair env.rand cl1.assignment.length := by
    rw [a3, hi.assignment]
    exact hf
  refine Ends.bind ((computeCentroids_stable env _ _ _).bind fun b => Stable.const _) ?_ (fun b => ?_) fun b _ _ => ?_
  · exact Ends.bind (computeCentroids_stable env _ _ _) (computeCentroids_ends hf' hv hvne _ _) (fun _ => Stable.const _)
      fun _ _ _ => ⟨0, fun h => by cases h⟩
  · exact ((computeNeighbours_stable env _ _).bind fun d => Stable.const _).bind fun c => Stable.const _
  · refine Ends.bind ((computeNeighbours_stable env _ _).bind fun d => Stable.const _) ?_ (fun _ => Stable.const _)
      fun _ _ _ => ⟨0, fun h => by cases h⟩
    exact Ends.bind (computeNeighbours_stable env _ _) ⟨2, computeNeighbours_ne_err (fuel := 0) hs⟩ (fun _ => Stable.const _)
      fun _ _ _ => ⟨0, fun h => by cases h⟩

theorem iterate_ends {env : Env T} {P : T → Prop} {points : List T} {cost : T → T → Nat} (hs : IsSort env.sort)
    (hm : MeanOfSome env.pt) (hc : Closed env.pt P points) (hl : Lowers env.pt P points cost) {n : Nat} (hne : points ≠ [])
    (hf : Fair env.rand n) (b : Nat) (cl : Clusters T) (hi : Invariant env points n cl) (hcs : ∀ c ∈ cl.centroids, P c)
    (hb : bill cost cl.centroids cl.assignment = b) (k : Nat) :
    ∃ fuel left, iterate env fuel left cl k ≠ .err () := by
  induction b using Nat.strongRecOn generalizing cl k with
  | ind b ih =>
    obtain ⟨fuel, hfuel⟩ := iteration_ends hs hne hf hi k
    dsimp only at hfuel
    cases e : iteration env fuel cl k with
    | err u => exact absurd e hfuel
    | panic =>
      refine ⟨fuel, 1, ?_⟩
      rw [iterate, e]
      intro h
      cases h
    | ok r =>
      obtain ⟨cl', ch, k'⟩ := r
      cases ch with
      | false =>
        refine ⟨fuel, 1, ?_⟩
        rw [iterate, e]
        intro h
        cases h
      | true =>
        have hlt := iteration_lowers hl hm hi hcs e
        obtain ⟨fuel', left', h'⟩ := ih _ (hb ▸ hlt) cl' (iteration_ok hs hi e) (iteration_closed hc hi e) rfl k'
        refine ⟨max fuel fuel', left' + 1, ?_⟩
        have e' : iteration env (max fuel fuel') cl k = iteration env fuel cl k :=
          iteration_stable env cl k fuel _ (le_max_left _ _) hfuel
        rw [iterate, e', e, Ret.bind_ok_eq]
        dsimp only
        rw [if_pos rfl, iterate_stable env left' fuel' cl' k' h' left' _ (le_refl _) (le_max_right _ _)]
        exact h'

theorem cluster_ends {env : Env T} {P : T → Prop} {points : List T} {cost : T → T → Nat} (hs : IsSort env.sort)
    (hm : MeanOfSome env.pt) (hc : Closed env.pt P points) (hl : Lowers env.pt P points cost) {n : Nat}
    (hf : Fair env.rand n) : Ends fun fuel => cluster env fuel points n := by
  simp only [cluster]
  refine Ends.bind (init_stable env points n) ⟨2, init_ne_err (fuel := 1) hs⟩ (fun cl => Stable.bind ?_ fun c => ?_)
    fun cl fuel hcl => ?_
  · intro a b hle h
    exact iterate_stable env a a cl 0 h b b hle hle
  · split <;> exact Stable.const _
  · have hi := init_ok hs hcl
    have hne : points ≠ [] := by
      rw [init] at hcl
      obtain ⟨asg, h1, -⟩ := Ret.bind_ok.1 hcl
      rintro rfl
      simp only [initAssignment, List.length_nil, Nat.zero_div] at h1
      split at h1 <;> simp at h1
    obtain ⟨fuel', left, h⟩ := iterate_ends hs hm hc hl hne hf _ cl hi (init_closed hc hcl) rfl 0
    refine Ends.bind (f := fun fuel => iterate env fuel fuel cl 0) ?_ ⟨max fuel' left, ?_⟩ (fun c => ?_) fun c _ _ => ?_
    · intro a b hle h
      exact iterate_stable env a a cl 0 h b b hle hle
    · dsimp only
      rw [iterate_stable env left fuel' cl 0 h _ _ (le_max_right _ _) (le_max_left _ _)]
      exact h
    · split <;> exact Stable.const _
    · split <;> exact ⟨0, fun h => by cases h⟩

end Kmeans
end Cniic
