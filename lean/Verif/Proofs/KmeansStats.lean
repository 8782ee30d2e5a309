import Verif.Model.KmeansStats
import Verif.Spec.KmeansStats
import Verif.Proofs.Kmeans

namespace Cniic
namespace Kmeans
open Spec.Kmeans

variable {T : Type} {env : Env T}

/-! ## Without the counters -/

theorem Ret.bind_expect_none {α β : Type} (f : α → Ret Unit β) : (Ret.expect (none : Option α) >>= f) = .panic := rfl

theorem Ret.bind_expect_some {α β : Type} (a : α) (f : α → Ret Unit β) : (Ret.expect (some a) >>= f) = f a := rfl

theorem scanStats_fst (pt : PointOps T) (cs : List T) (x : T) (cutoff : Rat) (l : List (Nat × Rat)) (pos : Nat) (md : Rat)
    (j t : Nat) : (scanStats pt cs x cutoff l pos md j t >>= fun r => .ok r.1) = scan pt cs x cutoff l pos md j := by
  induction l generalizing pos md j t with
  | nil => rfl
  | cons e l ih =>
    obtain ⟨tsi, d⟩ := e
    rw [scanStats, scan]
    split
    · rfl
    · cases cs[tsi]? with
      | none => rfl
      | some c =>
        rw [Ret.bind_expect_some, Ret.bind_expect_some]
        cases pt.dist c x with
        | none => rfl
        | some td =>
          rw [Ret.bind_expect_some, Ret.bind_expect_some]
          split
          · exact ih ..
          · exact ih ..

theorem chooseStats_fst (cs : List T) (g : Neigh) (i : Nat) (x : T) (s : Stats) (hi : i < s.maxTested.length) :
    (chooseStats env cs g i x s >>= fun r => .ok (r.1, r.2.1)) = choose env cs g i x := by
  rw [chooseStats, choose]
  cases cs[i]? with
  | none => rfl
  | some c =>
    rw [Ret.bind_expect_some, Ret.bind_expect_some]
    cases env.pt.dist c x with
    | none => rfl
    | some d =>
      rw [Ret.bind_expect_some, Ret.bind_expect_some]
      split
      · rfl
      · rw [← scanStats_fst env.pt cs x _ g.neighbours 0 d i 0]
        cases scanStats env.pt cs x (env.fl.mul 2 d) g.neighbours 0 d i 0 with
        | err e => rfl
        | panic => rfl
        | ok r =>
          obtain ⟨⟨d', j, w⟩, t, cut⟩ := r
          simp only [Ret.bind_ok_eq]
          rw [update, if_pos hi, Ret.bind_expect_some, Ret.bind_ok_eq]

theorem chooseStats_length {cs : List T} {g g' : Neigh} {i j : Nat} {x : T} {s s' : Stats}
    (h : chooseStats env cs g i x s = .ok (j, g', s')) : s'.maxTested.length = s.maxTested.length := by
  rw [chooseStats] at h
  obtain ⟨c, -, h⟩ := Ret.bind_ok.1 h
  obtain ⟨d, -, h⟩ := Ret.bind_ok.1 h
  split at h
  · cases h; rfl
  · obtain ⟨⟨⟨d', j', w⟩, t, cut⟩, -, h⟩ := Ret.bind_ok.1 h
    obtain ⟨mt, h1, h⟩ := Ret.bind_ok.1 h
    obtain ⟨-, rfl⟩ := update_ok (Ret.expect_ok.1 h1)
    cases h
    simp

theorem assignLoopStats_fst (cs : List T) (l : List (Nat × T)) (asg : List (List T)) (ns : List Neigh) (ch : Bool) (s : Stats)
    (hl : ∀ e ∈ l, e.1 < s.maxTested.length) :
    (assignLoopStats env cs l asg ns ch s >>= fun r => .ok r.1) = assignLoop env cs l asg ns ch := by
  induction l generalizing asg ns ch s with
  | nil => rfl
  | cons e l ih =>
    obtain ⟨i, x⟩ := e
    rw [assignLoopStats, assignLoop]
    cases ns[i]? with
    | none => rfl
    | some g =>
      rw [Ret.bind_expect_some, Ret.bind_expect_some, ← chooseStats_fst cs g i x s (hl _ List.mem_cons_self)]
      cases hc : chooseStats env cs g i x s with
      | err e => rfl
      | panic => rfl
      | ok r =>
        obtain ⟨j, g', s'⟩ := r
        have hlen := chooseStats_length hc
        simp only [Ret.bind_ok_eq]
        cases update ns i fun _ => g' with
        | none => rfl
        | some ns' =>
          simp only [Ret.bind_expect_some]
          cases update asg j (· ++ [x]) with
          | none => rfl
          | some asg' =>
            simp only [Ret.bind_expect_some]
            have hl' : ∀ e ∈ l, e.1 < s'.maxTested.length := fun e he => by
              rw [hlen]; exact hl e (List.mem_cons_of_mem _ he)
            split
            · rename_i hij
              rw [hij, Bool.or_true]
              exact ih _ _ _ _ hl'
            · rename_i hij
              have hij : (i != j) = false := by simpa using hij
              rw [hij, Bool.or_false]
              exact ih _ _ _ _ hl'

/-! ## The counters -/

theorem look_strip {cs : List T} {ns ns' : List Neigh} (h : ns'.map strip = ns.map strip) (p : Nat × T) :
    look env cs ns' p = look env cs ns p := by
  have := congrArg (fun l => l[p.1]?) h
  simp only [List.getElem?_map] at this
  unfold look
  cases cs[p.1]? with
  | none => rfl
  | some c =>
    cases h1 : ns[p.1]? with
    | none => rw [h1] at this; rw [Option.map_eq_none_iff.1 this]
    | some g =>
      cases h2 : ns'[p.1]? with
      | none => rw [h1, h2] at this; cases this
      | some g' =>
        rw [h1, h2] at this
        simp only [Option.map_some, Option.some.injEq, strip, Prod.mk.injEq] at this
        obtain ⟨s, l, w⟩ := g
        obtain ⟨s', l', w'⟩ := g'
        obtain ⟨-, rfl⟩ := this
        rfl

theorem tests_strip {cs : List T} {ns ns' : List Neigh} (h : ns'.map strip = ns.map strip) (l : List (Nat × T)) :
    tests env cs ns' l = tests env cs ns l := by
  unfold tests
  congr 1
  funext p
  rw [look_strip h]

theorem scanStats_tested {pt : PointOps T} {cs : List T} {x : T} {cutoff : Rat} {l : List (Nat × Rat)} {pos j t t' : Nat} {md : Rat}
    {r : Rat × Nat × Nat} {cut : Bool} (h : scanStats pt cs x cutoff l pos md j t = .ok (r, t', cut)) :
    let w := (l.takeWhile fun e => decide (e.2 ≤ cutoff)).length
    (t', cut) = if w < l.length then (t + w + 1, true) else (t + w, false) := by
  induction l generalizing pos md j t with
  | nil => cases h; rfl
  | cons e l ih =>
    obtain ⟨tsi, d⟩ := e
    rw [scanStats] at h
    split at h
    · rename_i hd
      have : ¬d ≤ cutoff := Rat.not_le.2 hd
      cases h
      simp [List.takeWhile_cons, this]
    · rename_i hd
      have hd : d ≤ cutoff := Rat.not_lt.1 hd
      obtain ⟨c, -, h⟩ := Ret.bind_ok.1 h
      obtain ⟨td, -, h⟩ := Ret.bind_ok.1 h
      have : (t', cut) = if (l.takeWhile fun e => decide (e.2 ≤ cutoff)).length < l.length
          then (t + 1 + (l.takeWhile fun e => decide (e.2 ≤ cutoff)).length + 1, true)
          else (t + 1 + (l.takeWhile fun e => decide (e.2 ≤ cutoff)).length, false) := by
        split at h
        · exact ih h
        · exact ih h
      dsimp only
      rw [this, List.takeWhile_cons]
      simp only [hd, decide_true, if_true, List.length_cons, Nat.add_lt_add_iff_right]
      split
      · simp; omega
      · simp; omega

/-- One point: what happens to the counters. -/
theorem chooseStats_ok {cs : List T} {g g' : Neigh} {ns : List Neigh} {i j : Nat} {x : T} {s s' : Stats} (hg : ns[i]? = some g)
    (h : chooseStats env cs g i x s = .ok (j, g', s')) :
    s'.moved = s.moved ∧ s'.stayed = s.stayed ∧ (look env cs ns (i, x) = none → j = i) ∧
    match look env cs ns (i, x) with
    | none => s'.obvious = s.obvious + 1 ∧ s'.cutoff = s.cutoff ∧ s'.sumTested = s.sumTested ∧ s'.maxTested = s.maxTested
    | some (t, cut) => s'.obvious = s.obvious ∧ s'.cutoff = s.cutoff + (if cut then 1 else 0) ∧ s'.sumTested = s.sumTested + t ∧
        s'.maxTested = s.maxTested.modify i fun m => max m t := by
  rw [chooseStats] at h
  obtain ⟨c, hc, h⟩ := Ret.bind_ok.1 h
  obtain ⟨d, hd, h⟩ := Ret.bind_ok.1 h
  have hc := Ret.expect_ok.1 hc
  have hd := Ret.expect_ok.1 hd
  have hlook : look env cs ns (i, x) = if g.stays env.fl d then none else
      some (if within g (env.fl.mul 2 d) < g.neighbours.length then (within g (env.fl.mul 2 d) + 1, true)
        else (within g (env.fl.mul 2 d), false)) := by
    have hst : g.stays env.fl d = g.neighbours.head?.all fun e => decide (d ≤ env.fl.div e.2 2) := by
      unfold Neigh.stays Neigh.certaintyRadius
      cases g.neighbours.head? <;> rfl
    simp only [look, hc, hg, hd, hst]
  rw [hlook]
  split at h
  · rename_i hst
    rw [if_pos hst]
    cases h
    exact ⟨rfl, rfl, fun _ => rfl, rfl, rfl, rfl, rfl⟩
  · rename_i hst
    rw [if_neg hst]
    obtain ⟨⟨⟨d', j', w⟩, t, cut⟩, h1, h⟩ := Ret.bind_ok.1 h
    obtain ⟨mt, h2, h⟩ := Ret.bind_ok.1 h
    obtain ⟨-, rfl⟩ := update_ok (Ret.expect_ok.1 h2)
    have h3 := scanStats_tested h1
    simp only [Nat.zero_add] at h3
    rw [show (if within g (env.fl.mul 2 d) < g.neighbours.length then (within g (env.fl.mul 2 d) + 1, true)
        else (within g (env.fl.mul 2 d), false)) = (t, cut) from h3.symm]
    cases h
    refine ⟨rfl, rfl, (fun h => by simp at h), rfl, ?_, rfl, rfl⟩
    cases cut <;> rfl

/-- The whole loop. -/
theorem assignLoopStats_ok {cs : List T} {l : List (Nat × T)} {asg asg' : List (List T)} {ns ns' : List Neigh} {ch ch' : Bool}
    {s s' : Stats} (h : assignLoopStats env cs l asg ns ch s = .ok ((asg', ns', ch'), s')) :
    ∃ moves : List (Move T), moves.map (fun m => (m.source, m.point)) = l ∧
      (∀ m ∈ moves, m.target < asg.length) ∧
      (∀ j v, asg[j]? = some v → asg'[j]? = some (v ++ arrivals moves j)) ∧
      ch' = (ch || moves.any fun m => m.source != m.target) ∧
      (∀ m ∈ moves, look env cs ns (m.source, m.point) = none → m.target = m.source) ∧
      s'.moved = s.moved + moves.countP (fun m => m.source != m.target) ∧
      s'.stayed = s.stayed + moves.countP (fun m => m.source == m.target) ∧
      s'.obvious = s.obvious + l.countP (fun p => (look env cs ns p).isNone) ∧
      s'.cutoff = s.cutoff + l.countP (fun p => (look env cs ns p).any Prod.snd) ∧
      s'.sumTested = s.sumTested + (tests env cs ns l).sum ∧
      s'.maxTested = s.maxTested.mapIdx fun i m => max m (largest (tests env cs ns (l.filter fun p => p.1 == i))) := by
  induction l generalizing asg ns ch s with
  | nil =>
    cases h
    refine ⟨[], rfl, by simp, ?_, by simp, by simp, rfl, rfl, rfl, rfl, rfl, ?_⟩
    · intro j v hv; simpa [arrivals] using hv
    · apply List.ext_getElem?
      intro k
      simp [tests, largest]
  | cons e l ih =>
    obtain ⟨i, x⟩ := e
    rw [assignLoopStats] at h
    obtain ⟨g, hg, h⟩ := Ret.bind_ok.1 h
    obtain ⟨⟨j, g', s1⟩, hc, h⟩ := Ret.bind_ok.1 h
    obtain ⟨ns1, hn, h⟩ := Ret.bind_ok.1 h
    obtain ⟨asg1, ha, h⟩ := Ret.bind_ok.1 h
    have hg := Ret.expect_ok.1 hg
    obtain ⟨hi, rfl⟩ := update_ok (Ret.expect_ok.1 hn)
    obtain ⟨hj, rfl⟩ := update_ok (Ret.expect_ok.1 ha)
    obtain ⟨c1, c2, c3, c4⟩ := chooseStats_ok hg hc
    have hstrip : strip g' = strip g := by
      rw [chooseStats] at hc
      obtain ⟨c, -, hc⟩ := Ret.bind_ok.1 hc
      obtain ⟨d, -, hc⟩ := Ret.bind_ok.1 hc
      split at hc
      · cases hc; rfl
      · obtain ⟨⟨⟨d', j', w⟩, t, cut⟩, -, hc⟩ := Ret.bind_ok.1 hc
        obtain ⟨mt, -, hc⟩ := Ret.bind_ok.1 hc
        cases hc; rfl
    have hns := map_modify_strip ns i g g' hg hstrip
    have key : ∃ s2 : Stats, s2.obvious = s1.obvious ∧ s2.cutoff = s1.cutoff ∧ s2.sumTested = s1.sumTested ∧
        s2.maxTested = s1.maxTested ∧ s2.moved = s1.moved + (if i != j then 1 else 0) ∧
        s2.stayed = s1.stayed + (if i == j then 1 else 0) ∧
        assignLoopStats env cs l (asg.modify j (· ++ [x])) (ns.modify i fun _ => g') (ch || i != j) s2 =
          .ok ((asg', ns', ch'), s') := by
      by_cases hij : i = j
      · have : (i != j) = false := by simp [hij]
        simp only [this, Bool.false_eq_true, if_false] at h
        exact ⟨{ s1 with stayed := s1.stayed + 1 }, rfl, rfl, rfl, rfl, by simp [hij], by simp [hij], by rw [this, Bool.or_false]; exact h⟩
      · have : (i != j) = true := by simp [hij]
        simp only [this, if_true] at h
        exact ⟨{ s1 with moved := s1.moved + 1 }, rfl, rfl, rfl, rfl, by simp [hij], by simp [hij], by rw [this, Bool.or_true]; exact h⟩
    obtain ⟨s2, k1, k2, k3, k4, k5, k6, h⟩ := key
    obtain ⟨moves, m1, m2, m3, m4, m5, m6, m7, m8, m9, m10, m11⟩ := ih h
    simp only [tests_strip hns, look_strip hns, List.length_modify] at m2 m5 m8 m9 m10 m11
    refine ⟨⟨i, x, j⟩ :: moves, by rw [List.map_cons, m1], ?_, ?_, ?_, ?_, ?_, ?_, ?_, ?_, ?_, ?_⟩
    · intro m hm
      rcases List.mem_cons.1 hm with rfl | hm
      · exact hj
      · exact m2 m hm
    · intro k v hv
      by_cases hk : j = k
      · subst hk
        rw [m3 j (v ++ [x]) (by rw [List.getElem?_modify, hv]; simp)]
        simp [arrivals]
      · rw [m3 k v (by rw [List.getElem?_modify, hv]; simp [hk])]
        simp [arrivals, hk]
    · rw [m4, List.any_cons, Bool.or_assoc]
    · intro m hm
      rcases List.mem_cons.1 hm with rfl | hm
      · exact c3
      · exact m5 m hm
    · simp only [m6, k5, c1, List.countP_cons]; omega
    · simp only [m7, k6, c2, List.countP_cons]; omega
    · rw [m8, k1, List.countP_cons]
      cases hlk : look env cs ns (i, x) with
      | none => rw [hlk] at c4; simp; omega
      | some r => rw [hlk] at c4; simp; omega
    · rw [m9, k2, List.countP_cons]
      cases hlk : look env cs ns (i, x) with
      | none => rw [hlk] at c4; simp; omega
      | some r => obtain ⟨t, cut⟩ := r; rw [hlk] at c4; cases cut <;> simp at c4 ⊢ <;> omega
    · rw [m10, k3]
      simp only [tests, List.filterMap_cons]
      cases hlk : look env cs ns (i, x) with
      | none => rw [hlk] at c4; simp; omega
      | some r => obtain ⟨t, cut⟩ := r; rw [hlk] at c4; simp; omega
    · rw [m11, k4]
      apply List.ext_getElem?
      intro k
      rw [List.getElem?_mapIdx, List.getElem?_mapIdx, List.filter_cons]
      cases hlk : look env cs ns (i, x) with
      | none =>
        rw [hlk] at c4
        rw [c4.2.2.2]
        congr 1
        funext m
        split
        · simp [tests, hlk]
        · rfl
      | some r =>
        obtain ⟨t, cut⟩ := r
        rw [hlk] at c4
        rw [c4.2.2.2, List.getElem?_modify]
        cases s.maxTested[k]? with
        | none => rfl
        | some m =>
          by_cases hik : i = k
          · subst hik
            simp [tests, hlk, largest]
          · simp [hik]

theorem largest_le {l : List Nat} {b : Nat} : largest l ≤ b ↔ ∀ t ∈ l, t ≤ b := by
  induction l with
  | nil => simp [largest]
  | cons a l ih =>
    rw [largest, List.foldr_cons, ← largest]
    simp only [List.mem_cons, forall_eq_or_imp, ← ih]
    omega

theorem le_largest {l : List Nat} {t : Nat} (h : t ∈ l) : t ≤ largest l := largest_le.1 (Nat.le_refl _) t h

theorem sum_le_length_mul {l : List Nat} {b : Nat} (h : ∀ t ∈ l, t ≤ b) : l.sum ≤ l.length * b := by
  induction l with
  | nil => simp
  | cons a l ih =>
    have h1 := h a List.mem_cons_self
    have h2 := ih fun t ht => h t (List.mem_cons_of_mem _ ht)
    rw [List.sum_cons, List.length_cons, Nat.succ_mul]
    omega

theorem length_mul_le_sum {l : List Nat} {b : Nat} (h : ∀ t ∈ l, b ≤ t) : l.length * b ≤ l.sum := by
  induction l with
  | nil => simp
  | cons a l ih =>
    have h1 := h a List.mem_cons_self
    have h2 := ih fun t ht => h t (List.mem_cons_of_mem _ ht)
    rw [List.sum_cons, List.length_cons, Nat.succ_mul]
    omega

theorem tests_length (cs : List T) (ns : List Neigh) (l : List (Nat × T)) :
    (tests env cs ns l).length + l.countP (fun p => (look env cs ns p).isNone) = l.length := by
  induction l with
  | nil => rfl
  | cons p l ih =>
    rw [tests, List.filterMap_cons, ← tests, List.countP_cons, List.length_cons]
    cases look env cs ns p with
    | none => simp; omega
    | some r => simp; omega

theorem cutoff_le (cs : List T) (ns : List Neigh) (l : List (Nat × T)) :
    l.countP (fun p => (look env cs ns p).any Prod.snd) ≤ (tests env cs ns l).length := by
  induction l with
  | nil => simp
  | cons p l ih =>
    rw [tests, List.filterMap_cons, ← tests, List.countP_cons]
    cases look env cs ns p with
    | none => simpa using ih
    | some r => obtain ⟨t, cut⟩ := r; cases cut <;> simp <;> omega

theorem countP_target (moves : List (Move T)) :
    moves.countP (fun m => m.source != m.target) + moves.countP (fun m => m.source == m.target) = moves.length := by
  induction moves with
  | nil => rfl
  | cons m moves ih =>
    rw [List.countP_cons, List.countP_cons, List.length_cons]
    by_cases h : m.source = m.target
    · simp [h]; omega
    · simp [h]; omega

theorem max?_mapIdx_range (f : Nat → Nat) (n : Nat) (hn : 0 < n) :
    ∃ M m, ((List.range n).map f).max? = some M ∧ ((List.range n).map f).min? = some m := by
  cases h1 : ((List.range n).map f).max? with
  | none => rw [List.max?_eq_none_iff] at h1; simp at h1; omega
  | some M =>
    cases h2 : ((List.range n).map f).min? with
    | none => rw [List.min?_eq_none_iff] at h2; simp at h2; omega
    | some m => exact ⟨M, m, rfl, rfl⟩

theorem replicate_mapIdx (n : Nat) (f : Nat → Nat) : (List.replicate n 0).mapIdx (fun i m => max m (f i)) = (List.range n).map f := by
  apply List.ext_getElem?
  intro k
  rw [List.getElem?_mapIdx, List.getElem?_map, List.getElem?_replicate]
  by_cases hk : k < n
  · rw [if_pos hk, List.getElem?_range hk]; simp
  · rw [if_neg hk, List.getElem?_eq_none (by simpa using hk)]; rfl

theorem report_some {s : Stats} {n : Nat} (hn : 0 < n) (f : Nat → Nat) (hm : s.maxTested = (List.range n).map f)
    (ho : s.obvious ≤ s.moved + s.stayed) :
    ∃ r, s.report = some r ∧ r.moved = s.moved ∧ r.stayed = s.stayed ∧ r.radius = s.obvious ∧ r.cutoff = s.cutoff ∧
      r.stoppedEarly = s.obvious + s.cutoff ∧
      ((∃ i, i < n ∧ r.globalMax = f i) ∧ ∀ i, i < n → f i ≤ r.globalMax) ∧
      ((∃ i, i < n ∧ r.minMax = f i) ∧ ∀ i, i < n → r.minMax ≤ f i) ∧
      r.average = if s.moved + s.stayed - s.obvious ≠ 0 then some (s.sumTested / (s.moved + s.stayed - s.obvious)) else none := by
  obtain ⟨M, m, h1, h2⟩ := max?_mapIdx_range f n hn
  refine ⟨_, by rw [Stats.report, hm, h1, h2]; exact if_pos ho, rfl, rfl, rfl, rfl, rfl, ?_, ?_, rfl⟩
  · rw [List.max?_eq_some_iff] at h1
    obtain ⟨h1, h3⟩ := h1
    obtain ⟨i, hi, rfl⟩ := List.mem_map.1 h1
    exact ⟨⟨i, List.mem_range.1 hi, rfl⟩, fun k hk => h3 _ (List.mem_map.2 ⟨k, List.mem_range.2 hk, rfl⟩)⟩
  · rw [List.min?_eq_some_iff] at h2
    obtain ⟨h1, h3⟩ := h2
    obtain ⟨i, hi, rfl⟩ := List.mem_map.1 h1
    exact ⟨⟨i, List.mem_range.1 hi, rfl⟩, fun k hk => h3 _ (List.mem_map.2 ⟨k, List.mem_range.2 hk, rfl⟩)⟩

/-- The counters at the end of a pass. -/
theorem stats_ok {cl : Clusters T} {asg' : List (List T)} {ns' : List Neigh} {ch' : Bool} {s : Stats}
    (h : assignLoopStats env cl.centroids (tagged cl.assignment) (List.replicate cl.centroids.length []) cl.neighbours false
      (Stats.zero cl.assignment.length) = .ok ((asg', ns', ch'), s)) :
    ∃ moves : List (Move T), moves.map (fun m => (m.source, m.point)) = tagged cl.assignment ∧
      (∀ j, j < cl.centroids.length → asg'[j]? = some (arrivals moves j)) ∧
      (ch' = moves.any fun m => m.source != m.target) ∧
      (∀ m ∈ moves, look env cl.centroids cl.neighbours (m.source, m.point) = none → m.target = m.source) ∧
      s.moved = moves.countP (fun m => m.source != m.target) ∧
      s.stayed = moves.countP (fun m => m.source == m.target) ∧
      s.obvious = (tagged cl.assignment).countP (fun p => (look env cl.centroids cl.neighbours p).isNone) ∧
      s.cutoff = (tagged cl.assignment).countP (fun p => (look env cl.centroids cl.neighbours p).any Prod.snd) ∧
      s.sumTested = (tests env cl.centroids cl.neighbours (tagged cl.assignment)).sum ∧
      s.maxTested = (List.range cl.assignment.length).map fun i =>
        largest (tests env cl.centroids cl.neighbours (ofCluster cl.assignment i)) := by
  obtain ⟨moves, m1, -, m3, m4, m5, m6, m7, m8, m9, m10, m11⟩ := assignLoopStats_ok h
  refine ⟨moves, m1, ?_, by simpa using m4, m5, ?_, ?_, ?_, ?_, ?_, ?_⟩
  · intro j hj
    have := m3 j [] (by rw [List.getElem?_replicate, if_pos hj])
    simpa using this
  · simpa [Stats.zero] using m6
  · simpa [Stats.zero] using m7
  · simpa [Stats.zero] using m8
  · simpa [Stats.zero] using m9
  · simpa [Stats.zero] using m10
  · rw [m11]
    exact replicate_mapIdx _ _

/-- No point within the radius moves. -/
theorem obvious_le {P : Nat × T → Bool} {moves : List (Move T)} {l : List (Nat × T)}
    (h1 : moves.map (fun m => (m.source, m.point)) = l) (h2 : ∀ m ∈ moves, P (m.source, m.point) = true → m.target = m.source) :
    l.countP P ≤ moves.countP fun m => m.source == m.target := by
  rw [← h1, List.countP_map]
  apply List.countP_mono_left
  intro m hm hp
  simpa using (h2 m hm hp).symm

theorem assignPointsStats_fst (cl : Clusters T) : (assignPointsStats env cl >>= fun r => .ok r.1) = assignPoints env cl := by
  rw [assignPointsStats, assignPoints]
  split
  · rename_i hlen
    rw [← assignLoopStats_fst cl.centroids (tagged cl.assignment) _ cl.neighbours false (Stats.zero cl.assignment.length)
      (fun e he => by have := tagged_lt he; simpa [Stats.zero] using this)]
    cases hl : assignLoopStats env cl.centroids (tagged cl.assignment) (List.replicate cl.centroids.length []) cl.neighbours false
      (Stats.zero cl.assignment.length) with
    | err e => rfl
    | panic => rfl
    | ok r =>
      obtain ⟨⟨asg', ns', ch'⟩, s⟩ := r
      simp only [Ret.bind_ok_eq]
      obtain ⟨moves, m1, m3, m4, m5, m6, m7, m8, m9, m10, m11⟩ := stats_ok hl
      split
      · rename_i h0
        have : s.report = none := by
          rw [h0] at m11
          rw [Stats.report, m11]; rfl
        rw [this]; rfl
      · rename_i h0
        have hle : s.obvious ≤ s.moved + s.stayed := by
          have := obvious_le (P := fun p => (look env cl.centroids cl.neighbours p).isNone) m1
            (fun m hm h => m5 m hm (by simpa using h))
          omega
        obtain ⟨r, hr, -⟩ := report_some (by omega) _ m11 hle
        rw [hr]; rfl
  · rfl

theorem mem_tests {cs : List T} {ns : List Neigh} {l : List (Nat × T)} {t : Nat} (h : t ∈ tests env cs ns l) :
    ∃ p ∈ l, ∃ cut, look env cs ns p = some (t, cut) := by
  obtain ⟨p, hp, h⟩ := List.mem_filterMap.1 h
  obtain ⟨⟨t', cut⟩, h', rfl⟩ := Option.map_eq_some_iff.1 h
  exact ⟨p, hp, cut, h'⟩

/-- A point of which something is counted has a neighbour looked at, and no more are than there are in the list. -/
theorem look_bounds {cs : List T} {ns : List Neigh} {p : Nat × T} {t : Nat} {cut : Bool} (h : look env cs ns p = some (t, cut)) :
    ∃ g, ns[p.1]? = some g ∧ 1 ≤ t ∧ t ≤ g.neighbours.length := by
  unfold look at h
  split at h
  · rename_i c g hc hg
    refine ⟨g, hg, ?_⟩
    split at h
    · rename_i d hd
      split at h
      · cases h
      · rename_i hall
        have hle : within g (env.fl.mul 2 d) ≤ g.neighbours.length := List.Sublist.length_le (List.takeWhile_sublist _)
        have hpos : 0 < g.neighbours.length := by
          cases hn : g.neighbours with
          | nil => rw [hn] at hall; simp at hall
          | cons e l => simp
        dsimp only at h
        split at h
        · cases h; omega
        · cases h; omega
    · cases h
  · cases h

end Kmeans
end Cniic
