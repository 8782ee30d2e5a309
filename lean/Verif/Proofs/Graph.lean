import Mathlib.Data.List.Perm.Subperm
import Verif.Spec.Graph
import Verif.Proofs.Kmeans
import Verif.Proofs.KmeansCount

/-! # Proofs: the graph of the neighbours -/

namespace Cniic.Kmeans
open Spec Spec.Kmeans

variable {T : Type} {env : Env T}

/-- A side that no list leaves has more clusters than the lists have entries. -/
theorem side_size {points : List T} {n : Nat} {cl : Clusters T} (hi : Invariant env points n cl) {S : Nat → Bool} {b : Bool}
    (h : ¬Crosses cl S) {i : Nat} (hn : i < n) (hb : S i = b) :
    min (env.lower n) (n - 1) + 1 ≤ ((List.range n).filter fun k => S k == b).length := by
  have hlt : i < cl.neighbours.length := by rw [hi.neighbours]; exact hn
  have hg := List.getElem?_eq_getElem hlt
  obtain ⟨hwf, hlen⟩ := hi.lists i _ hg
  generalize cl.neighbours[i] = g at hg hwf hlen
  have hnd : (i :: g.neighbours.map (·.1)).Nodup := by
    refine List.nodup_cons.2 ⟨?_, hwf.distinct⟩
    intro hm
    obtain ⟨e, he, hei⟩ := List.mem_map.1 hm
    exact (hwf.others e he).1 hei
  have hsub : i :: g.neighbours.map (·.1) ⊆ (List.range n).filter fun k => S k == b := by
    intro k hk
    rcases List.mem_cons.1 hk with rfl | hk
    · exact List.mem_filter.2 ⟨List.mem_range.2 hn, by simp [hb]⟩
    · obtain ⟨e, he, rfl⟩ := List.mem_map.1 hk
      have h1 := (hwf.others e he).2
      rw [hi.centroids] at h1
      refine List.mem_filter.2 ⟨List.mem_range.2 h1, ?_⟩
      rw [beq_iff_eq, ← hb]
      apply Classical.byContradiction
      intro hne
      exact h ⟨i, g, e, hg, he, fun hse => hne hse.symm⟩
  have := (hnd.subperm hsub).length_le
  rw [List.length_cons, List.length_map] at this
  omega

theorem sides_size (S : Nat → Bool) (n : Nat) : ((List.range n).filter fun k => S k == true).length +
    ((List.range n).filter fun k => S k == false).length = n := by
  have h : ∀ l : List Nat, (l.filter fun k => S k == true).length + (l.filter fun k => S k == false).length = l.length := by
    intro l
    induction l with
    | nil => rfl
    | cons a l ih => cases ha : S a <;> simp [ha] at ih ⊢ <;> omega
  simpa using h (List.range n)

theorem joined_of_few {points : List T} {n : Nat} {cl : Clusters T} (hi : Invariant env points n cl)
    (hn : n < 2 * (env.lower n + 1)) : Joined n cl := by
  rintro S ⟨i, hi1, hi2⟩ ⟨j, hj1, hj2⟩
  apply Classical.byContradiction
  intro h
  have h1 := side_size hi h hi1 hi2
  have h2 := side_size hi h hj1 hj2
  have h3 := sides_size S n
  omega

/-- A point stays or goes to a listed cluster. -/
theorem scan_listed {pt : PointOps T} {cs : List T} {x : T} {cutoff : Rat} {l : List (Nat × Rat)} {pos closest j w : Nat}
    {md md' : Rat} (h : scan pt cs x cutoff l pos md closest = .ok (md', j, w)) : j = closest ∨ j ∈ l.map (·.1) := by
  induction l generalizing pos md closest with
  | nil => cases h; exact Or.inl rfl
  | cons a l ih =>
    obtain ⟨t, d⟩ := a
    rw [scan] at h
    split at h
    · cases h; exact Or.inl rfl
    · obtain ⟨c, -, h⟩ := Ret.bind_ok.1 h
      obtain ⟨td, -, h⟩ := Ret.bind_ok.1 h
      split at h
      · rcases ih h with rfl | h
        · exact Or.inr (by simp)
        · exact Or.inr (List.mem_cons_of_mem _ h)
      · rcases ih h with rfl | h
        · exact Or.inl rfl
        · exact Or.inr (List.mem_cons_of_mem _ h)

theorem choose_listed {cs : List T} {g g' : Neigh} {i j : Nat} {x : T} (h : choose env cs g i x = .ok (j, g')) :
    j = i ∨ j ∈ g.neighbours.map (·.1) := by
  rw [choose] at h
  obtain ⟨c, -, h⟩ := Ret.bind_ok.1 h
  obtain ⟨d, -, h⟩ := Ret.bind_ok.1 h
  split at h
  · cases h; exact Or.inl rfl
  · obtain ⟨⟨d', j', w⟩, h3, h⟩ := Ret.bind_ok.1 h
    cases h
    exact scan_listed h3

theorem side_cons (S : Nat → Bool) (b : Bool) (i : Nat) (v : List T) (asg : List (List T)) :
    (((v :: asg).zipIdx i).filter fun p => S p.2 == b).flatMap (·.1) =
      (if S i = b then v else []) ++ ((asg.zipIdx (i + 1)).filter fun p => S p.2 == b).flatMap (·.1) := by
  rw [List.zipIdx_cons]
  by_cases h : S i = b
  · rw [List.filter_cons_of_pos (by simpa using h), List.flatMap_cons, if_pos h]
  · rw [List.filter_cons_of_neg (by simpa using h), if_neg h, List.nil_append]

theorem tagged_side (S : Nat → Bool) (b : Bool) (asg : List (List T)) (i : Nat) :
    ((tagged asg i).filter fun p => S p.1 == b).map (·.2) =
      ((asg.zipIdx i).filter fun p => S p.2 == b).flatMap (·.1) := by
  induction asg generalizing i with
  | nil => rfl
  | cons v asg ih =>
    rw [side_cons, tagged, List.filter_append, List.map_append, ih]
    congr 1
    by_cases h : S i = b
    · rw [if_pos h, List.filter_eq_self.2 (by simp [h]), List.map_map]
      exact List.map_id _
    · rw [if_neg h, List.filter_eq_nil_iff.2 (by simp [h])]
      rfl

/-- Adding a point to a cluster. -/
theorem side_modify (S : Nat → Bool) (b : Bool) (asg : List (List T)) (i j : Nat) (x : T) (h : j < asg.length) :
    ((((asg.modify j (· ++ [x])).zipIdx i).filter fun p => S p.2 == b).flatMap (·.1)).Perm
      (((asg.zipIdx i).filter fun p => S p.2 == b).flatMap (·.1) ++ if S (i + j) = b then [x] else []) := by
  induction asg generalizing i j with
  | nil => cases h
  | cons v asg ih =>
    cases j with
    | zero =>
      rw [List.modify_zero_cons, side_cons, side_cons, show i + 0 = i from rfl]
      by_cases hb : S i = b
      · simp only [if_pos hb, List.append_assoc]
        exact List.Perm.append_left _ List.perm_append_comm
      · simp [if_neg hb]
    | succ j =>
      rw [List.modify_succ_cons, side_cons, side_cons, List.append_assoc]
      have := ih (i + 1) j (by simpa using h)
      rw [show i + 1 + j = i + (j + 1) by omega] at this
      exact List.Perm.append_left _ this

theorem assignLoop_side {cs : List T} {S : Nat → Bool} {l : List (Nat × T)} {asg asg' : List (List T)} {ns ns' : List Neigh}
    {ch ch' : Bool} (hS : ∀ (i : Nat) g, ns[i]? = some g → ∀ e ∈ g.neighbours, S i = S e.1)
    (h : assignLoop env cs l asg ns ch = .ok (asg', ns', ch')) (b : Bool) :
    (side S b asg').Perm (side S b asg ++ (l.filter fun p => S p.1 == b).map (·.2)) := by
  induction l generalizing asg ns ch with
  | nil =>
    simp only [assignLoop, Ret.ok.injEq, Prod.mk.injEq] at h
    obtain ⟨rfl, rfl, rfl⟩ := h
    simp
  | cons a l ih =>
    obtain ⟨cci, x⟩ := a
    rw [assignLoop] at h
    obtain ⟨g, h1, h⟩ := Ret.bind_ok.1 h
    obtain ⟨⟨j, g1⟩, h2, h⟩ := Ret.bind_ok.1 h
    dsimp only at h
    obtain ⟨ns1, h3, h⟩ := Ret.bind_ok.1 h
    obtain ⟨asg1, h4, h⟩ := Ret.bind_ok.1 h
    have h1 := Ret.expect_ok.1 h1
    obtain ⟨u3, rfl⟩ := update_ok (Ret.expect_ok.1 h3)
    obtain ⟨u4, rfl⟩ := update_ok (Ret.expect_ok.1 h4)
    have hst := map_modify_strip ns cci g g1 h1 (choose_strip h2)
    have hj : S j = S cci := by
      rcases choose_listed h2 with rfl | hm
      · rfl
      · obtain ⟨e, he, rfl⟩ := List.mem_map.1 hm
        exact (hS cci g h1 e he).symm
    refine (ih ?_ h).trans ?_
    · intro i g' hi e he
      obtain ⟨g0, f1, f2⟩ := getElem?_of_strip hst hi
      have : g'.neighbours = g0.neighbours := congrArg Prod.snd f2
      exact hS i g0 f1 e (this ▸ he)
    · have := side_modify S b asg 0 j x u4
      rw [Nat.zero_add, hj] at this
      refine (this.append_right _).trans ?_
      rw [List.append_assoc]
      refine List.Perm.append_left _ ?_
      by_cases hb : S cci = b
      · rw [if_pos hb, List.filter_cons_of_pos (by simpa using hb)]
        exact List.Perm.refl _
      · rw [if_neg hb, List.filter_cons_of_neg (by simpa using hb)]
        exact List.Perm.refl _

theorem side_replicate (S : Nat → Bool) (b : Bool) (n : Nat) : side S b (List.replicate n ([] : List T)) = [] := by
  rw [side, List.flatMap_eq_nil_iff]
  intro p hp
  have := List.mem_zipIdx (List.mem_filter.1 hp).1
  obtain ⟨-, -, h⟩ := this
  simpa using h

/-- No point leaves a side that no list leaves. -/
theorem assignPoints_side {cl cl' : Clusters T} {changed : Bool} (h : assignPoints env cl = .ok (cl', changed))
    {S : Nat → Bool} (hS : ¬Crosses cl S) (b : Bool) : (side S b cl'.assignment).Perm (side S b cl.assignment) := by
  unfold assignPoints at h
  split at h
  · obtain ⟨⟨asg, ns, ch⟩, h1, h⟩ := Ret.bind_ok.1 h
    dsimp only at h
    split at h
    · cases h
    · cases h
      have := assignLoop_side (S := S) (fun i g hg e he => Classical.byContradiction fun hne => hS ⟨i, g, e, hg, he, hne⟩) h1 b
      rw [side_replicate, List.nil_append, tagged_side] at this
      exact this
  · cases h

/-! ## The first lists -/

theorem computeOne_all (hs : IsSort env.sort) {cs : List T} {fuel i : Nat} (hi : i < cs.length) {g' : Neigh}
    (h : computeOne env cs fuel (Neigh.new i cs.length) = .ok g') {t : Nat} (ht : t < cs.length) (hne : t ≠ i) :
    t ∈ g'.neighbours.map (·.1) := by
  induction fuel with
  | zero => cases h
  | succ fuel ih =>
    rw [computeOne] at h
    obtain ⟨g1, h1, h⟩ := Ret.bind_ok.1 h
    obtain ⟨e1, e2, e3, -⟩ := updateDistances_ok h1
    split at h
    · rename_i g2 hr
      cases h
      have hl : (env.sort g1.neighbours).length = cs.length - 1 := by
        rw [(hs g1.neighbours).1.length_eq, ← Neigh.new_length hi]
        simpa using congrArg List.length e3
      have hw : g1.watermark = cs.length - 1 := by rw [e2]; exact Neigh.new_length hi
      have hn := (resize_true hr).2.2.1
      dsimp only at hn
      rw [List.take_of_length_le (by rw [hl, hw]; omega)] at hn
      rw [hn]
      have : t ∈ g1.neighbours.map (·.1) := by
        rw [e3, Neigh.new]
        simp [ht, hne]
      exact (((hs g1.neighbours).1.map (·.1)).mem_iff).2 this
    · rename_i g2 hr
      rw [resize_false hr] at h
      dsimp only at h
      rw [e1] at h
      exact ih h

theorem init_all (hs : IsSort env.sort) {fuel n : Nat} {points : List T} {cl : Clusters T}
    (h : init env fuel points n = .ok cl) {i : Nat} {g : Neigh} (hg : cl.neighbours[i]? = some g) {t : Nat} (ht : t < n)
    (hne : t ≠ i) : t ∈ g.neighbours.map (·.1) := by
  rw [init] at h
  obtain ⟨asg, h1, h⟩ := Ret.bind_ok.1 h
  obtain ⟨cs, h2, h⟩ := Ret.bind_ok.1 h
  obtain ⟨ns, h3, h⟩ := Ret.bind_ok.1 h
  cases h
  have hn : cs.length = n := (initCentroids_ok h2).1.trans (initAssignment_ok h1).1
  rw [initNeighbours] at h3
  obtain ⟨g0, e1, e2⟩ := (computeNeighbours_ok h3).2 i g hg
  rw [List.getElem?_map] at e1
  cases hi : (List.range cs.length)[i]? with
  | none => rw [hi] at e1; cases e1
  | some k =>
    rw [hi] at e1
    obtain ⟨hlt, hk⟩ := List.getElem?_eq_some_iff.1 hi
    rw [List.getElem_range] at hk
    subst hk
    cases e1
    exact computeOne_all hs (by simpa using hlt) e2 (by omega) hne

/-- The sides of a graph given by its lists. -/
theorem not_crosses_of_lists {cl : Clusters T} {lists : List (List Nat)}
    (h : (cl.neighbours.map fun g => g.neighbours.map (·.1)) = lists) {S : Nat → Bool}
    (hS : ∀ p ∈ lists.zipIdx, ∀ t ∈ p.1, S p.2 = S t) : ¬Crosses cl S := by
  rintro ⟨i, g, e, hg, he, hne⟩
  refine hne (hS (g.neighbours.map (·.1), i) ?_ e.1 (List.mem_map_of_mem he))
  rw [← h, List.mem_zipIdx_iff_getElem?, List.getElem?_map, hg]
  rfl

/-! ## Lists that do not grow -/

theorem i32Succ_toInt {a b : Int32} (h : i32Succ true a = some b) : b.toInt = a.toInt + 1 := by
  unfold i32Succ at h
  split at h
  · cases h
  · rename_i hne
    cases h
    have h1 : a.toInt ≠ 2147483647 := by
      intro e
      apply hne
      rw [Bool.true_and, beq_iff_eq, ← Int32.toInt_inj, e]
      decide
    have h2 := a.toInt_lt
    have h3 := a.le_toInt
    rw [Int32.toInt_add]
    have : (1 : Int32).toInt = 1 := by decide
    rw [this, Int.bmod_eq_of_le (by omega) (by omega)]

/-- The counter tells whether a list has grown; one that has not has only entries it had before. -/
theorem computeOneCount_counter (hs : IsSort env.sort) {cs : List T} {fuel : Nat} {g g' : Neigh} {k k' : Int32}
    (h : computeOneCount true env cs fuel g k = .ok (g', k')) :
    k.toInt ≤ k'.toInt ∧ (k' = k → ∀ e ∈ g'.neighbours, e.1 ∈ g.neighbours.map (·.1)) := by
  induction fuel generalizing g k with
  | zero => cases h
  | succ fuel ih =>
    rw [computeOneCount] at h
    obtain ⟨g1, h1, h⟩ := Ret.bind_ok.1 h
    obtain ⟨-, -, e3, -⟩ := updateDistances_ok h1
    split at h
    · rename_i g2 hr
      cases h
      refine ⟨Int.le_refl _, fun _ e he => ?_⟩
      rw [(resize_true hr).2.2.1] at he
      have he := (hs g1.neighbours).1.mem_iff.1 (List.mem_of_mem_take he)
      rw [← e3]
      exact List.mem_map_of_mem he
    · obtain ⟨k1, h2, h⟩ := Ret.bind_ok.1 h
      have h2 := i32Succ_toInt (Ret.expect_ok.1 h2)
      have h3 := (ih h).1
      refine ⟨by omega, fun e => ?_⟩
      subst e
      omega

theorem computeNeighboursCount_counter (hs : IsSort env.sort) {cs : List T} {fuel : Nat} {gs gs' : List Neigh} {k k' : Int32}
    (h : computeNeighboursCount true env fuel cs gs k = .ok (gs', k')) :
    k.toInt ≤ k'.toInt ∧ (k' = k → ∀ (i : Nat) g', gs'[i]? = some g' →
      ∃ g, gs[i]? = some g ∧ ∀ e ∈ g'.neighbours, e.1 ∈ g.neighbours.map (·.1)) := by
  induction gs generalizing k k' gs' with
  | nil => cases h; exact ⟨Int.le_refl _, fun _ i g' hg => by simp at hg⟩
  | cons g gs ih =>
    rw [computeNeighboursCount] at h
    obtain ⟨⟨g1, k1⟩, h1, h⟩ := Ret.bind_ok.1 h
    dsimp only at h
    obtain ⟨⟨gs1, k2⟩, h2, h⟩ := Ret.bind_ok.1 h
    cases h
    obtain ⟨a1, a2⟩ := computeOneCount_counter hs h1
    obtain ⟨b1, b2⟩ := ih h2
    dsimp only
    refine ⟨by omega, fun e => ?_⟩
    subst e
    have hk : k1 = k2 := Int32.toInt_inj.1 (by omega)
    subst hk
    intro i g' hg
    cases i with
    | zero => cases hg; exact ⟨g, rfl, a2 rfl⟩
    | succ i => exact b2 rfl i g' (by simpa using hg)

end Cniic.Kmeans
