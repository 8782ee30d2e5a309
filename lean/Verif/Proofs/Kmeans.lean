import Verif.Spec.Kmeans

namespace Cniic

theorem Ret.bind_ok {ε α β : Type} {m : Ret ε α} {f : α → Ret ε β} {b : β} :
    (m >>= f) = .ok b ↔ ∃ a, m = .ok a ∧ f a = .ok b := by
  cases m <;> simp [bind, Ret.bind]

theorem Ret.bind_ok_eq {ε α β : Type} {a : α} {f : α → Ret ε β} : ((Ret.ok a : Ret ε α) >>= f) = f a := rfl

theorem Ret.expect_ok {ε α : Type} {o : Option α} {a : α} : (Ret.expect o : Ret ε α) = .ok a ↔ o = some a := by
  cases o <;> simp [Ret.expect]

namespace Kmeans
open Spec.Kmeans

variable {T : Type}

/-! ## Neighbours -/

theorem Neigh.new_length {i n : Nat} (h : i < n) : (Neigh.new i n).neighbours.length = n - 1 := by
  simp only [Neigh.new, List.length_map]
  rw [← List.Nodup.erase_eq_filter List.nodup_range, List.length_erase_of_mem (List.mem_range.2 h),
    List.length_range]

theorem Neigh.new_length_ge (i n : Nat) : n - 1 ≤ (Neigh.new i n).neighbours.length := by
  by_cases h : i < n
  · rw [Neigh.new_length h]; exact Nat.le_refl _
  · have : (List.range n).filter (fun d => d != i) = List.range n := by
      apply List.filter_eq_self.2
      intro a ha
      have := List.mem_range.1 ha
      simp only [bne_iff_ne]; omega
    simp only [Neigh.new, List.length_map, this, List.length_range]; omega

theorem Neigh.new_shape (i n : Nat) : Shape n i (Neigh.new i n) where
  src := rfl
  distinct := by
    simp only [Neigh.new, List.map_map]
    have : ((fun x : Nat × Rat => x.1) ∘ fun dst => (dst, (0 : Rat))) = id := rfl
    rw [this, List.map_id]
    exact List.nodup_range.filter _
  others := by
    intro e he
    simp only [Neigh.new, List.mem_map, List.mem_filter, List.mem_range] at he
    obtain ⟨a, ⟨h1, h2⟩, rfl⟩ := he
    exact ⟨by simpa using h2, h1⟩

theorem distances_ok {pt : PointOps T} {cs : List T} {c : T} {l l' : List (Nat × Rat)}
    (h : distances pt cs c l = .ok l') :
    l'.map (·.1) = l.map (·.1) ∧ ∀ e ∈ l', ∃ t, cs[e.1]? = some t ∧ pt.dist c t = some e.2 := by
  induction l generalizing l' with
  | nil => simp only [distances, Ret.ok.injEq] at h; subst h; simp
  | cons e l ih =>
    obtain ⟨i, d0⟩ := e
    rw [distances] at h
    obtain ⟨t, h1, h⟩ := Ret.bind_ok.1 h
    obtain ⟨d, h2, h⟩ := Ret.bind_ok.1 h
    obtain ⟨r, h3, h⟩ := Ret.bind_ok.1 h
    cases h
    obtain ⟨hm, hd⟩ := ih h3
    refine ⟨by simp [hm], ?_⟩
    intro e he
    rcases List.mem_cons.1 he with rfl | he
    · exact ⟨t, Ret.expect_ok.1 h1, Ret.expect_ok.1 h2⟩
    · exact hd e he

theorem updateDistances_ok {pt : PointOps T} {cs : List T} {g g' : Neigh}
    (h : g.updateDistances pt cs = .ok g') :
    g'.src = g.src ∧ g'.watermark = g.watermark ∧ g'.neighbours.map (·.1) = g.neighbours.map (·.1) ∧
      ∃ c, cs[g.src]? = some c ∧ ∀ e ∈ g'.neighbours, ∃ t, cs[e.1]? = some t ∧ pt.dist c t = some e.2 := by
  rw [Neigh.updateDistances] at h
  obtain ⟨c, h1, h⟩ := Ret.bind_ok.1 h
  obtain ⟨l, h2, h⟩ := Ret.bind_ok.1 h
  cases h
  obtain ⟨hm, hd⟩ := distances_ok h2
  exact ⟨rfl, rfl, hm, c, Ret.expect_ok.1 h1, hd⟩

/-- The new list of one round: the first `new` elements. -/
theorem resize_true {lower : Nat → Nat} {n : Nat} {g g' : Neigh} (h : g.resize lower n = (g', true)) :
    g'.src = g.src ∧ g'.watermark = 0 ∧
      g'.neighbours = g.neighbours.take (min (max (2 * g.watermark) (lower n)) (n - 1)) ∧
      min (max (2 * g.watermark) (lower n)) (n - 1) * 3 / 4 ≤ g'.neighbours.length := by
  unfold Neigh.resize at h
  dsimp only at h
  split at h
  · rename_i hle
    cases h
    refine ⟨rfl, rfl, rfl, ?_⟩
    simp only [List.length_take]
    omega
  · cases h

theorem resize_false {lower : Nat → Nat} {n : Nat} {g g' : Neigh} (h : g.resize lower n = (g', false)) :
    g' = Neigh.new g.src n := by
  unfold Neigh.resize at h
  dsimp only at h
  split at h
  · cases h
  · cases h; rfl

theorem _root_.Cniic.Spec.Kmeans.Shape.sort {sort : List (Nat × Rat) → List (Nat × Rat)} (hs : IsSort sort) {n i : Nat} {g : Neigh}
    (h : Shape n i g) : Shape n i { g with neighbours := sort g.neighbours } where
  src := h.src
  distinct := ((hs g.neighbours).1.map _).nodup_iff.2 h.distinct
  others e he := h.others e ((hs g.neighbours).1.mem_iff.1 he)

theorem _root_.Cniic.Spec.Kmeans.Shape.updated {pt : PointOps T} {cs : List T} {n i : Nat} {g g' : Neigh} (h : Shape n i g)
    (hu : g.updateDistances pt cs = .ok g') : Shape n i g' := by
  obtain ⟨h1, _, h3, _⟩ := updateDistances_ok hu
  refine ⟨h1.trans h.src, h3 ▸ h.distinct, fun e he => ?_⟩
  have : e.1 ∈ g.neighbours.map (·.1) := h3 ▸ List.mem_map_of_mem he
  obtain ⟨e', he', hee⟩ := List.mem_map.1 this
  have := h.others e' he'
  rw [hee] at this
  exact this

theorem computeOne_ok {env : Env T} (hs : IsSort env.sort) {cs : List T} {fuel i : Nat} {g g' : Neigh}
    (hg : Shape cs.length i g) (hl : min (env.lower cs.length) (cs.length - 1) ≤ g.neighbours.length)
    (h : computeOne env cs fuel g = .ok g') :
    WellFormed env.pt cs i g' ∧ min (env.lower cs.length) (cs.length - 1) ≤ g'.neighbours.length := by
  induction fuel generalizing g with
  | zero => cases h
  | succ fuel ih =>
    rw [computeOne] at h
    obtain ⟨g1, h1, h⟩ := Ret.bind_ok.1 h
    have hsh := (hg.updated h1).sort hs
    split at h
    · rename_i g2 hr
      cases h
      obtain ⟨hsrc, -, hn, hlen⟩ := resize_true hr
      dsimp only at hsrc hn hlen
      obtain ⟨e1, e2, e3, c, hc, hd⟩ := updateDistances_ok h1
      have hsub : List.Sublist g'.neighbours (env.sort g1.neighbours) := hn ▸ List.take_sublist _ _
      refine ⟨⟨⟨hsrc.trans hsh.src, (hsub.map _).nodup hsh.distinct, fun e he => hsh.others e (hsub.subset he)⟩,
        (hs g1.neighbours).2.sublist hsub, ?_⟩, ?_⟩
      · intro e he
        have := (hs g1.neighbours).1.mem_iff.1 (hsub.subset he)
        obtain ⟨t, h2, h3⟩ := hd e this
        exact ⟨c, t, hg.src ▸ hc, h2, h3⟩
      · have hg1 : g1.neighbours.length = g.neighbours.length := by simpa using congrArg List.length e3
        rw [hn, List.length_take, (hs g1.neighbours).1.length_eq, hg1]
        omega
    · rename_i g2 hr
      rw [resize_false hr] at h
      dsimp only at h
      rw [hsh.src] at h
      exact ih (Neigh.new_shape i _) (Nat.le_trans (Nat.min_le_right _ _) (Neigh.new_length_ge i _)) h

/-- A new list is not replaced again. -/
theorem computeOne_new (env : Env T) (hs : IsSort env.sort) (cs : List T) (fuel i : Nat) :
    computeOne env cs (fuel + 1) (Neigh.new i cs.length) = computeOne env cs 1 (Neigh.new i cs.length) ∧
      computeOne env cs (fuel + 1) (Neigh.new i cs.length) ≠ .err () := by
  have key : ∀ fuel, computeOne env cs (fuel + 1) (Neigh.new i cs.length) =
      (do
        let g ← (Neigh.new i cs.length).updateDistances env.pt cs
        .ok (Neigh.resize env.lower cs.length { g with neighbours := env.sort g.neighbours }).1) := by
    intro fuel
    rw [computeOne]
    cases hu : (Neigh.new i cs.length).updateDistances env.pt cs with
    | err => rfl
    | panic => rfl
    | ok g =>
      simp only [Ret.bind_ok_eq]
      obtain ⟨-, hw, hm, -⟩ := updateDistances_ok hu
      have hlen : (env.sort g.neighbours).length = (Neigh.new i cs.length).neighbours.length := by
        rw [(hs g.neighbours).1.length_eq]
        simpa using congrArg List.length hm
      have hge := Neigh.new_length_ge i cs.length
      cases hr : Neigh.resize env.lower cs.length { g with neighbours := env.sort g.neighbours } with
      | mk g2 b =>
        cases b with
        | true => rfl
        | false =>
          exfalso
          unfold Neigh.resize at hr
          dsimp only at hr
          split at hr
          · cases hr
          · rename_i hno
            apply hno
            rw [hlen]
            omega
  refine ⟨by rw [key, key], ?_⟩
  rw [key]
  cases hu : (Neigh.new i cs.length).updateDistances env.pt cs with
  | err e =>
    exfalso
    exact updateDistances_ne_err hu
  | panic => intro h; cases h
  | ok g => intro h; cases h
where
  distances_ne_err {pt : PointOps T} {cs : List T} {c : T} {l : List (Nat × Rat)} {e : Unit} :
      distances pt cs c l ≠ .err e := by
    induction l with
    | nil => intro h; cases h
    | cons a l ih =>
      obtain ⟨i, d⟩ := a
      rw [distances]
      cases h1 : cs[i]? with
      | none => intro h; cases h
      | some t =>
        simp only [Ret.expect, Ret.bind_ok_eq]
        cases h2 : pt.dist c t with
        | none => intro h; cases h
        | some t =>
          simp only [Ret.expect, Ret.bind_ok_eq]
          cases h3 : distances pt cs c l with
          | ok r => intro h; cases h
          | panic => intro h; cases h
          | err r => exact absurd h3 ih
  updateDistances_ne_err {pt : PointOps T} {cs : List T} {g : Neigh} {e : Unit} :
      g.updateDistances pt cs ≠ .err e := by
    rw [Neigh.updateDistances]
    cases h1 : cs[g.src]? with
    | none => intro h; cases h
    | some t =>
      simp only [Ret.expect, Ret.bind_ok_eq]
      cases h3 : distances pt cs t g.neighbours with
      | ok r => intro h; cases h
      | panic => intro h; cases h
      | err r => exact absurd h3 distances_ne_err

theorem computeOne_two (env : Env T) (hs : IsSort env.sort) (cs : List T) (fuel : Nat) (g : Neigh) :
    computeOne env cs (fuel + 2) g = computeOne env cs 2 g ∧ computeOne env cs (fuel + 2) g ≠ .err () := by
  rw [computeOne.eq_def env cs (fuel + 2), computeOne.eq_def env cs 2]
  dsimp only
  cases hu : g.updateDistances env.pt cs with
  | err e => exact absurd hu computeOne_new.updateDistances_ne_err
  | panic => exact ⟨rfl, fun h => by cases h⟩
  | ok g1 =>
    simp only [Ret.bind_ok_eq]
    cases hr : Neigh.resize env.lower cs.length { g1 with neighbours := env.sort g1.neighbours } with
    | mk g2 b =>
      cases b with
      | true => exact ⟨rfl, fun h => by cases h⟩
      | false =>
        have := resize_false hr
        dsimp only at this
        subst this
        have := computeOne_new env hs cs fuel g1.src
        exact this

theorem computeNeighbours_ok {env : Env T} {fuel : Nat} {cs : List T} {gs gs' : List Neigh}
    (h : computeNeighbours env fuel cs gs = .ok gs') :
    gs'.length = gs.length ∧
      ∀ (i : Nat) g', gs'[i]? = some g' → ∃ g, gs[i]? = some g ∧ computeOne env cs fuel g = .ok g' := by
  induction gs generalizing gs' with
  | nil => simp only [computeNeighbours, Ret.ok.injEq] at h; subst h; simp
  | cons g gs ih =>
    rw [computeNeighbours] at h
    obtain ⟨g1, h1, h⟩ := Ret.bind_ok.1 h
    obtain ⟨gs1, h2, h⟩ := Ret.bind_ok.1 h
    cases h
    obtain ⟨hl, hi⟩ := ih h2
    refine ⟨by simp [hl], ?_⟩
    intro i g' hg'
    cases i with
    | zero => simp only [List.getElem?_cons_zero, Option.some.injEq] at hg' ⊢; subst hg'; exact ⟨g, rfl, h1⟩
    | succ i => simpa using hi i g' (by simpa using hg')

/-! ## Centroids -/

theorem fakeClone_ok {pt : PointOps T} {p c : T} (h : fakeClone pt p = .ok c) : pt.mean [p] = .ok c := by
  unfold fakeClone at h
  split at h
  · rename_i c' hc; cases h; exact hc
  · cases h
  · cases h

theorem splitPoints_length (ppc k : Nat) (points : List T) : (splitPoints ppc k points).length = k + 1 := by
  induction k generalizing points with
  | zero => rfl
  | succ k ih => rw [splitPoints, List.length_cons, ih]

theorem splitPoints_perm (ppc k : Nat) (points : List T) : (splitPoints ppc k points).flatten.Perm points := by
  induction k generalizing points with
  | zero => simp [splitPoints]
  | succ k ih =>
    rw [splitPoints, List.flatten_cons]
    refine ((ih _).append_left _).trans ?_
    refine List.perm_append_comm.trans ?_
    rw [List.take_append_drop]

theorem initAssignment_ok {points : List T} {n : Nat} {asg : List (List T)}
    (h : initAssignment points n = .ok asg) : asg.length = n ∧ asg.flatten.Perm points ∧ 0 < n := by
  unfold initAssignment at h
  split at h
  · cases h
  · rename_i hn
    split at h
    · cases h
      refine ⟨?_, splitPoints_perm _ _ _, by omega⟩
      rw [splitPoints_length]; omega
    · cases h

theorem initCentroids_ok {pt : PointOps T} {asg : List (List T)} {cs : List T}
    (h : initCentroids pt asg = .ok cs) :
    cs.length = asg.length ∧ ∀ c ∈ cs, ∃ p ∈ asg.flatten, pt.mean [p] = .ok c := by
  induction asg generalizing cs with
  | nil => cases h; simp
  | cons a asg ih =>
    rw [initCentroids] at h
    obtain ⟨p, h1, h⟩ := Ret.bind_ok.1 h
    obtain ⟨c, h2, h⟩ := Ret.bind_ok.1 h
    obtain ⟨r, h3, h⟩ := Ret.bind_ok.1 h
    cases h
    refine ⟨by simp [(ih h3).1], ?_⟩
    intro c' hc'
    rcases List.mem_cons.1 hc' with rfl | hc'
    · exact ⟨p, by simp [List.mem_of_getElem? (Ret.expect_ok.1 h1)], fakeClone_ok h2⟩
    · obtain ⟨q, hq, e⟩ := (ih h3).2 c' hc'
      exact ⟨q, by rw [List.flatten_cons]; exact List.mem_append_right _ hq, e⟩

theorem pickVictim_ok {rand : Nat → Nat} {asg : List (List T)} {fuel k k' : Nat} {v : List T}
    (h : pickVictim rand asg fuel k = .ok (v, k')) : v ∈ asg := by
  induction fuel generalizing k with
  | zero => cases h
  | succ fuel ih =>
    rw [pickVictim] at h
    obtain ⟨w, h1, h⟩ := Ret.bind_ok.1 h
    split at h
    · exact ih h
    · cases h
      exact List.mem_of_getElem? (Ret.expect_ok.1 h1)

theorem computeCentroids_ok {env : Env T} {fuel k k' : Nat} {all asg : List (List T)} {cs : List T}
    (h : computeCentroids env fuel all asg k = .ok (cs, k')) :
    cs.length = asg.length ∧
      ∀ (i : Nat) c ps, cs[i]? = some c → asg[i]? = some ps →
        env.pt.mean ps = .ok c ∨ (env.pt.mean ps = .err () ∧ ∃ p ∈ all.flatten, env.pt.mean [p] = .ok c) := by
  induction asg generalizing k k' cs with
  | nil => simp only [computeCentroids] at h; cases h; simp
  | cons a asg ih =>
    rw [computeCentroids] at h
    split at h
    · rename_i c hc
      obtain ⟨⟨cs', k1⟩, h1, h⟩ := Ret.bind_ok.1 h
      cases h
      obtain ⟨hl, hi⟩ := ih h1
      refine ⟨by simp [hl], ?_⟩
      intro i c' ps h2 h3
      cases i with
      | zero => simp only [List.getElem?_cons_zero, Option.some.injEq] at h2 h3; subst h2; subst h3; exact Or.inl hc
      | succ i => exact hi i c' ps (by simpa using h2) (by simpa using h3)
    · rename_i hc
      obtain ⟨⟨v, k1⟩, h1, h⟩ := Ret.bind_ok.1 h
      dsimp only at h
      obtain ⟨p, h2, h⟩ := Ret.bind_ok.1 h
      obtain ⟨c, h3, h⟩ := Ret.bind_ok.1 h
      obtain ⟨⟨cs', k2⟩, h4, h⟩ := Ret.bind_ok.1 h
      cases h
      obtain ⟨hl, hi⟩ := ih h4
      refine ⟨by simp [hl], ?_⟩
      intro i c' ps e2 e3
      cases i with
      | zero =>
        simp only [List.getElem?_cons_zero, Option.some.injEq] at e2 e3; subst e2; subst e3
        exact Or.inr ⟨hc, p, List.mem_flatten.2 ⟨v, pickVictim_ok h1, List.mem_of_getElem? (Ret.expect_ok.1 h2)⟩,
          fakeClone_ok h3⟩
      | succ i => exact hi i c' ps (by simpa using e2) (by simpa using e3)
    · cases h

/-! ## Points -/

theorem scan_ok {env : Env T} {P : T → Prop} {D : T → T → Rat} (hp : Prunable env P D) {cs : List T}
    (hcs : ∀ c ∈ cs, P c) {x : T} (hx : P x) {cutoff : Rat}
    {l : List (Nat × Rat)} {pos j0 : Nat} {dmin d : Rat} {j w : Nat} {c0 c1 : T}
    (hsorted : l.Pairwise fun a b => a.2 ≤ b.2)
    (hfar : ∀ e ∈ l, cutoff < e.2 → ∀ t, cs[e.1]? = some t → D c0 x ≤ D t x)
    (hmin : D c1 x ≤ D c0 x) (hc1 : cs[j0]? = some c1) (hd1 : env.pt.dist c1 x = some dmin)
    (h : scan env.pt cs x cutoff l pos dmin j0 = .ok (d, j, w)) :
    ∃ c, cs[j]? = some c ∧ D c x ≤ D c1 x ∧ (j = j0 ∨ j ∈ l.map (·.1)) ∧
      ∀ e ∈ l, ∀ t, cs[e.1]? = some t → D c x ≤ D t x := by
  induction l generalizing pos j0 dmin c1 with
  | nil =>
    simp only [scan, Ret.ok.injEq, Prod.mk.injEq] at h
    obtain ⟨rfl, rfl, rfl⟩ := h
    exact ⟨c1, hc1, Rat.le_refl, Or.inl rfl, fun e he => by cases he⟩
  | cons a l ih =>
    obtain ⟨tsi, cToC⟩ := a
    rw [scan] at h
    split at h
    · rename_i hc
      simp only [Ret.ok.injEq, Prod.mk.injEq] at h
      obtain ⟨rfl, rfl, rfl⟩ := h
      refine ⟨c1, hc1, Rat.le_refl, Or.inl rfl, fun e he t ht => ?_⟩
      refine Rat.le_trans hmin (hfar e he ?_ t ht)
      rcases List.mem_cons.1 he with rfl | he'
      · exact hc
      · have := (List.pairwise_cons.1 hsorted).1 e he'
        exact Std.lt_of_lt_of_le hc this
    · obtain ⟨t, h1, h⟩ := Ret.bind_ok.1 h
      obtain ⟨dt, h2, h⟩ := Ret.bind_ok.1 h
      have h1 := Ret.expect_ok.1 h1
      have h2 := Ret.expect_ok.1 h2
      have hs' := (List.pairwise_cons.1 hsorted).2
      have hf' := fun e (he : e ∈ l) => hfar e (List.mem_cons_of_mem _ he)
      split at h
      · rename_i hlt
        have hle := hp.mono t c1 x dt dmin (hcs t (List.mem_of_getElem? h1)) (hcs c1 (List.mem_of_getElem? hc1)) hx h2 hd1 (Rat.le_of_lt hlt)
        obtain ⟨c, r1, r2, r3, r4⟩ := ih hs' hf' (Rat.le_trans hle hmin) h1 h2 h
        refine ⟨c, r1, Rat.le_trans r2 hle, ?_, ?_⟩
        · rcases r3 with rfl | r3
          · exact Or.inr (by simp)
          · exact Or.inr (List.mem_cons_of_mem _ r3)
        · intro e he t' e1
          rcases List.mem_cons.1 he with rfl | he'
          · rw [h1] at e1; cases e1; exact r2
          · exact r4 e he' t' e1
      · rename_i hlt
        obtain ⟨c, r1, r2, r3, r4⟩ := ih hs' hf' hmin hc1 hd1 h
        refine ⟨c, r1, r2, ?_, ?_⟩
        · rcases r3 with rfl | r3
          · exact Or.inl rfl
          · exact Or.inr (List.mem_cons_of_mem _ r3)
        · intro e he t' e1
          rcases List.mem_cons.1 he with rfl | he'
          · rw [h1] at e1; cases e1
            exact Rat.le_trans r2 (hp.mono c1 t x dmin dt (hcs c1 (List.mem_of_getElem? hc1)) (hcs t (List.mem_of_getElem? h1)) hx hd1 h2 (Rat.not_lt.1 hlt))
          · exact r4 e he' t' e1

/-- What a list of neighbours is, apart from the watermark. -/
def strip (g : Neigh) : Nat × List (Nat × Rat) := (g.src, g.neighbours)

theorem _root_.Cniic.Spec.Kmeans.WellFormed.strip {pt : PointOps T} {cs : List T} {i : Nat} {g g' : Neigh}
    (h : WellFormed pt cs i g) (e : strip g' = strip g) : WellFormed pt cs i g' := by
  obtain ⟨s, l, w⟩ := g
  obtain ⟨s', l', w'⟩ := g'
  simp only [Kmeans.strip, Prod.mk.injEq] at e
  obtain ⟨rfl, rfl⟩ := e
  exact ⟨⟨h.src, h.distinct, h.others⟩, h.sorted, h.distances⟩

theorem _root_.Cniic.Spec.Kmeans.Shape.strip {n i : Nat} {g g' : Neigh}
    (h : Shape n i g) (e : strip g' = strip g) : Shape n i g' := by
  obtain ⟨s, l, w⟩ := g
  obtain ⟨s', l', w'⟩ := g'
  simp only [Kmeans.strip, Prod.mk.injEq] at e
  obtain ⟨rfl, rfl⟩ := e
  exact ⟨h.src, h.distinct, h.others⟩

theorem choose_strip {env : Env T} {cs : List T} {g g' : Neigh} {i j : Nat} {x : T}
    (h : choose env cs g i x = .ok (j, g')) : strip g' = strip g := by
  rw [choose] at h
  obtain ⟨c, h1, h⟩ := Ret.bind_ok.1 h
  obtain ⟨d, h2, h⟩ := Ret.bind_ok.1 h
  cases hb : g.stays env.fl d with
  | true => simp only [hb, if_true] at h; cases h; rfl
  | false =>
    simp only [hb, Bool.false_eq_true, if_false] at h
    obtain ⟨⟨d', j', w⟩, h3, h⟩ := Ret.bind_ok.1 h
    cases h; rfl

theorem choose_ok {env : Env T} {P : T → Prop} {D : T → T → Rat} (hp : Prunable env P D) {cs : List T}
    (hcs : ∀ c ∈ cs, P c) {g g' : Neigh} {i j : Nat} {x : T} (hx : P x) (hg : WellFormed env.pt cs i g) (h : choose env cs g i x = .ok (j, g')) :
    (j = i ∨ j ∈ g.neighbours.map (·.1)) ∧
      Nearest D cs (fun t => t = i ∨ t ∈ g.neighbours.map (·.1)) x j := by
  rw [choose] at h
  obtain ⟨c, h1, h⟩ := Ret.bind_ok.1 h
  obtain ⟨d, h2, h⟩ := Ret.bind_ok.1 h
  have h1 := Ret.expect_ok.1 h1
  have h2 := Ret.expect_ok.1 h2
  cases hb : g.stays env.fl d with
  | true =>
    simp only [hb, if_true] at h
    cases h
    refine ⟨Or.inl rfl, c, h1, ?_⟩
    intro t c' ht e1
    rcases ht with ht | ht
    · subst ht; rw [h1] at e1; cases e1; exact Rat.le_refl
    · obtain ⟨e, he, rfl⟩ := List.mem_map.1 ht
      obtain ⟨c1, t1, a1, a2, a3⟩ := hg.distances e he
      rw [h1] at a1; cases a1
      rw [e1] at a2; cases a2
      cases hn : g.neighbours with
      | nil => rw [hn] at he; cases he
      | cons a l =>
        rw [Neigh.stays, Neigh.certaintyRadius, hn] at hb
        simp only [List.head?_cons, Option.map_some, decide_eq_true_eq] at hb
        obtain ⟨c2, t2, b1, b2, b3⟩ := hg.distances a (by rw [hn]; simp)
        rw [h1] at b1; cases b1
        refine hp.near c c' t2 x d e.2 a.2 (hcs c (List.mem_of_getElem? h1)) (hcs c' (List.mem_of_getElem? e1))
          (hcs t2 (List.mem_of_getElem? b2)) hx h2 a3 b3 ?_ hb
        rw [hn] at he
        have hs := hg.sorted
        rw [hn] at hs
        rcases List.mem_cons.1 he with rfl | he
        · exact Rat.le_refl
        · exact (List.pairwise_cons.1 hs).1 e he
  | false =>
    simp only [hb, Bool.false_eq_true, if_false] at h
    obtain ⟨⟨d', j', w⟩, h3, h⟩ := Ret.bind_ok.1 h
    cases h
    obtain ⟨cj, r1, r2, r3, r4⟩ := scan_ok hp hcs hx (c0 := c) hg.sorted (by
      intro e he hlt t e1
      obtain ⟨c1, t1, a1, a2, a3⟩ := hg.distances e he
      rw [h1] at a1; cases a1
      rw [e1] at a2; cases a2
      exact hp.far c t x d e.2 (hcs c (List.mem_of_getElem? h1)) (hcs t (List.mem_of_getElem? e1)) hx h2 a3 hlt) Rat.le_refl h1 h2 h3
    refine ⟨r3, cj, r1, ?_⟩
    intro t c' ht e1
    rcases ht with ht | ht
    · subst ht; rw [h1] at e1; cases e1; exact r2
    · obtain ⟨e, he, rfl⟩ := List.mem_map.1 ht
      exact r4 e he c' e1

theorem update_ok {α : Type} {v v' : List α} {i : Nat} {f : α → α} (h : update v i f = some v') :
    i < v.length ∧ v' = v.modify i f := by
  unfold update at h
  split at h
  · rename_i hi; cases h; exact ⟨hi, rfl⟩
  · cases h

theorem flatten_modify (v : List (List T)) (i : Nat) (x : T) (h : i < v.length) :
    (v.modify i (· ++ [x])).flatten.Perm (v.flatten ++ [x]) := by
  induction v generalizing i with
  | nil => cases h
  | cons a v ih =>
    cases i with
    | zero =>
      simp only [List.modify_zero_cons, List.flatten_cons, List.append_assoc]
      exact List.Perm.append_left _ List.perm_append_comm
    | succ i =>
      simp only [List.modify_succ_cons, List.flatten_cons, List.append_assoc]
      exact List.Perm.append_left _ (ih i (by simpa using h))

theorem map_modify_strip (ns : List Neigh) (i : Nat) (g g' : Neigh) (h : ns[i]? = some g)
    (e : strip g' = strip g) : (ns.modify i fun _ => g').map strip = ns.map strip := by
  apply List.ext_getElem?
  intro k
  simp only [List.getElem?_map, List.getElem?_modify]
  cases hk : ns[k]? with
  | none => rfl
  | some a =>
    by_cases hik : i = k
    · subst hik; rw [h] at hk; cases hk; simp [e]
    · simp [hik]

theorem getElem?_of_strip {ns ns' : List Neigh} (h : ns'.map strip = ns.map strip) {i : Nat} {g' : Neigh}
    (hg : ns'[i]? = some g') : ∃ g, ns[i]? = some g ∧ strip g' = strip g := by
  have := congrArg (fun l => l[i]?) h
  simp only [List.getElem?_map, hg, Option.map_some] at this
  cases hk : ns[i]? with
  | none => rw [hk] at this; cases this
  | some g => rw [hk] at this; simp only [Option.map_some, Option.some.injEq] at this; exact ⟨g, rfl, this⟩

theorem assignLoop_ok {env : Env T} {cs : List T} {l : List (Nat × T)} {asg asg' : List (List T)}
    {ns ns' : List Neigh} {ch ch' : Bool} (h : assignLoop env cs l asg ns ch = .ok (asg', ns', ch')) :
    asg'.length = asg.length ∧ ns'.map strip = ns.map strip ∧ asg'.flatten.Perm (asg.flatten ++ l.map (·.2)) ∧
      ∃ moves : List (Move T), moves.map (fun m => (m.source, m.point)) = l ∧
        (∀ m ∈ moves, m.target < asg.length) ∧
        (∀ j v, asg[j]? = some v → asg'[j]? = some (v ++ arrivals moves j)) ∧
        ch' = (ch || moves.any fun m => m.source != m.target) ∧
        ∀ m ∈ moves, ∃ g g1 : Neigh, (ns[m.source]?).map strip = some (strip g) ∧
          choose env cs g m.source m.point = .ok (m.target, g1) := by
  induction l generalizing asg ns ch with
  | nil =>
    simp only [assignLoop, Ret.ok.injEq, Prod.mk.injEq] at h
    obtain ⟨rfl, rfl, rfl⟩ := h
    refine ⟨rfl, rfl, by simp, [], rfl, by simp, ?_, by simp, by simp⟩
    intro j v hv; simp [hv, arrivals]
  | cons a l ih =>
    obtain ⟨cci, x⟩ := a
    rw [assignLoop] at h
    obtain ⟨g, h1, h⟩ := Ret.bind_ok.1 h
    obtain ⟨⟨j, g1⟩, h2, h⟩ := Ret.bind_ok.1 h
    dsimp only at h
    obtain ⟨ns1, h3, h⟩ := Ret.bind_ok.1 h
    obtain ⟨asg1, h4, h⟩ := Ret.bind_ok.1 h
    have h1 := Ret.expect_ok.1 h1
    obtain ⟨u3, rfl⟩ := update_ok (Ret.expect_ok.1 h3)
    obtain ⟨u4, rfl⟩ := update_ok (Ret.expect_ok.1 h4)
    obtain ⟨r1, r2, r3, moves, m1, m2, m3, m4, m5⟩ := ih h
    have hst := map_modify_strip ns cci g g1 h1 (choose_strip h2)
    refine ⟨by simpa using r1, r2.trans hst, ?_, ⟨cci, x, j⟩ :: moves, by simp [m1], ?_, ?_, ?_, ?_⟩
    · refine r3.trans ?_
      refine ((flatten_modify asg j x u4).append_right _).trans ?_
      simp
    · intro m hm
      rcases List.mem_cons.1 hm with rfl | hm
      · exact u4
      · simpa using m2 m hm
    · intro k v hv
      have := m3 k (if j = k then v ++ [x] else v) (by
        rw [List.getElem?_modify, hv]; simp only [Option.map_eq_map, Option.map_some])
      rw [this]
      by_cases hjk : j = k
      · subst hjk; simp [arrivals]
      · simp [arrivals, hjk]
    · rw [m4]; simp [Bool.or_assoc]
    · intro m hm
      rcases List.mem_cons.1 hm with rfl | hm
      · exact ⟨g, g1, by simp [h1], h2⟩
      · obtain ⟨g2, g3, e1, e2⟩ := m5 m hm
        refine ⟨g2, g3, ?_, e2⟩
        rw [← e1, ← List.getElem?_map, ← List.getElem?_map, hst]

theorem tagged_points (asg : List (List T)) (i : Nat) : (tagged asg i).map (·.2) = asg.flatten := by
  induction asg generalizing i with
  | nil => rfl
  | cons a asg ih =>
    rw [tagged, List.map_append, ih, List.flatten_cons, List.map_map]
    congr 1
    have : ((fun x : Nat × T => x.2) ∘ fun x => (i, x)) = id := rfl
    rw [this, List.map_id]

theorem tagged_ge {asg : List (List T)} {i : Nat} {e : Nat × T} (h : e ∈ tagged asg i) : i ≤ e.1 := by
  induction asg generalizing i with
  | nil => cases h
  | cons a asg ih =>
    rw [tagged, List.mem_append] at h
    rcases h with h | h
    · obtain ⟨x, -, rfl⟩ := List.mem_map.1 h; exact Nat.le_refl _
    · have := ih h; omega

theorem tagged_filter (asg : List (List T)) (i j : Nat) (v : List T) (h : asg[j]? = some v) :
    ((tagged asg i).filter fun e => e.1 == i + j).map (·.2) = v := by
  induction asg generalizing i j with
  | nil => cases h
  | cons a asg ih =>
    rw [tagged, List.filter_append, List.map_append]
    cases j with
    | zero =>
      simp only [List.getElem?_cons_zero, Option.some.injEq] at h
      subst h
      have h1 : (tagged asg (i + 1)).filter (fun e => e.1 == i + 0) = [] := by
        rw [List.filter_eq_nil_iff]
        intro e he
        have := tagged_ge he
        simp only [beq_iff_eq]; omega
      rw [h1]
      simp only [List.filter_map, List.map_map, List.map_nil, List.append_nil]
      have : ((fun x : Nat × T => x.2) ∘ fun x => (i, x)) = id := rfl
      rw [this, List.map_id, List.filter_eq_self]
      intro x _
      simp
    | succ j =>
      have h1 : (a.map fun x => (i, x)).filter (fun e => e.1 == i + (j + 1)) = [] := by
        rw [List.filter_eq_nil_iff]
        intro e he
        obtain ⟨x, -, rfl⟩ := List.mem_map.1 he
        simp only [beq_iff_eq]; omega
      rw [h1, List.map_nil, List.nil_append]
      have := ih (i + 1) j (by simpa using h)
      rw [← this]
      congr 2
      funext e
      congr 1
      omega

/-- The assignment step. -/
theorem assignPoints_ok {env : Env T} {cl cl' : Clusters T} {changed : Bool}
    (h : assignPoints env cl = .ok (cl', changed)) :
    cl'.centroids = cl.centroids ∧ cl.centroids.length = cl.assignment.length ∧
      cl'.assignment.length = cl.assignment.length ∧ cl'.neighbours.map strip = cl.neighbours.map strip ∧
      cl'.assignment.flatten.Perm cl.assignment.flatten ∧
      ∃ moves : List (Move T), moves.map (fun m => (m.source, m.point)) = tagged cl.assignment ∧
        (∀ m ∈ moves, m.target < cl.assignment.length) ∧
        (∀ j, j < cl.assignment.length → cl'.assignment[j]? = some (arrivals moves j)) ∧
        (changed = moves.any fun m => m.source != m.target) ∧
        ∀ m ∈ moves, ∃ g g1 : Neigh, (cl.neighbours[m.source]?).map strip = some (strip g) ∧
          choose env cl.centroids g m.source m.point = .ok (m.target, g1) := by
  unfold assignPoints at h
  split at h
  · rename_i hl
    obtain ⟨⟨asg, ns, ch⟩, h1, h⟩ := Ret.bind_ok.1 h
    dsimp only at h
    split at h
    · cases h
    · cases h
      obtain ⟨r1, r2, r3, moves, m1, m2, m3, m4, m5⟩ := assignLoop_ok h1
      rw [List.length_replicate, hl] at r1 m2
      refine ⟨rfl, hl, r1, r2, ?_, moves, m1, m2, ?_, ?_, m5⟩
      · rw [tagged_points] at r3
        have h0 : ∀ n, (List.replicate n ([] : List T)).flatten = [] := by
          intro n; induction n with
          | zero => rfl
          | succ n ih => rw [List.replicate_succ, List.flatten_cons, ih]; rfl
        rw [h0] at r3
        exact r3
      · intro j hj
        have := m3 j [] (by rw [List.getElem?_replicate, if_pos (by omega)])
        simpa using this
      · rw [m4]; simp
  · cases h

theorem scan_within {pt : PointOps T} {cs : List T} {x : T} {cutoff : Rat} {l : List (Nat × Rat)}
    {pos closest j w : Nat} {md md' : Rat} (h : scan pt cs x cutoff l pos md closest = .ok (md', j, w)) :
    w = pos + (l.takeWhile fun e => decide (e.2 ≤ cutoff)).length := by
  induction l generalizing pos md closest with
  | nil => cases h; simp
  | cons e l ih =>
    obtain ⟨t, d⟩ := e
    rw [scan] at h
    split at h
    · rename_i hd
      cases h
      have : ¬ d ≤ cutoff := Rat.not_le.2 hd
      simp [this]
    · rename_i hd
      have hd : d ≤ cutoff := Rat.not_lt.1 hd
      rw [List.takeWhile_cons_of_pos (by simpa using hd), List.length_cons]
      obtain ⟨c, -, h⟩ := Ret.bind_ok.1 h
      obtain ⟨td, -, h⟩ := Ret.bind_ok.1 h
      split at h
      · rw [ih h]; omega
      · rw [ih h]; omega

/-- What a point does to the watermark of its cluster. -/
theorem choose_watermark {env : Env T} {cs : List T} {g g' : Neigh} {i j : Nat} {x c : T}
    (hc : cs[i]? = some c) (h : choose env cs g i x = .ok (j, g')) :
    g'.watermark = (looks env c g [x]).getLast?.getD g.watermark := by
  unfold choose at h
  rw [hc] at h
  obtain ⟨c', h1, h⟩ := Ret.bind_ok.1 h
  cases h1
  obtain ⟨d, h2, h⟩ := Ret.bind_ok.1 h
  have hd := Ret.expect_ok.1 h2
  obtain ⟨src, nb, wm⟩ := g
  have key : looks env c ⟨src, nb, wm⟩ [x] =
      if (Neigh.stays env.fl ⟨src, nb, wm⟩ d) = true then [] else [within ⟨src, nb, wm⟩ (env.fl.mul 2 d)] := by
    cases nb with
    | nil => simp [looks, hd, Neigh.stays, Neigh.certaintyRadius]
    | cons e nb =>
      simp only [looks, hd, Neigh.stays, Neigh.certaintyRadius, List.head?_cons, Option.map_some,
        List.filterMap_cons, List.filterMap_nil, decide_eq_true_eq]
      by_cases hle : d ≤ env.fl.div e.2 2 <;> simp [hle]
  rw [key]
  split at h
  · rename_i hs
    cases h
    rw [if_pos hs]; rfl
  · rename_i hs
    rw [if_neg hs]
    obtain ⟨⟨md, j', w⟩, h3, h⟩ := Ret.bind_ok.1 h
    cases h
    rw [scan_within h3]
    simp [within]

theorem looks_cons (env : Env T) (c : T) (g : Neigh) (x : T) (ps : List T) :
    looks env c g (x :: ps) = looks env c g [x] ++ looks env c g ps := by
  unfold looks
  rw [← List.filterMap_append]; rfl

theorem looks_strip (env : Env T) (c : T) {g g' : Neigh} (h : strip g' = strip g) (ps : List T) :
    looks env c g' ps = looks env c g ps := by
  have : g'.neighbours = g.neighbours := (Prod.mk.inj h).2
  unfold looks within
  rw [this]

theorem assignLoop_watermark {env : Env T} {cs : List T} {l : List (Nat × T)} {asg asg' : List (List T)}
    {ns ns' : List Neigh} {ch ch' : Bool} (h : assignLoop env cs l asg ns ch = .ok (asg', ns', ch'))
    {i : Nat} {g : Neigh} {c : T} (hg : ns[i]? = some g) (hc : cs[i]? = some c) :
    ∃ g', ns'[i]? = some g' ∧
      g'.watermark = (looks env c g ((l.filter fun e => e.1 == i).map (·.2))).getLast?.getD g.watermark := by
  induction l generalizing asg ns ch g with
  | nil =>
    cases h
    exact ⟨g, hg, rfl⟩
  | cons a l ih =>
    obtain ⟨cci, x⟩ := a
    rw [assignLoop] at h
    obtain ⟨g0, h1, h⟩ := Ret.bind_ok.1 h
    obtain ⟨⟨j, g1⟩, h2, h⟩ := Ret.bind_ok.1 h
    dsimp only at h
    obtain ⟨ns1, h3, h⟩ := Ret.bind_ok.1 h
    obtain ⟨asg1, h4, h⟩ := Ret.bind_ok.1 h
    have h1 := Ret.expect_ok.1 h1
    obtain ⟨u3, rfl⟩ := update_ok (Ret.expect_ok.1 h3)
    by_cases hci : cci = i
    · subst hci
      rw [hg] at h1
      rw [← Option.some.inj h1] at h2
      have hw := choose_watermark hc h2
      have hst := choose_strip h2
      obtain ⟨g', e1, e2⟩ := ih h (g := g1) (by rw [List.getElem?_modify, hg]; simp)
      refine ⟨g', e1, ?_⟩
      rw [e2, hw, looks_strip env c hst, List.filter_cons_of_pos (by simp), List.map_cons, looks_cons (ps := List.map _ _),
        List.getLast?_append]
      cases (looks env c g ((l.filter fun e => e.1 == cci).map (·.2))).getLast? <;> rfl
    · obtain ⟨g', e1, e2⟩ := ih h (g := g) (by rw [List.getElem?_modify, hg]; simp [hci])
      refine ⟨g', e1, ?_⟩
      rw [e2, List.filter_cons_of_neg (by simpa using hci)]

/-- The watermarks after the assignment step. -/
theorem assignPoints_watermark {env : Env T} {cl cl' : Clusters T} {changed : Bool}
    (h : assignPoints env cl = .ok (cl', changed)) {i : Nat} {g : Neigh} {c : T} {ps : List T}
    (hg : cl.neighbours[i]? = some g) (hc : cl.centroids[i]? = some c) (hp : cl.assignment[i]? = some ps) :
    ∃ g', cl'.neighbours[i]? = some g' ∧
      g'.watermark = (looks env c g ps).getLast?.getD g.watermark := by
  unfold assignPoints at h
  split at h
  · obtain ⟨⟨asg, ns, ch⟩, h1, h⟩ := Ret.bind_ok.1 h
    dsimp only at h
    split at h
    · cases h
    · cases h
      obtain ⟨g', e1, e2⟩ := assignLoop_watermark h1 hg hc
      refine ⟨g', e1, ?_⟩
      rw [e2]
      have := tagged_filter cl.assignment 0 i ps hp
      simp only [Nat.add_zero, Nat.zero_add] at this
      rw [this]
  · cases h

/-- If no point moves, the assignment stays. -/
theorem assignPoints_unchanged {env : Env T} {cl cl' : Clusters T}
    (h : assignPoints env cl = .ok (cl', false)) : cl'.assignment = cl.assignment := by
  obtain ⟨-, -, hlen, -, -, moves, m1, m2, m3, m4, -⟩ := assignPoints_ok h
  apply List.ext_getElem?
  intro j
  by_cases hj : j < cl.assignment.length
  · rw [m3 j hj]
    have ht := tagged_filter cl.assignment 0 j _ (List.getElem?_eq_getElem hj)
    rw [← m1, List.filter_map, List.map_map, Nat.zero_add] at ht
    rw [List.getElem?_eq_getElem hj, ← ht, arrivals]
    congr 1
    have : moves.filter (fun m => m.target == j) =
        moves.filter ((fun e : Nat × T => e.1 == j) ∘ fun m => (m.source, m.point)) := by
      apply List.filter_congr
      intro m hm
      have h5 := (List.any_eq_false.1 m4.symm) m hm
      simp only [bne_iff_ne, ne_eq, Decidable.not_not] at h5
      simp [h5]
    rw [this]
    rfl
  · rw [List.getElem?_eq_none (by omega), List.getElem?_eq_none (by omega)]

/-! ## The algorithm -/

theorem init_ok {env : Env T} (hs : IsSort env.sort) {fuel n : Nat} {points : List T} {cl : Clusters T}
    (h : init env fuel points n = .ok cl) : Invariant env points n cl := by
  rw [init] at h
  obtain ⟨asg, h1, h⟩ := Ret.bind_ok.1 h
  obtain ⟨cs, h2, h⟩ := Ret.bind_ok.1 h
  obtain ⟨ns, h3, h⟩ := Ret.bind_ok.1 h
  cases h
  obtain ⟨a1, a2, a3⟩ := initAssignment_ok h1
  have a4 := (initCentroids_ok h2).1
  rw [initNeighbours] at h3
  obtain ⟨n1, n2⟩ := computeNeighbours_ok h3
  rw [List.length_map, List.length_range] at n1
  refine ⟨a3, a4.trans a1, a1, n1.trans (a4.trans a1), a2, ?_⟩
  intro i g hg
  obtain ⟨g0, e1, e2⟩ := n2 i g hg
  dsimp only
  have : g0 = Neigh.new i cs.length := by
    rw [List.getElem?_map] at e1
    cases hi : (List.range cs.length)[i]? with
    | none => rw [hi] at e1; cases e1
    | some k =>
      rw [hi] at e1
      have hk : k = i := by
        obtain ⟨hlt, hk⟩ := List.getElem?_eq_some_iff.1 hi
        simpa using hk.symm
      subst hk
      cases e1; rfl
  subst this
  have := computeOne_ok hs (Neigh.new_shape i cs.length)
    (Nat.le_trans (Nat.min_le_right _ _) (Neigh.new_length_ge i _)) e2
  rw [a4, a1] at this
  rw [← a1, ← a4] at this ⊢
  exact this

/-- The parts of an iteration. -/
theorem iteration_parts {env : Env T} {fuel k k' : Nat} {cl cl' : Clusters T} {changed : Bool}
    (h : iteration env fuel cl k = .ok (cl', changed, k')) :
    ∃ cl1 : Clusters T, assignPoints env cl = .ok (cl1, changed) ∧ cl'.assignment = cl1.assignment ∧
      computeCentroids env fuel cl1.assignment cl1.assignment k = .ok (cl'.centroids, k') ∧
      computeNeighbours env fuel cl'.centroids cl1.neighbours = .ok cl'.neighbours := by
  rw [iteration] at h
  obtain ⟨⟨cl1, ch⟩, h1, h⟩ := Ret.bind_ok.1 h
  dsimp only at h
  obtain ⟨⟨cl2, k2⟩, h2, h⟩ := Ret.bind_ok.1 h
  dsimp only at h
  obtain ⟨cl3, h3, h⟩ := Ret.bind_ok.1 h
  cases h
  rw [updateCentroids] at h2
  obtain ⟨⟨cs, k3⟩, h4, h2⟩ := Ret.bind_ok.1 h2
  cases h2
  rw [updateNeighbours] at h3
  obtain ⟨ns, h5, h3⟩ := Ret.bind_ok.1 h3
  cases h3
  exact ⟨cl1, h1, rfl, h4, h5⟩

theorem iteration_ok {env : Env T} (hs : IsSort env.sort) {fuel n k k' : Nat} {points : List T}
    {cl cl' : Clusters T} {changed : Bool} (hi : Invariant env points n cl)
    (h : iteration env fuel cl k = .ok (cl', changed, k')) : Invariant env points n cl' := by
  obtain ⟨cl1, h1, h2, h3, h4⟩ := iteration_parts h
  obtain ⟨a1, a2, a3, a4, a5, -⟩ := assignPoints_ok h1
  obtain ⟨c1, -⟩ := computeCentroids_ok h3
  obtain ⟨n1, n2⟩ := computeNeighbours_ok h4
  have hcl : cl'.centroids.length = n := by rw [c1, a3, hi.assignment]
  refine ⟨hi.positive, hcl, by rw [h2, a3, hi.assignment], ?_, h2 ▸ a5.trans hi.points, ?_⟩
  · rw [n1, ← hi.neighbours]
    simpa using congrArg List.length a4
  · intro i g hg
    obtain ⟨g0, e1, e2⟩ := n2 i g hg
    obtain ⟨g1, e3, e4⟩ := getElem?_of_strip a4 e1
    have hsh := (hi.lists i g1 e3).1.toShape.strip e4
    rw [hi.centroids, ← hcl] at hsh
    have hgl : g0.neighbours = g1.neighbours := congrArg Prod.snd e4
    have := computeOne_ok hs hsh (by rw [hcl, hgl]; exact (hi.lists i g1 e3).2) e2
    rw [hcl] at this
    exact this

theorem reached_invariant {env : Env T} (hs : IsSort env.sort) {fuel n : Nat} {points : List T} {cl : Clusters T}
    (h : Reached env fuel points n cl) : Invariant env points n cl := by
  induction h with
  | start h => exact init_ok hs h
  | step _ h ih => exact iteration_ok hs ih h

theorem part_of_mem {asg : List (List T)} {points : List T} (hp : asg.flatten.Perm points) {ps : List T}
    (h : ps ∈ asg) : Part ps points := by
  obtain ⟨l1, l2, rfl⟩ := List.append_of_mem h
  refine ⟨l1.flatten ++ l2.flatten, List.Perm.trans ?_ hp⟩
  rw [List.flatten_append, List.flatten_cons, ← List.append_assoc, ← List.append_assoc]
  exact List.perm_append_comm.append_right _

theorem part_single {points : List T} {p : T} (h : p ∈ points) : Part [p] points := by
  obtain ⟨l1, l2, rfl⟩ := List.append_of_mem h
  refine ⟨l1 ++ l2, ?_⟩
  rw [List.singleton_append]
  exact List.perm_middle.symm

theorem computeCentroids_closed {env : Env T} {P : T → Prop} {points : List T} (hc : Closed env.pt P points)
    {fuel k k' : Nat} {asg : List (List T)} {cs : List T} (hp : asg.flatten.Perm points)
    (h : computeCentroids env fuel asg asg k = .ok (cs, k')) : ∀ c ∈ cs, P c := by
  intro c hmem
  obtain ⟨hl, hi⟩ := computeCentroids_ok h
  obtain ⟨i, hci⟩ := List.mem_iff_getElem?.1 hmem
  have hlt := (List.getElem?_eq_some_iff.1 hci).1
  have ha := List.getElem?_eq_getElem (l := asg) (i := i) (by omega)
  rcases hi i c _ hci ha with h | ⟨-, p, hpm, h⟩
  · exact hc.means _ c (part_of_mem hp (List.mem_of_getElem? ha)) h
  · exact hc.means _ c (part_single (hp.mem_iff.1 hpm)) h

theorem init_closed {env : Env T} {P : T → Prop} {points : List T} (hc : Closed env.pt P points)
    {fuel n : Nat} {cl : Clusters T} (h : init env fuel points n = .ok cl) : ∀ c ∈ cl.centroids, P c := by
  rw [init] at h
  obtain ⟨asg, h1, h⟩ := Ret.bind_ok.1 h
  obtain ⟨cs, h2, h⟩ := Ret.bind_ok.1 h
  obtain ⟨ns, h3, h⟩ := Ret.bind_ok.1 h
  cases h
  obtain ⟨a1, a2, a3⟩ := initAssignment_ok h1
  intro c hmem
  obtain ⟨p, hpm, e⟩ := (initCentroids_ok h2).2 c hmem
  exact hc.means _ c (part_single (a2.mem_iff.1 hpm)) e

theorem iteration_closed {env : Env T} {P : T → Prop} {points : List T} (hc : Closed env.pt P points)
    {fuel n k k' : Nat} {cl cl' : Clusters T} {changed : Bool} (hi : Invariant env points n cl)
    (h : iteration env fuel cl k = .ok (cl', changed, k')) : ∀ c ∈ cl'.centroids, P c := by
  obtain ⟨cl1, h1, h2, h3, h4⟩ := iteration_parts h
  obtain ⟨a1, a2, a3, a4, a5, -⟩ := assignPoints_ok h1
  exact computeCentroids_closed hc (a5.trans hi.points) h3

/-- The centroids that occur. -/
theorem reached_closed {env : Env T} (hs : IsSort env.sort) {P : T → Prop} {points : List T}
    (hc : Closed env.pt P points) {fuel n : Nat} {cl : Clusters T} (h : Reached env fuel points n cl) :
    ∀ c ∈ cl.centroids, P c := by
  cases h with
  | start h => exact init_closed hc h
  | step hr h => exact iteration_closed hc (reached_invariant hs hr) h

theorem iterate_ok {env : Env T} {fuel left n k : Nat} {points : List T} {cl cl' : Clusters T}
    (hr : Reached env fuel points n cl) (h : iterate env fuel left cl k = .ok cl') :
    ∃ cl0 k0 k', Reached env fuel points n cl0 ∧ iteration env fuel cl0 k0 = .ok (cl', false, k') := by
  induction left generalizing cl k with
  | zero => cases h
  | succ left ih =>
    rw [iterate] at h
    obtain ⟨⟨cl1, ch, k1⟩, h1, h⟩ := Ret.bind_ok.1 h
    cases ch with
    | true => exact ih (.step hr h1) h
    | false => cases h; exact ⟨cl, k, k1, hr, h1⟩

theorem cluster_ok {env : Env T} {fuel n : Nat} {points : List T} {cl : Clusters T}
    (h : cluster env fuel points n = .ok cl) :
    ∃ cl0 k0 k', Reached env fuel points n cl0 ∧ iteration env fuel cl0 k0 = .ok (cl, false, k') := by
  rw [cluster] at h
  obtain ⟨cl1, h1, h⟩ := Ret.bind_ok.1 h
  obtain ⟨cl2, h2, h⟩ := Ret.bind_ok.1 h
  split at h
  · cases h; exact iterate_ok (.start h1) h2
  · cases h

/-- The last iteration of a run, and the one before. -/
theorem iterate_last {env : Env T} {fuel left n k : Nat} {points : List T} {cl cl' : Clusters T}
    (hr : Reached env fuel points n cl) (h : iterate env fuel left cl k = .ok cl') :
    ∃ cl1 k0 k', Reached env fuel points n cl1 ∧ iteration env fuel cl1 k0 = .ok (cl', false, k') ∧
      ((cl1 = cl ∧ k0 = k) ∨ ∃ clp ch kp, Reached env fuel points n clp ∧
        iteration env fuel clp kp = .ok (cl1, ch, k0)) := by
  induction left generalizing cl k with
  | zero => cases h
  | succ left ih =>
    rw [iterate] at h
    obtain ⟨⟨cl1, ch, k1⟩, h1, h⟩ := Ret.bind_ok.1 h
    cases ch with
    | true =>
      obtain ⟨cl2, k0, k', r1, r2, r3⟩ := ih (.step hr h1) h
      refine ⟨cl2, k0, k', r1, r2, Or.inr ?_⟩
      rcases r3 with ⟨rfl, rfl⟩ | r3
      · exact ⟨cl, true, k, hr, h1⟩
      · exact r3
    | false => cases h; exact ⟨cl, k, k1, hr, h1, Or.inl ⟨rfl, rfl⟩⟩

theorem last_iteration {env : Env T} {fuel n : Nat} {points : List T} {cl : Clusters T}
    (h : cluster env fuel points n = .ok cl) :
    ∃ cl0, init env fuel points n = .ok cl0 ∧
      ∃ cl1 k0 k', Reached env fuel points n cl1 ∧ iteration env fuel cl1 k0 = .ok (cl, false, k') ∧
        ((cl1 = cl0 ∧ k0 = 0) ∨ ∃ clp ch kp, Reached env fuel points n clp ∧
          iteration env fuel clp kp = .ok (cl1, ch, k0)) := by
  rw [cluster] at h
  obtain ⟨cl1, h1, h⟩ := Ret.bind_ok.1 h
  obtain ⟨cl2, h2, h⟩ := Ret.bind_ok.1 h
  split at h
  · cases h; exact ⟨cl1, h1, iterate_last (.start h1) h2⟩
  · cases h

/-! ## Panics -/

theorem _root_.Cniic.Ret.bind_panic {ε α β : Type} {m : Ret ε α} {f : α → Ret ε β} :
    (m >>= f) = .panic ↔ m = .panic ∨ ∃ a, m = .ok a ∧ f a = .panic := by
  cases m <;> simp [bind, Ret.bind]

theorem _root_.Cniic.Ret.expect_panic {ε α : Type} {o : Option α} :
    (Ret.expect o : Ret ε α) = .panic ↔ o = none := by
  cases o <;> simp [Ret.expect]

theorem fakeClone_total {pt : PointOps T} {P : T → Prop} {points : List T} (ht : Sound pt P points) {p : T}
    (hp : p ∈ points) : fakeClone pt p ≠ .panic := by
  unfold fakeClone
  split
  · intro h; cases h
  · rename_i h; exact absurd h (ht.single p)
  · rename_i h; exact absurd h (ht.one _ hp)

theorem distances_total {pt : PointOps T} {P : T → Prop} {points : List T} (ht : Sound pt P points) {cs : List T}
    (hcs : ∀ c ∈ cs, P c) {c : T} (hc : P c) {l : List (Nat × Rat)}
    (h : ∀ e ∈ l, e.1 < cs.length) : distances pt cs c l ≠ .panic := by
  induction l with
  | nil => intro h; cases h
  | cons e l ih =>
    obtain ⟨i, d⟩ := e
    rw [distances]
    intro hp
    rcases Ret.bind_panic.1 hp with h1 | ⟨t, h1, hp⟩
    · have := h (i, d) (by simp)
      have h1 := List.getElem?_eq_none_iff.1 (Ret.expect_panic.1 h1)
      dsimp only at this
      omega
    · have h1 := Ret.expect_ok.1 h1
      rcases Ret.bind_panic.1 hp with h2 | ⟨t, -, hp⟩
      · exact ht.dist _ _ hc (hcs t (List.mem_of_getElem? h1)) (Ret.expect_panic.1 h2)
      · rcases Ret.bind_panic.1 hp with h1 | ⟨t, -, hp⟩
        · exact ih (fun e he => h e (List.mem_cons_of_mem _ he)) h1
        · cases hp

theorem computeOne_total {env : Env T} {P : T → Prop} {points : List T} (ht : Sound env.pt P points)
    (hs : IsSort env.sort) {cs : List T} (hcs : ∀ c ∈ cs, P c) {fuel i : Nat}
    {g : Neigh} (hg : Shape cs.length i g) (hi : i < cs.length) : computeOne env cs fuel g ≠ .panic := by
  induction fuel generalizing g with
  | zero => intro h; cases h
  | succ fuel ih =>
    rw [computeOne]
    intro hp
    rcases Ret.bind_panic.1 hp with h1 | ⟨g1, hu, hp⟩
    · rw [Neigh.updateDistances] at h1
      rcases Ret.bind_panic.1 h1 with h1 | ⟨t, h0, h1⟩
      · have := List.getElem?_eq_none_iff.1 (Ret.expect_panic.1 h1)
        rw [hg.src] at this
        omega
      · rcases Ret.bind_panic.1 h1 with h1 | ⟨t, -, h1⟩
        · exact distances_total ht hcs (hcs _ (List.mem_of_getElem? (Ret.expect_ok.1 h0))) (fun e he => (hg.others e he).2) h1
        · cases h1
    · have hsh := (hg.updated hu).sort hs
      split at hp
      · cases hp
      · rename_i g2 hr
        rw [resize_false hr] at hp
        dsimp only at hp
        rw [hsh.src] at hp
        exact ih (Neigh.new_shape i _) hp

theorem computeNeighbours_total {env : Env T} {P : T → Prop} {points : List T} (ht : Sound env.pt P points)
    (hs : IsSort env.sort) {cs : List T} (hcs : ∀ c ∈ cs, P c) {fuel : Nat} {gs : List Neigh} (h : ∀ g ∈ gs, ∃ i, i < cs.length ∧ Shape cs.length i g) :
    computeNeighbours env fuel cs gs ≠ .panic := by
  induction gs with
  | nil => intro h; cases h
  | cons g gs ih =>
    rw [computeNeighbours]
    intro hp
    obtain ⟨i, hi, hg⟩ := h g (by simp)
    rcases Ret.bind_panic.1 hp with h1 | ⟨t, -, hp⟩
    · exact computeOne_total ht hs hcs hg hi h1
    · rcases Ret.bind_panic.1 hp with h1 | ⟨t, -, hp⟩
      · exact ih (fun g hg => h g (List.mem_cons_of_mem _ hg)) h1
      · cases hp

theorem initCentroids_total {pt : PointOps T} {P : T → Prop} {points : List T} (ht : Sound pt P points)
    {asg : List (List T)} (h : ∀ v ∈ asg, v ≠ []) (hsub : ∀ v ∈ asg, ∀ p ∈ v, p ∈ points) : initCentroids pt asg ≠ .panic := by
  induction asg with
  | nil => intro h; cases h
  | cons a asg ih =>
    rw [initCentroids]
    intro hp
    rcases Ret.bind_panic.1 hp with h1 | ⟨t, h0, hp⟩
    · have := List.getElem?_eq_none_iff.1 (Ret.expect_panic.1 h1)
      exact h a (by simp) (List.eq_nil_of_length_eq_zero (by omega))
    · rcases Ret.bind_panic.1 hp with h1 | ⟨t, -, hp⟩
      · exact fakeClone_total ht (hsub a (by simp) _ (List.mem_of_getElem? (Ret.expect_ok.1 h0))) h1
      · rcases Ret.bind_panic.1 hp with h1 | ⟨t, -, hp⟩
        · exact ih (fun v hv => h v (List.mem_cons_of_mem _ hv))
            (fun v hv => hsub v (List.mem_cons_of_mem _ hv)) h1
        · cases hp

theorem splitPoints_nonempty {ppc k : Nat} {points : List T} (h0 : 0 < ppc) (h : ppc * (k + 1) ≤ points.length) :
    ∀ v ∈ splitPoints ppc k points, v ≠ [] := by
  induction k generalizing points with
  | zero =>
    intro v hv
    simp only [splitPoints, List.mem_singleton] at hv
    subst hv
    intro hn
    rw [hn] at h
    simp only [List.length_nil] at h
    omega
  | succ k ih =>
    intro v hv
    rw [Nat.mul_succ] at h
    rw [splitPoints] at hv
    rcases List.mem_cons.1 hv with rfl | hv
    · intro hn
      have := congrArg List.length hn
      rw [List.length_drop, List.length_nil] at this
      have : ppc * (k + 1) ≥ ppc := Nat.le_mul_of_pos_right _ (by omega)
      omega
    · refine ih ?_ v hv
      rw [List.length_take]
      omega

theorem initAssignment_panic {points : List T} {n : Nat} :
    initAssignment points n = .panic ↔ n = 0 ∨ points.length < n := by
  unfold initAssignment
  split
  · rename_i h; simp [h]
  · rename_i h
    have : points.length / n > 0 ↔ n ≤ points.length := by
      rw [gt_iff_lt, Nat.div_pos_iff]; omega
    split
    · rename_i h1
      simp only [this] at h1
      constructor
      · intro h; cases h
      · rintro (h2 | h2) <;> omega
    · rename_i h1
      simp only [this] at h1
      exact ⟨fun _ => Or.inr (by omega), fun _ => rfl⟩

theorem init_panic {env : Env T} {P : T → Prop} {points : List T} (ht : Sound env.pt P points)
    (hs : IsSort env.sort) {fuel n : Nat}
    (h : init env fuel points n = .panic) : n = 0 ∨ points.length < n := by
  rw [init] at h
  rcases Ret.bind_panic.1 h with h1 | ⟨asg, ha, h⟩
  · exact initAssignment_panic.1 h1
  · exfalso
    rcases Ret.bind_panic.1 h with h1 | ⟨cs, hc, h⟩
    · have hperm := (initAssignment_ok ha).2.1
      refine initCentroids_total ht ?_
        (fun v hv p hp => hperm.mem_iff.1 (List.mem_flatten.2 ⟨v, hv, hp⟩)) h1
      unfold initAssignment at ha
      split at ha
      · cases ha
      · rename_i hn
        split at ha
        · rename_i hp
          cases ha
          apply splitPoints_nonempty hp
          rw [show n - 1 + 1 = n by omega]
          exact Nat.div_mul_le_self _ _
        · cases ha
    · rcases Ret.bind_panic.1 h with h1 | ⟨ns, -, h⟩
      · refine computeNeighbours_total ht hs ?_ ?_ h1
        · intro c hmem
          obtain ⟨p, hpm, e⟩ := (initCentroids_ok hc).2 c hmem
          exact ht.means _ c (part_single ((initAssignment_ok ha).2.1.mem_iff.1 hpm)) e
        intro g hg
        obtain ⟨i, hi, rfl⟩ := List.mem_map.1 hg
        exact ⟨i, List.mem_range.1 hi, Neigh.new_shape i _⟩
      · cases h

theorem pickVictim_total {rand : Nat → Nat} {asg : List (List T)} (h : 0 < asg.length) {fuel k : Nat} :
    pickVictim rand asg fuel k ≠ .panic := by
  induction fuel generalizing k with
  | zero => intro h; cases h
  | succ fuel ih =>
    rw [pickVictim]
    intro hp
    rcases Ret.bind_panic.1 hp with h1 | ⟨v, -, hp⟩
    · have := List.getElem?_eq_none_iff.1 (Ret.expect_panic.1 h1)
      have := Nat.mod_lt (rand k) h
      omega
    · split at hp
      · exact ih hp
      · cases hp

theorem pickVictim_nonempty {rand : Nat → Nat} {asg : List (List T)} {fuel k k' : Nat} {v : List T}
    (h : pickVictim rand asg fuel k = .ok (v, k')) : 0 < v.length := by
  induction fuel generalizing k with
  | zero => cases h
  | succ fuel ih =>
    rw [pickVictim] at h
    obtain ⟨w, h1, h⟩ := Ret.bind_ok.1 h
    split at h
    · exact ih h
    · cases h; omega

theorem computeCentroids_total {env : Env T} {P : T → Prop} {points : List T} (ht : Sound env.pt P points)
    {fuel k : Nat} {all asg : List (List T)} (h0 : 0 < all.length) (hall : ∀ v ∈ all, ∀ p ∈ v, p ∈ points)
    (hasg : ∀ v ∈ asg, env.pt.mean v ≠ .panic) : computeCentroids env fuel all asg k ≠ .panic := by
  induction asg generalizing k with
  | nil => intro h; cases h
  | cons a asg ih =>
    have ih := fun {k} => @ih k fun v hv => hasg v (List.mem_cons_of_mem _ hv)
    rw [computeCentroids]
    split
    · intro hp
      rcases Ret.bind_panic.1 hp with h1 | ⟨v, -, hp⟩
      · exact ih h1
      · cases hp
    · intro hp
      rcases Ret.bind_panic.1 hp with h1 | ⟨⟨v, k1⟩, hv, hp⟩
      · exact pickVictim_total h0 h1
      · dsimp only at hp
        rcases Ret.bind_panic.1 hp with h1 | ⟨p, hpv, hp⟩
        · have := List.getElem?_eq_none_iff.1 (Ret.expect_panic.1 h1)
          have := Nat.mod_lt (env.rand k1) (pickVictim_nonempty hv)
          omega
        · rcases Ret.bind_panic.1 hp with h1 | ⟨c, -, hp⟩
          · exact fakeClone_total ht
              (hall v (pickVictim_ok hv) p (List.mem_of_getElem? (Ret.expect_ok.1 hpv))) h1
          · rcases Ret.bind_panic.1 hp with h1 | ⟨v, -, hp⟩
            · exact ih h1
            · cases hp
    · rename_i h; exact absurd h (hasg a (by simp))

theorem scan_total {pt : PointOps T} {P : T → Prop} {points : List T} (ht : Sound pt P points) {cs : List T}
    (hcs : ∀ c ∈ cs, P c) {x : T} (hx : P x) {cutoff : Rat}
    {l : List (Nat × Rat)} {pos j : Nat} {d : Rat} (h : ∀ e ∈ l, e.1 < cs.length) :
    scan pt cs x cutoff l pos d j ≠ .panic := by
  induction l generalizing pos j d with
  | nil => intro h; cases h
  | cons a l ih =>
    obtain ⟨t, ct⟩ := a
    rw [scan]
    split
    · intro h; cases h
    · intro hp
      have ih' := fun {pos j d} => @ih pos j d (fun e he => h e (List.mem_cons_of_mem _ he))
      rcases Ret.bind_panic.1 hp with h1 | ⟨c, hc, hp⟩
      · have := List.getElem?_eq_none_iff.1 (Ret.expect_panic.1 h1)
        have := h (t, ct) (by simp)
        dsimp only at this
        omega
      · rcases Ret.bind_panic.1 hp with h1 | ⟨c, -, hp⟩
        · exact ht.dist _ _ (hcs c (List.mem_of_getElem? (Ret.expect_ok.1 hc))) hx (Ret.expect_panic.1 h1)
        · split at hp
          · exact ih' hp
          · exact ih' hp

theorem choose_total {env : Env T} {P : T → Prop} {points : List T} (ht : Sound env.pt P points) {cs : List T}
    (hcs : ∀ c ∈ cs, P c) {g : Neigh} {i : Nat} {x : T} (hx : P x)
    (hi : i < cs.length) (hg : ∀ e ∈ g.neighbours, e.1 < cs.length) : choose env cs g i x ≠ .panic := by
  rw [choose]
  intro hp
  rcases Ret.bind_panic.1 hp with h1 | ⟨c, hc, hp⟩
  · have := List.getElem?_eq_none_iff.1 (Ret.expect_panic.1 h1)
    omega
  · rcases Ret.bind_panic.1 hp with h1 | ⟨d, -, hp⟩
    · exact ht.dist _ _ (hcs c (List.mem_of_getElem? (Ret.expect_ok.1 hc))) hx (Ret.expect_panic.1 h1)
    · split at hp
      · cases hp
      · rcases Ret.bind_panic.1 hp with h1 | ⟨d, -, hp⟩
        · exact scan_total ht hcs hx hg h1
        · cases hp

theorem scan_target {pt : PointOps T} {cs : List T} {x : T} {cutoff : Rat} {l : List (Nat × Rat)}
    {pos j0 j w : Nat} {d0 d : Rat} (h : scan pt cs x cutoff l pos d0 j0 = .ok (d, j, w)) :
    j = j0 ∨ j < cs.length := by
  induction l generalizing pos j0 d0 with
  | nil => cases h; exact Or.inl rfl
  | cons a l ih =>
    obtain ⟨t, ct⟩ := a
    rw [scan] at h
    split at h
    · cases h; exact Or.inl rfl
    · obtain ⟨c, h1, h⟩ := Ret.bind_ok.1 h
      obtain ⟨dt, -, h⟩ := Ret.bind_ok.1 h
      split at h
      · rcases ih h with rfl | h
        · exact Or.inr (List.getElem?_eq_some_iff.1 (Ret.expect_ok.1 h1)).1
        · exact Or.inr h
      · exact ih h

theorem choose_target {env : Env T} {cs : List T} {g g' : Neigh} {i j : Nat} {x : T}
    (h : choose env cs g i x = .ok (j, g')) : j < cs.length := by
  rw [choose] at h
  obtain ⟨c, h1, h⟩ := Ret.bind_ok.1 h
  have hi := (List.getElem?_eq_some_iff.1 (Ret.expect_ok.1 h1)).1
  obtain ⟨d, -, h⟩ := Ret.bind_ok.1 h
  split at h
  · cases h; exact hi
  · obtain ⟨⟨d', j', w⟩, h3, h⟩ := Ret.bind_ok.1 h
    cases h
    rcases scan_target h3 with rfl | h
    · exact hi
    · exact h

theorem assignLoop_total {env : Env T} {P : T → Prop} {points : List T} (ht : Sound env.pt P points) {cs : List T}
    (hcs : ∀ c ∈ cs, P c) {l : List (Nat × T)} (hx : ∀ e ∈ l, P e.2) {asg : List (List T)} {ns : List Neigh} {ch : Bool} (hl : ∀ e ∈ l, e.1 < cs.length)
    (ha : asg.length = cs.length) (hn : ns.length = cs.length)
    (hg : ∀ g ∈ ns, ∀ e ∈ g.neighbours, e.1 < cs.length) : assignLoop env cs l asg ns ch ≠ .panic := by
  induction l generalizing asg ns ch with
  | nil => intro h; cases h
  | cons a l ih =>
    obtain ⟨i, x⟩ := a
    have hi := hl (i, x) (by simp)
    dsimp only at hi
    rw [assignLoop]
    intro hp
    rcases Ret.bind_panic.1 hp with h1 | ⟨g, h1, hp⟩
    · have := List.getElem?_eq_none_iff.1 (Ret.expect_panic.1 h1)
      omega
    · have hmem := List.mem_of_getElem? (Ret.expect_ok.1 h1)
      rcases Ret.bind_panic.1 hp with h2 | ⟨⟨j, g1⟩, h2, hp⟩
      · exact choose_total ht hcs (hx (i, x) (by simp)) hi (hg g hmem) h2
      · dsimp only at hp
        have hst := choose_strip h2
        have hj := choose_target h2
        rcases Ret.bind_panic.1 hp with h3 | ⟨ns1, h3, hp⟩
        · have := Ret.expect_panic.1 h3
          unfold update at this
          rw [if_pos (by omega)] at this
          cases this
        · rcases Ret.bind_panic.1 hp with h4 | ⟨asg1, h4, hp⟩
          · have := Ret.expect_panic.1 h4
            unfold update at this
            rw [if_pos (by omega)] at this
            cases this
          · obtain ⟨-, rfl⟩ := update_ok (Ret.expect_ok.1 h3)
            obtain ⟨-, rfl⟩ := update_ok (Ret.expect_ok.1 h4)
            refine ih (fun e he => hx e (List.mem_cons_of_mem _ he)) (fun e he => hl e (List.mem_cons_of_mem _ he)) (by simpa using ha) (by simpa using hn) ?_ hp
            intro g' hg' e he
            obtain ⟨k, hk⟩ := List.mem_iff_getElem?.1 hg'
            rw [List.getElem?_modify] at hk
            cases hk' : ns[k]? with
            | none => rw [hk'] at hk; cases hk
            | some g2 =>
              rw [hk'] at hk
              by_cases hik : i = k
              · simp only [hik, if_true, Option.map_eq_map, Option.map_some, Option.some.injEq] at hk
                subst hk
                have : g1.neighbours = g.neighbours := (Prod.mk.inj hst).2
                rw [this] at he
                exact hg g hmem e he
              · simp only [hik, if_false, Option.map_eq_map, Option.map_some, Option.some.injEq] at hk
                subst hk
                exact hg g2 (List.mem_of_getElem? hk') e he

theorem tagged_lt {asg : List (List T)} {i : Nat} {e : Nat × T} (h : e ∈ tagged asg i) :
    e.1 < i + asg.length := by
  induction asg generalizing i with
  | nil => cases h
  | cons a asg ih =>
    rw [tagged, List.mem_append] at h
    rw [List.length_cons]
    rcases h with h | h
    · obtain ⟨x, -, rfl⟩ := List.mem_map.1 h; omega
    · have := ih h; omega

/-- An iteration panics only if the mean of a cluster does. -/
theorem iteration_panic {env : Env T} {P : T → Prop} {points : List T} (ht : Sound env.pt P points)
    (hs : IsSort env.sort) {fuel n k : Nat} {cl : Clusters T} (hcs : ∀ c ∈ cl.centroids, P c) (hi : Invariant env points n cl)
    (hp : iteration env fuel cl k = .panic) :
    ∃ cl' changed, assignPoints env cl = .ok (cl', changed) ∧ ∃ v ∈ cl'.assignment, env.pt.mean v = .panic := by
  apply Classical.byContradiction
  intro hno
  have hn := hi.positive
  have hla := hi.assignment
  have hlc := hi.centroids
  have hln := hi.neighbours
  rw [iteration] at hp
  rcases Ret.bind_panic.1 hp with h1 | ⟨⟨cl1, ch⟩, h1, hp⟩
  · unfold assignPoints at h1
    rw [if_pos (by omega)] at h1
    rcases Ret.bind_panic.1 h1 with h1 | ⟨⟨a, b, c⟩, -, h1⟩
    · refine assignLoop_total ht hcs ?_ ?_ (by simp) (by omega) ?_ h1
      · intro e he
        have : e.2 ∈ (tagged cl.assignment).map (·.2) := List.mem_map_of_mem he
        rw [tagged_points] at this
        exact ht.inputs _ (hi.points.mem_iff.1 this)
      · intro e he
        have := tagged_lt he
        omega
      · intro g hg e he
        obtain ⟨i, hg⟩ := List.mem_iff_getElem?.1 hg
        exact ((hi.lists i g hg).1.others e he).2
    · dsimp only at h1
      rw [if_neg (by omega)] at h1
      cases h1
  · dsimp only at hp
    obtain ⟨a1, a2, a3, a4, a5, -⟩ := assignPoints_ok h1
    rcases Ret.bind_panic.1 hp with h2 | ⟨⟨cl2, k2⟩, h2, hp⟩
    · rw [updateCentroids] at h2
      rcases Ret.bind_panic.1 h2 with h2 | ⟨a, -, h2⟩
      · have hperm := a5.trans hi.points
        exact computeCentroids_total ht (by omega)
          (fun v hv p hp => hperm.mem_iff.1 (List.mem_flatten.2 ⟨v, hv, hp⟩))
          (fun v hv hv' => hno ⟨cl1, ch, h1, v, hv, hv'⟩) h2
      · cases h2
    · dsimp only at hp
      rcases Ret.bind_panic.1 hp with h3 | ⟨cl3, -, hp⟩
      · rw [updateNeighbours] at h3
        rcases Ret.bind_panic.1 h3 with h3 | ⟨a, -, h3⟩
        · rw [updateCentroids] at h2
          obtain ⟨⟨cs, k3⟩, h4, h2⟩ := Ret.bind_ok.1 h2
          cases h2
          obtain ⟨c1, -⟩ := computeCentroids_ok h4
          refine computeNeighbours_total ht hs (computeCentroids_closed ht.toClosed (a5.trans hi.points) h4) ?_ h3
          intro g hg
          obtain ⟨i, hg⟩ := List.mem_iff_getElem?.1 hg
          obtain ⟨g1, e3, e4⟩ := getElem?_of_strip a4 hg
          have hsh := (hi.lists i g1 e3).1.toShape.strip e4
          have hlt := (List.getElem?_eq_some_iff.1 e3).1
          have hcs : cs.length = cl.centroids.length := by omega
          refine ⟨i, by omega, ?_⟩
          rw [hcs]
          exact hsh
        · cases h3
      · cases hp

theorem iteration_total {env : Env T} {P : T → Prop} {points : List T} (ht : Total env.pt P points)
    (hs : IsSort env.sort) {fuel n k : Nat} {cl : Clusters T} (hcs : ∀ c ∈ cl.centroids, P c) (hi : Invariant env points n cl) :
    iteration env fuel cl k ≠ .panic := by
  intro hp
  obtain ⟨cl1, ch, h1, v, hv, hm⟩ := iteration_panic ht.toSound hs hcs hi hp
  obtain ⟨-, -, -, -, a5, -⟩ := assignPoints_ok h1
  exact ht.mean v (part_of_mem (a5.trans hi.points) hv) hm

theorem iterate_panic {env : Env T} {P : T → Prop} {points : List T} (ht : Sound env.pt P points)
    (hs : IsSort env.sort) {fuel left n k : Nat} {cl : Clusters T} (hcs : ∀ c ∈ cl.centroids, P c) (hi : Invariant env points n cl)
    (hp : iterate env fuel left cl k = .panic) : ∃ v, Part v points ∧ env.pt.mean v = .panic := by
  induction left generalizing cl k with
  | zero => cases hp
  | succ left ih =>
    rw [iterate] at hp
    rcases Ret.bind_panic.1 hp with h1 | ⟨⟨cl1, ch, k1⟩, h1, hp⟩
    · obtain ⟨cl1, ch, h1, v, hv, hm⟩ := iteration_panic ht hs hcs hi h1
      obtain ⟨-, -, -, -, a5, -⟩ := assignPoints_ok h1
      exact ⟨v, part_of_mem (a5.trans hi.points) hv, hm⟩
    · dsimp only at hp
      split at hp
      · exact ih (iteration_closed ht.toClosed hi h1) (iteration_ok hs hi h1) hp
      · cases hp

theorem cluster_panic {env : Env T} {P : T → Prop} {points : List T} (ht : Sound env.pt P points)
    (hs : IsSort env.sort) {fuel n : Nat} (h : cluster env fuel points n = .panic) :
    n = 0 ∨ points.length < n ∨
      (∃ cl, init env fuel points n = .ok cl ∧ ∃ cl', iterate env fuel fuel cl 0 = .ok cl' ∧
        enoughActive env.fl cl' n = false) ∨ ∃ v, Part v points ∧ env.pt.mean v = .panic := by
  rw [cluster] at h
  rcases Ret.bind_panic.1 h with h1 | ⟨cl, h1, h⟩
  · rcases init_panic ht hs h1 with h | h
    · exact Or.inl h
    · exact Or.inr (Or.inl h)
  · rcases Ret.bind_panic.1 h with h2 | ⟨cl', h2, h⟩
    · exact Or.inr (Or.inr (Or.inr (iterate_panic ht hs (init_closed ht.toClosed h1) (init_ok hs h1) h2)))
    · refine Or.inr (Or.inr (Or.inl ⟨cl, h1, cl', h2, ?_⟩))
      split at h
      · cases h
      · rename_i hb; simpa using hb

/-! ## A sorting function

Used in examples. -/

def insertByDist (e : Nat × Rat) : List (Nat × Rat) → List (Nat × Rat)
  | [] => [e]
  | a :: l => if a.2 ≤ e.2 then a :: insertByDist e l else e :: a :: l

def sortByDist : List (Nat × Rat) → List (Nat × Rat)
  | [] => []
  | a :: l => insertByDist a (sortByDist l)

/-- The check at the end in terms of the points. -/
theorem enoughActive_eq (fl : FloatOps) {env : Env T} {points : List T} {n : Nat} {cl : Clusters T}
    (hi : Invariant env points n cl) : enoughActive fl cl n = decide (minActive fl points.length n ≤ active cl) := by
  have h1 : (cl.assignment.map List.length).sum = points.length := by
    rw [← hi.points.length_eq, List.length_flatten]
  have h2 : (fun v : List T => decide (v.length > 0)) = fun v => !v.isEmpty := by
    funext v
    cases v <;> simp
  unfold enoughActive minActive active
  dsimp only
  rw [h1, h2]

theorem insertByDist_perm (e : Nat × Rat) (l : List (Nat × Rat)) : (insertByDist e l).Perm (e :: l) := by
  induction l with
  | nil => exact List.Perm.refl _
  | cons a l ih =>
    rw [insertByDist]
    split
    · exact (ih.cons a).trans (List.Perm.swap e a l)
    · exact List.Perm.refl _

theorem insertByDist_sorted (e : Nat × Rat) (l : List (Nat × Rat)) (h : l.Pairwise fun a b => a.2 ≤ b.2) :
    (insertByDist e l).Pairwise fun a b => a.2 ≤ b.2 := by
  induction l with
  | nil => simp [insertByDist]
  | cons a l ih =>
    obtain ⟨h1, h2⟩ := List.pairwise_cons.1 h
    rw [insertByDist]
    split
    · rename_i hle
      refine List.pairwise_cons.2 ⟨?_, ih h2⟩
      intro b hb
      rcases List.mem_cons.1 ((insertByDist_perm e l).mem_iff.1 hb) with rfl | hb
      · exact hle
      · exact h1 b hb
    · rename_i hle
      have hlt : e.2 ≤ a.2 := Rat.le_of_lt (Rat.not_le.1 hle)
      refine List.pairwise_cons.2 ⟨?_, h⟩
      intro b hb
      rcases List.mem_cons.1 hb with rfl | hb
      · exact hlt
      · exact Rat.le_trans hlt (h1 b hb)

theorem sortByDist_isSort : IsSort sortByDist := by
  intro l
  induction l with
  | nil => exact ⟨List.Perm.refl _, List.Pairwise.nil⟩
  | cons a l ih =>
    exact ⟨(insertByDist_perm a _).trans (ih.1.cons a), insertByDist_sorted a _ ih.2⟩

end Kmeans
end Cniic
