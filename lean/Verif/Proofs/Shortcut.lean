import Verif.Spec.Shortcut
import Verif.Proofs.Prune

/-! # Proofs: clustering without the certainty radius -/

namespace Cniic
open Spec Kmeans Spec.Kmeans

variable {fl : FloatOps} {T : Type} {env : Env T} {P : T → Prop}

/-- Within the certainty radius the loop finds nothing better. -/
theorem scan_stays (ht : Tight env P) (hd : ∀ a b, P a → P b → env.pt.dist a b ≠ none) {cs : List T}
    (hcs : ∀ c ∈ cs, P c) {c t0 x : T} (hc : P c) (h0 : P t0) (hx : P x) {i : Nat} {dc r : Rat}
    (h1 : env.pt.dist c x = some dc) (h2 : env.pt.dist c t0 = some r) (hr : dc ≤ env.fl.div r 2)
    {l : List (Nat × Rat)} (hl : ∀ e ∈ l, r ≤ e.2 ∧ ∃ t, cs[e.1]? = some t ∧ env.pt.dist c t = some e.2) (pos : Nat) :
    ∃ w, scan env.pt cs x (env.fl.mul 2 dc) l pos dc i = .ok (dc, i, w) := by
  induction l generalizing pos with
  | nil => exact ⟨pos, rfl⟩
  | cons a l ih =>
    obtain ⟨tsi, ct⟩ := a
    rw [scan]
    split
    · exact ⟨pos, rfl⟩
    · rename_i hcut
      obtain ⟨hle, t, e1, e2⟩ := hl (tsi, ct) (by simp)
      have ht' := hcs t (List.mem_of_getElem? e1)
      dsimp only at e1 e2 hle
      obtain ⟨dt, e3⟩ := Option.ne_none_iff_exists'.1 (hd t x ht' hx)
      rw [e1, Ret.expect, Ret.bind_ok_eq, e3, Ret.expect, Ret.bind_ok_eq, if_neg]
      · exact ih (fun e he => hl e (List.mem_cons_of_mem _ he)) _
      · exact not_lt.2 (ht c t t0 x dc dt ct r hc ht' h0 hx h1 e3 e2 h2 hle hr (not_lt.1 hcut))

theorem choose_all (ht : Tight env P) (hd : ∀ a b, P a → P b → env.pt.dist a b ≠ none) {cs : List T}
    (hcs : ∀ c ∈ cs, P c) {g g2 g1 : Neigh} {i j : Nat} {x : T} (hx : P x) (hg : WellFormed env.pt cs i g)
    (hst : strip g2 = strip g) (h : choose env cs g i x = .ok (j, g1)) :
    ∃ g3, chooseAll env cs g2 i x = .ok (j, g3) ∧ strip g3 = strip g := by
  obtain ⟨e1, e2⟩ := Prod.mk.inj hst
  rw [choose] at h
  obtain ⟨c, h1, h⟩ := Ret.bind_ok.1 h
  obtain ⟨dc, h2, h⟩ := Ret.bind_ok.1 h
  rw [chooseAll, h1, Ret.bind_ok_eq, h2, Ret.bind_ok_eq, e2]
  have h1 := Ret.expect_ok.1 h1
  have h2 := Ret.expect_ok.1 h2
  cases hb : g.stays env.fl dc with
  | false =>
    simp only [hb, Bool.false_eq_true, if_false] at h
    obtain ⟨⟨d', j', w⟩, h3, h⟩ := Ret.bind_ok.1 h
    cases h
    rw [h3, Ret.bind_ok_eq]
    exact ⟨_, rfl, by simp [strip, e1]⟩
  | true =>
    simp only [hb, if_true] at h
    cases h
    have : ∃ w, scan env.pt cs x (env.fl.mul 2 dc) g.neighbours 0 dc i = .ok (dc, i, w) := by
      rw [Neigh.stays, Neigh.certaintyRadius] at hb
      have hsort := hg.sorted
      have hdist := hg.distances
      cases hn : g.neighbours with
      | nil => exact ⟨0, rfl⟩
      | cons a l =>
        rw [hn] at hb hsort hdist
        simp only [List.head?_cons, Option.map_some, decide_eq_true_eq] at hb
        obtain ⟨c', t0, a1, a2, a3⟩ := hdist a (by simp)
        rw [h1] at a1
        cases a1
        refine scan_stays ht hd hcs (hcs c (List.mem_of_getElem? h1)) (hcs t0 (List.mem_of_getElem? a2)) hx h2 a3 hb ?_ 0
        intro e he
        obtain ⟨c', t, b1, b2, b3⟩ := hdist e he
        rw [h1] at b1
        cases b1
        refine ⟨?_, t, b2, b3⟩
        rcases List.mem_cons.1 he with rfl | he
        · exact le_refl _
        · exact (List.pairwise_cons.1 hsort).1 e he
    obtain ⟨w, hw⟩ := this
    rw [hw, Ret.bind_ok_eq]
    exact ⟨_, rfl, by simp [strip, e1]⟩

theorem assignLoop_all (ht : Tight env P) (hd : ∀ a b, P a → P b → env.pt.dist a b ≠ none) {cs : List T}
    (hcs : ∀ c ∈ cs, P c) {l : List (Nat × T)} (hx : ∀ e ∈ l, P e.2) {asg asg' : List (List T)} {ns ns' ns2 : List Neigh}
    {ch ch' : Bool} (hg : ∀ (i : Nat) g, ns[i]? = some g → WellFormed env.pt cs i g) (hst : ns2.map strip = ns.map strip)
    (h : assignLoop env cs l asg ns ch = .ok (asg', ns', ch')) :
    ∃ ns3, assignLoopAll env cs l asg ns2 ch = .ok (asg', ns3, ch') ∧ ns3.map strip = ns'.map strip := by
  induction l generalizing asg ns ns2 ch with
  | nil =>
    simp only [assignLoop, Ret.ok.injEq, Prod.mk.injEq] at h
    obtain ⟨rfl, rfl, rfl⟩ := h
    exact ⟨ns2, rfl, hst⟩
  | cons a l ih =>
    obtain ⟨cci, x⟩ := a
    rw [assignLoop] at h
    obtain ⟨g, h1, h⟩ := Ret.bind_ok.1 h
    obtain ⟨⟨j, g1⟩, h2, h⟩ := Ret.bind_ok.1 h
    dsimp only at h
    obtain ⟨ns1, h3, h⟩ := Ret.bind_ok.1 h
    obtain ⟨asg1, h4, h⟩ := Ret.bind_ok.1 h
    have h1 := Ret.expect_ok.1 h1
    obtain ⟨u3, rfl⟩ := update_ok (Ret.expect_ok.1 h3)
    obtain ⟨g2, e1, e2⟩ := getElem?_of_strip hst.symm h1
    obtain ⟨g3, e3, e4⟩ := choose_all ht hd hcs (hx (cci, x) (by simp)) (hg cci g h1) e2.symm h2
    have s1 := map_modify_strip ns cci g g1 h1 (choose_strip h2)
    have s2 := map_modify_strip ns2 cci g2 g3 e1 (e4.trans e2)
    have hlen : ns2.length = ns.length := by simpa using congrArg List.length hst
    have hu : update ns2 cci (fun _ => g3) = some (ns2.modify cci fun _ => g3) := by rw [update, if_pos (by omega)]
    rw [assignLoopAll, e1, Ret.expect, Ret.bind_ok_eq, e3, Ret.bind_ok_eq]
    dsimp only
    rw [hu, Ret.expect, Ret.bind_ok_eq, h4, Ret.bind_ok_eq]
    refine ih (fun e he => hx e (List.mem_cons_of_mem _ he)) (ns := ns.modify cci fun _ => g1) ?_ ?_ h
    · intro i g' hi
      obtain ⟨g0, f1, f2⟩ := getElem?_of_strip s1 hi
      exact (hg i g0 f1).strip f2
    · rw [s1, s2, hst]

theorem assignPoints_all (ht : Tight env P) (hd : ∀ a b, P a → P b → env.pt.dist a b ≠ none) {points : List T} {n : Nat}
    {cl cl' : Clusters T} (hi : Invariant env points n cl) (hcs : ∀ c ∈ cl.centroids, P c) (hp : ∀ p ∈ points, P p)
    {changed : Bool} (h : assignPoints env cl = .ok (cl', changed)) :
    ∃ cl2, assignPointsAll env cl = .ok (cl2, changed) ∧ cl2.centroids = cl'.centroids ∧ cl2.assignment = cl'.assignment ∧
      cl2.neighbours.map strip = cl'.neighbours.map strip := by
  unfold assignPoints at h
  unfold assignPointsAll
  split at h
  · rename_i hl
    rw [if_pos hl]
    obtain ⟨⟨asg, ns, ch⟩, h1, h⟩ := Ret.bind_ok.1 h
    dsimp only at h
    have hx : ∀ e ∈ tagged cl.assignment, P e.2 := by
      intro e he
      refine hp _ (hi.points.subset ?_)
      rw [← tagged_points cl.assignment 0]
      exact List.mem_map_of_mem he
    obtain ⟨ns3, e1, e2⟩ := assignLoop_all ht hd hcs hx (fun i g hg => (hi.lists i g hg).1) rfl h1
    rw [e1, Ret.bind_ok_eq]
    dsimp only
    split at h
    · cases h
    · rename_i h0
      cases h
      rw [if_neg h0]
      exact ⟨_, rfl, rfl, rfl, e2⟩
  · cases h

/-! ## Few clusters: the watermarks do not matter -/

theorem resize_full {lower : Nat → Nat} {n : Nat} (hn : n - 1 ≤ lower n) {g g2 : Neigh} (h : strip g2 = strip g) :
    g2.resize lower n = g.resize lower n := by
  obtain ⟨e1, e2⟩ := Prod.mk.inj h
  obtain ⟨a, b, w⟩ := g
  obtain ⟨a2, b2, w2⟩ := g2
  dsimp only at e1 e2
  subst e1 e2
  have m (w : Nat) : min (max (2 * w) (lower n)) (n - 1) = n - 1 := by omega
  simp only [Neigh.resize, m]

theorem computeOne_full {cs : List T} (hn : cs.length - 1 ≤ env.lower cs.length) {g g2 : Neigh} (h : strip g2 = strip g)
    (fuel : Nat) : computeOne env cs fuel g2 = computeOne env cs fuel g := by
  obtain ⟨e1, e2⟩ := Prod.mk.inj h
  cases fuel with
  | zero => rfl
  | succ fuel =>
    simp only [computeOne, Neigh.updateDistances, e1, e2]
    cases hc : (Ret.expect cs[g.src]? : Ret Unit T) with
    | err _ => rfl
    | panic => rfl
    | ok c =>
      simp only [Ret.bind_ok_eq]
      cases hl : distances env.pt cs c g.neighbours with
      | err _ => rfl
      | panic => rfl
      | ok l =>
        simp only [Ret.bind_ok_eq]
        rw [resize_full hn (g := { src := g.src, neighbours := env.sort l, watermark := g.watermark }) (by simp [strip])]

theorem computeNeighbours_full {cs : List T} (hn : cs.length - 1 ≤ env.lower cs.length) (fuel : Nat) {gs gs2 : List Neigh}
    (h : gs2.map strip = gs.map strip) : computeNeighbours env fuel cs gs2 = computeNeighbours env fuel cs gs := by
  induction gs generalizing gs2 with
  | nil => rw [List.map_nil, List.map_eq_nil_iff] at h; rw [h]
  | cons g gs ih =>
    cases gs2 with
    | nil => cases h
    | cons g2 gs2 =>
      rw [List.map_cons, List.map_cons] at h
      obtain ⟨h1, h2⟩ := List.cons_eq_cons.1 h
      rw [computeNeighbours, computeNeighbours, computeOne_full hn h1, ih h2]

/-- The assignment of the points to the clusters does not fail. -/
theorem assignPoints_total {points : List T} (ht : Sound env.pt P points) {n : Nat} {cl : Clusters T}
    (hcs : ∀ c ∈ cl.centroids, P c) (hi : Invariant env points n cl) : ∃ r, assignPoints env cl = .ok r := by
  have hn := hi.positive
  have hla := hi.assignment
  have hlc := hi.centroids
  have hln := hi.neighbours
  cases h : assignPoints env cl with
  | ok r => exact ⟨r, rfl⟩
  | err e => exact absurd h assignPoints_ne_err
  | panic =>
    unfold assignPoints at h
    rw [if_pos (by omega)] at h
    rcases Ret.bind_panic.1 h with h | ⟨⟨a, b, c⟩, -, h⟩
    · refine absurd h (assignLoop_total ht hcs ?_ ?_ (by simp) (by omega) ?_)
      · intro e he
        have : e.2 ∈ (tagged cl.assignment).map (·.2) := List.mem_map_of_mem he
        rw [tagged_points] at this
        exact ht.inputs _ (hi.points.mem_iff.1 this)
      · intro e he
        have := tagged_lt he
        omega
      · intro g hg e he
        obtain ⟨i, hg⟩ := List.mem_iff_getElem?.1 hg
        exact ((hi.lists i g hg).1.others e he).2
    · dsimp only at h
      rw [if_neg (by omega)] at h
      cases h

theorem iteration_all_few (htt : Tight env P) {points : List T} (ht : Sound env.pt P points) {n : Nat}
    (hn : n - 1 ≤ env.lower n) {cl : Clusters T} (hcs : ∀ c ∈ cl.centroids, P c) (hi : Invariant env points n cl)
    (fuel k : Nat) : iterationAll env fuel cl k = iteration env fuel cl k := by
  obtain ⟨⟨cl1, ch⟩, h1⟩ := assignPoints_total ht hcs hi
  obtain ⟨⟨cs2, asg2, ns2⟩, h2, e1, e2, e3⟩ := assignPoints_all htt ht.dist hi hcs ht.inputs h1
  obtain ⟨-, -, a3, -⟩ := assignPoints_ok h1
  obtain ⟨cs1, asg1, ns1⟩ := cl1
  dsimp only at e1 e2 e3 a3
  subst e1 e2
  rw [iterationAll, iteration, h1, h2, Ret.bind_ok_eq, Ret.bind_ok_eq]
  dsimp only
  rw [updateCentroids, updateCentroids]
  dsimp only
  cases hc : computeCentroids env fuel asg2 asg2 k with
  | err _ => rfl
  | panic => rfl
  | ok r =>
    obtain ⟨cs, k1⟩ := r
    have hl : cs.length = n := by rw [(computeCentroids_ok hc).1, a3, hi.assignment]
    simp only [Ret.bind_ok_eq, updateNeighbours]
    rw [computeNeighbours_full (by rw [hl]; exact hn) fuel e3]

theorem iterate_all_few (htt : Tight env P) (hs : IsSort env.sort) {points : List T} (ht : Sound env.pt P points) {n : Nat}
    (hn : n - 1 ≤ env.lower n) (fuel left : Nat) {cl : Clusters T} (hr : Reached env fuel points n cl) (k : Nat) :
    iterateAll env fuel left cl k = iterate env fuel left cl k := by
  induction left generalizing cl k with
  | zero => rfl
  | succ left ih =>
    rw [iterateAll, iterate,
      iteration_all_few htt ht hn (reached_closed hs ht.toClosed hr) (reached_invariant hs hr) fuel k]
    cases h : iteration env fuel cl k with
    | err _ => rfl
    | panic => rfl
    | ok r =>
      obtain ⟨cl1, ch, k1⟩ := r
      simp only [Ret.bind_ok_eq]
      split
      · exact ih (.step hr h) k1
      · rfl

theorem cluster_all_few (htt : Tight env P) (hs : IsSort env.sort) {points : List T} (ht : Sound env.pt P points) {n : Nat}
    (hn : n - 1 ≤ env.lower n) (fuel : Nat) : clusterAll env fuel points n = cluster env fuel points n := by
  rw [clusterAll, cluster]
  cases h : init env fuel points n with
  | err _ => rfl
  | panic => rfl
  | ok cl =>
    simp only [Ret.bind_ok_eq]
    rw [iterate_all_few htt hs ht hn fuel fuel (.start h) 0]

/-! ## Colours and pixels -/

theorem color_tight {o : Outside} (hfl : o.fl.Lawful) (chk : Bool) : Tight (colorEnv o chk) fun _ => True := by
  intro c t t0 x dc dt ct r _ _ _ _ h1 h2 h3 h4 hr hn _
  have h := (color_prunable hfl chk).near c t t0 x dc ct r trivial trivial trivial trivial h1 h3 h4 hr hn
  cases h1
  cases h2
  rw [ColorCount.dist, ColorCount.dist, rgbDist_eq hfl, rgbDist_eq hfl]
  exact hfl.sqrt_mono _ _ (Nat.cast_nonneg _) h

theorem gap_comm (a b : Nat) : gap a b = gap b a := by unfold gap; omega

/-- Twice the parallelogram law: equality holds for the middle only. -/
theorem gap_middle (a b c : Nat) :
    2 * gap a c ^ 2 + 2 * gap b c ^ 2 = gap a b ^ 2 + gap (a + b) (2 * c) ^ 2 := by
  zify
  have h1 := gap_sq_int a b
  have h2 := gap_sq_int a c
  have h3 := gap_sq_int b c
  have h4 := gap_sq_int (a + b) (2 * c)
  push_cast at h1 h2 h3 h4
  rw [h1, h2, h3, h4]
  ring

theorem gap_eq_of_middle {a b c : Nat} (h : gap (a + b) (2 * c) ^ 2 = 0) : gap a c = gap b c := by
  have : gap (a + b) (2 * c) = 0 := by simpa using h
  unfold gap at this ⊢
  omega

theorem rgbDist_congr (hfl : fl.Lawful) {a b c : Rgb UInt8} (hr : gap a.r.toNat c.r.toNat = gap b.r.toNat c.r.toNat)
    (hg : gap a.g.toNat c.g.toNat = gap b.g.toNat c.g.toNat) (hb : gap a.b.toNat c.b.toNat = gap b.b.toNat c.b.toNat) :
    rgbDist fl a c = rgbDist fl b c := by
  rw [rgbDist_eq hfl, rgbDist_eq hfl, colorSq, colorSq, hr, hg, hb]

theorem pos_tight {o : Outside} (hfl : o.fl.Lawful) (chk : Bool) : Tight (posEnv o chk) Narrow := by
  intro c t t0 x dc dt ct r pc pt p0 px h1 h2 h3 h4 hr hn hcut
  have k1 := pos_close hfl pc px h1
  have k2 := pos_close hfl pt px h2
  have k3 := pos_close hfl pc pt h3
  have k4 := pos_close hfl pc p0 h4
  apply Classical.byContradiction
  intro hlt
  have hlt := not_le.1 hlt
  have q1 := k2.le k1 hlt.le
  have q2 := k4.le k3 hr
  have q3 : 4 * pixelSq c x ≤ pixelSq c t0 := by
    apply Classical.byContradiction
    intro hn'
    exact absurd (k1.radius_lt hfl k4 (by omega)) (not_lt.2 hn)
  have e1 := gap_middle c.x.toNat t.x.toNat x.x.toNat
  have e2 := gap_middle c.y.toNat t.y.toNat x.y.toNat
  have e3 := gap_middle c.color.r.toNat t.color.r.toNat x.color.r.toNat
  have e4 := gap_middle c.color.g.toNat t.color.g.toNat x.color.g.toNat
  have e5 := gap_middle c.color.b.toNat t.color.b.toNat x.color.b.toNat
  unfold pixelSq colorSq at q1 q2 q3
  have s1 := gap_eq_of_middle (a := c.x.toNat) (b := t.x.toNat) (c := x.x.toNat) (by omega)
  have s2 := gap_eq_of_middle (a := c.y.toNat) (b := t.y.toNat) (c := x.y.toNat) (by omega)
  have s3 := gap_eq_of_middle (a := c.color.r.toNat) (b := t.color.r.toNat) (c := x.color.r.toNat) (by omega)
  have s4 := gap_eq_of_middle (a := c.color.g.toNat) (b := t.color.g.toNat) (c := x.color.g.toNat) (by omega)
  have s5 := gap_eq_of_middle (a := c.color.b.toNat) (b := t.color.b.toNat) (c := x.color.b.toNat) (by omega)
  have d1 := pos_dist h1
  have d2 := pos_dist h2
  rw [s1, s2, rgbDist_congr hfl s3 s4 s5, ← d2] at d1
  exact absurd d1 (ne_of_gt hlt)

end Cniic
