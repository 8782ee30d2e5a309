import Verif.Proofs.Prune
import Verif.Props.Kmeans

/-!
# Clustering that ends after its first iteration
-/

namespace Cniic
open Kmeans Spec.Kmeans

namespace Kmeans
variable {T : Type}

theorem computeNeighbours_ne_err {env : Env T} (hs : IsSort env.sort) {fuel : Nat} {cs : List T} {gs : List Neigh} :
    computeNeighbours env (fuel + 2) cs gs ≠ .err () := by
  induction gs with
  | nil => intro h; cases h
  | cons g gs ih =>
    intro h
    rw [computeNeighbours] at h
    rcases Ret.bind_err.1 h with h | ⟨_, -, h⟩
    · exact (computeOne_two env hs cs fuel g).2 h
    rcases Ret.bind_err.1 h with h | ⟨_, -, h⟩
    · exact ih h
    · cases h

/-- No victim is needed if no cluster is empty. -/
theorem computeCentroids_ne_err {env : Env T} (hm : MeanOfSome env.pt) {fuel k : Nat} {all asg : List (List T)}
    (h : ∀ v ∈ asg, v ≠ []) : computeCentroids env fuel all asg k ≠ .err () := by
  induction asg generalizing k with
  | nil => intro h; cases h
  | cons a asg ih =>
    intro he
    rw [computeCentroids] at he
    split at he
    · rcases Ret.bind_err.1 he with he | ⟨_, -, he⟩
      · exact ih (fun v hv => h v (List.mem_cons_of_mem _ hv)) he
      · cases he
    · rename_i hc
      exact h a (by simp) ((hm a).1 hc)
    · cases he

theorem stays_zero {fl : FloatOps} (hdiv : ∀ x, 0 ≤ x → 0 ≤ fl.div x 2) {g : Neigh} (h : ∀ e ∈ g.neighbours, 0 ≤ e.2) :
    g.stays fl 0 = true := by
  unfold Neigh.stays Neigh.certaintyRadius
  cases hg : g.neighbours with
  | nil => rfl
  | cons e l => simpa using hdiv e.2 (h e (by rw [hg]; simp))

/-- If every point is to stay where it is put at first, that is the result. -/
theorem settles_at_once {env : Env T} {P : T → Prop} {points : List T} (ht : Sound env.pt P points)
    (hs : IsSort env.sort) (hm : MeanOfSome env.pt) {fuel n : Nat} (hn : 0 < n) (hle : n ≤ points.length)
    (hmin : minActive env.fl points.length n ≤ n)
    (hmean : ∀ v ∈ splitPoints (points.length / n) (n - 1) points, env.pt.mean v ≠ .panic)
    (hstay : ∀ cl, init env (fuel + 2) points n = .ok cl → ∀ e ∈ tagged cl.assignment, ∀ g g1 j,
      (cl.neighbours[e.1]?).map strip = some (strip g) → choose env cl.centroids g e.1 e.2 = .ok (j, g1) → j = e.1) :
    ∃ cl, cluster env (fuel + 2) points n = .ok cl ∧
      cl.assignment = splitPoints (points.length / n) (n - 1) points := by
  cases hi : init env (fuel + 2) points n with
  | panic => rcases init_panic ht hs hi with h | h <;> omega
  | err e => exact absurd hi (init_ne_err hs)
  | ok cl =>
    have hinv := init_ok hs hi
    have hasg : cl.assignment = splitPoints (points.length / n) (n - 1) points := by
      rw [init] at hi
      obtain ⟨asg, h1, hi⟩ := Ret.bind_ok.1 hi
      obtain ⟨cs, -, hi⟩ := Ret.bind_ok.1 hi
      obtain ⟨ns, -, hi⟩ := Ret.bind_ok.1 hi
      cases hi
      unfold initAssignment at h1
      rw [if_neg (by omega)] at h1
      split at h1
      · cases h1; rfl
      · cases h1
    have hne : ∀ v ∈ cl.assignment, v ≠ [] := by
      rw [hasg]
      apply splitPoints_nonempty (Nat.div_pos hle hn)
      rw [show n - 1 + 1 = n by omega]
      exact Nat.div_mul_le_self _ _
    have hunch : ∀ cl1 ch, assignPoints env cl = .ok (cl1, ch) → ch = false ∧ cl1.assignment = cl.assignment := by
      intro cl1 ch h1
      have hch : ch = false := by
        obtain ⟨-, -, -, -, -, moves, m1, -, -, m4, m5⟩ := assignPoints_ok h1
        rw [m4, List.any_eq_false]
        intro m hmem
        obtain ⟨g, g1, e1, e2⟩ := m5 m hmem
        have := hstay cl hi (m.source, m.point) (by rw [← m1]; exact List.mem_map_of_mem hmem) g g1 m.target e1 e2
        simpa using this.symm
      subst hch
      exact ⟨rfl, assignPoints_unchanged h1⟩
    cases hit : iteration env (fuel + 2) cl 0 with
    | panic =>
      obtain ⟨cl1, ch, h1, v, hv, hp⟩ := iteration_panic ht hs (init_closed ht.toClosed hi) hinv hit
      rw [(hunch cl1 ch h1).2, hasg] at hv
      exact absurd hp (hmean v hv)
    | err e =>
      exfalso
      rw [iteration] at hit
      rcases Ret.bind_err.1 hit with hit | ⟨⟨cl1, ch⟩, h1, hit⟩
      · exact assignPoints_ne_err hit
      obtain ⟨-, ha⟩ := hunch cl1 ch h1
      rcases Ret.bind_err.1 hit with hit | ⟨⟨cl2, k2⟩, h2, hit⟩
      · rw [updateCentroids] at hit
        rcases Ret.bind_err.1 hit with hit | ⟨_, -, hit⟩
        · exact computeCentroids_ne_err hm (by rw [ha]; exact hne) hit
        · cases hit
      rcases Ret.bind_err.1 hit with hit | ⟨_, -, hit⟩
      · rw [updateNeighbours] at hit
        rcases Ret.bind_err.1 hit with hit | ⟨_, -, hit⟩
        · exact computeNeighbours_ne_err hs hit
        · cases hit
      · cases hit
    | ok r =>
      obtain ⟨cl', ch, k⟩ := r
      obtain ⟨cl1, h1, h2, -, -⟩ := iteration_parts hit
      obtain ⟨rfl, ha⟩ := hunch cl1 ch h1
      have hinv' := iteration_ok hs hinv hit
      have hasg' : cl'.assignment = splitPoints (points.length / n) (n - 1) points := by rw [h2, ha, hasg]
      refine ⟨cl', ?_, hasg'⟩
      rw [cluster, hi, Ret.bind_ok_eq, iterate, hit]
      simp only [Ret.bind_ok_eq, Bool.false_eq_true, if_false]
      rw [if_pos]
      rw [enoughActive_eq env.fl hinv', decide_eq_true_eq]
      refine Nat.le_trans hmin ?_
      unfold active
      rw [List.filter_eq_self.2, hinv'.assignment]
      · intro v hv
        rw [h2, ha] at hv
        have := hne v hv
        cases v with
        | nil => exact absurd rfl this
        | cons => rfl

theorem splitPoints_one (points : List T) (k : Nat) (h : points.length = k + 1) :
    splitPoints 1 k points = points.reverse.map fun p => [p] := by
  induction k generalizing points with
  | zero =>
    match points, h with
    | [p], _ => rfl
  | succ k ih =>
    rcases List.eq_nil_or_concat points with rfl | ⟨l, p, rfl⟩
    · cases h
    · rw [List.concat_eq_append, List.length_append, List.length_singleton] at h
      rw [List.concat_eq_append, splitPoints, List.length_append, List.length_singleton, Nat.add_sub_cancel,
        List.drop_left, List.take_left, ih l (by omega), List.reverse_append]
      rfl

theorem tagged_get {asg : List (List T)} {i : Nat} {e : Nat × T} (h : e ∈ tagged asg i) :
    ∃ ps, asg[e.1 - i]? = some ps ∧ e.2 ∈ ps := by
  induction asg generalizing i with
  | nil => cases h
  | cons a asg ih =>
    rw [tagged, List.mem_append] at h
    rcases h with h | h
    · obtain ⟨x, hx, rfl⟩ := List.mem_map.1 h
      exact ⟨a, by simp, hx⟩
    · obtain ⟨ps, h1, h2⟩ := ih h
      have := tagged_ge h
      refine ⟨ps, ?_, h2⟩
      rw [show e.1 - i = (e.1 - (i + 1)) + 1 by omega, List.getElem?_cons_succ]
      exact h1

/-- As many clusters as points: each point is a cluster. -/
theorem cluster_singletons {env : Env T} {P : T → Prop} {points : List T} (ht : Sound env.pt P points)
    (hs : IsSort env.sort) (hm : MeanOfSome env.pt) (hself : ∀ p ∈ points, env.pt.mean [p] = .ok p)
    (hzero : ∀ p ∈ points, env.pt.dist p p = some 0) (hnn : ∀ a b d, env.pt.dist a b = some d → 0 ≤ d)
    (hdiv : ∀ x, 0 ≤ x → 0 ≤ env.fl.div x 2) (hne : points ≠ []) (fuel : Nat) :
    ∃ cl, cluster env (fuel + 2) points points.length = .ok cl ∧
      cl.intoIter = points.reverse.map fun p => (p, [p]) := by
  have hpos : 0 < points.length := List.length_pos_iff.2 hne
  obtain ⟨cl, h1, h2⟩ := settles_at_once (fuel := fuel) (n := points.length) ht hs hm hpos (Nat.le_refl _)
    (Nat.min_le_left _ _) (by
      rw [Nat.div_self hpos, splitPoints_one points _ (by omega)]
      intro v hv
      obtain ⟨p, hp, rfl⟩ := List.mem_map.1 hv
      exact ht.one p (List.mem_reverse.1 hp)) (by
      intro cl hi e he g g1 j hg hch
      have hinv := init_ok hs hi
      rw [init] at hi
      obtain ⟨asg, h1, hi⟩ := Ret.bind_ok.1 hi
      obtain ⟨cs, h2, hi⟩ := Ret.bind_ok.1 hi
      obtain ⟨ns, h3, hi⟩ := Ret.bind_ok.1 hi
      cases hi
      dsimp only at he hg hch
      have hasg : asg = points.reverse.map fun p => [p] := by
        unfold initAssignment at h1
        rw [if_neg (by omega), Nat.div_self hpos, if_pos (by decide)] at h1
        cases h1
        exact splitPoints_one points _ (by omega)
      obtain ⟨ps, e1, e2⟩ := tagged_get he
      rw [Nat.sub_zero] at e1
      have hps : ps = [e.2] ∧ e.2 ∈ points := by
        have := List.mem_of_getElem? e1
        rw [hasg] at this
        obtain ⟨p, hp, rfl⟩ := List.mem_map.1 this
        rw [List.mem_singleton] at e2
        exact ⟨by rw [e2], by rw [e2]; exact List.mem_reverse.1 hp⟩
      have hlen : cs.length = asg.length := hinv.centroids.trans hinv.assignment.symm
      have hlt : e.1 < cs.length := by rw [hlen]; exact (List.getElem?_eq_some_iff.1 e1).1
      have hc := List.getElem?_eq_getElem hlt
      obtain ⟨ps', p', f1, f2, f3⟩ := initCentroids_get h2 e.1 _ hc
      rw [e1] at f1
      cases f1
      rw [hps.1] at f2
      have f2 : e.2 = p' := by simpa using f2
      subst f2
      rw [hself _ hps.2] at f3
      rw [← Ret.ok.inj f3] at hc
      unfold choose at hch
      rw [hc] at hch
      simp only [Ret.expect, Ret.bind_ok_eq, hzero _ hps.2] at hch
      rw [stays_zero hdiv] at hch
      · simp only [if_true] at hch
        exact (Prod.mk.inj (Ret.ok.inj hch)).1.symm
      · intro n hn
        have hgn : ∃ g', ns[e.1]? = some g' ∧ strip g' = strip g := by
          cases hx : ns[e.1]? with
          | none => rw [hx] at hg; cases hg
          | some g' => rw [hx] at hg; exact ⟨g', rfl, Option.some.inj hg⟩
        obtain ⟨g', x1, x2⟩ := hgn
        have hwf := (hinv.lists e.1 g' x1).1
        have hnb : g'.neighbours = g.neighbours := (Prod.mk.inj x2).2
        obtain ⟨c, t, -, -, hd⟩ := hwf.distances n (by rw [hnb]; exact hn)
        exact hnn _ _ _ hd)
  refine ⟨cl, h1, ?_⟩
  rw [Nat.div_self hpos, splitPoints_one points _ (by omega)] at h2
  have hlen := (C43_points hs h1).1
  obtain ⟨cl0, k0, k', hr, hit⟩ := cluster_ok h1
  have hinv := iteration_ok hs (reached_invariant hs hr) hit
  apply List.ext_getElem?
  intro i
  rw [Clusters.intoIter]
  by_cases hi : i < points.length
  · have hc : i < cl.centroids.length := by rw [hinv.centroids]; exact hi
    have ha : cl.assignment[i]? = some [points.reverse[i]'(by simpa using hi)] := by
      rw [h2, List.getElem?_map, List.getElem?_eq_getElem (by simpa using hi)]; rfl
    have hz : (cl.centroids.zip cl.assignment)[i]? = some (cl.centroids[i], [points.reverse[i]'(by simpa using hi)]) :=
      List.getElem?_zip_eq_some.2 ⟨List.getElem?_eq_getElem hc, ha⟩
    have hmean := (C44_centroids hs hm h1 _ _ (List.mem_of_getElem? hz)).1 (by simp)
    rw [hself _ (List.mem_reverse.1 (List.getElem_mem (l := points.reverse) _))] at hmean
    rw [hz, ← Ret.ok.inj hmean, List.getElem?_map, List.getElem?_eq_getElem (by simpa using hi)]
    rfl
  · rw [List.getElem?_eq_none, List.getElem?_eq_none]
    · simpa using hi
    · rw [List.length_zip, hinv.centroids, hinv.assignment]; omega

/-- One cluster: all points are in it. -/
theorem cluster_one {env : Env T} {P : T → Prop} {points : List T} (ht : Sound env.pt P points)
    (hs : IsSort env.sort) (hm : MeanOfSome env.pt) (hmin : minActive env.fl points.length 1 ≤ 1)
    (hne : points ≠ []) (hmean : env.pt.mean points ≠ .panic) (fuel : Nat) :
    ∃ cl c, cluster env (fuel + 2) points 1 = .ok cl ∧ cl.intoIter = [(c, points)] ∧ env.pt.mean points = .ok c := by
  have hpos : 0 < points.length := List.length_pos_iff.2 hne
  obtain ⟨cl, h1, h2⟩ := settles_at_once (fuel := fuel) (n := 1) ht hs hm (by omega) hpos hmin (by
      intro v hv
      rw [Nat.div_one] at hv
      have hv : v ∈ [points] := hv
      rw [List.mem_singleton.1 hv]
      exact hmean) (by
      intro cl hi e he g g1 j hg hch
      have hinv := init_ok hs hi
      have hj := choose_target hch
      have he1 := tagged_lt he
      rw [hinv.assignment] at he1
      rw [hinv.centroids] at hj
      omega)
  rw [Nat.div_one] at h2
  have h2 : cl.assignment = [points] := h2
  obtain ⟨cl0, k0, k', hr, hit⟩ := cluster_ok h1
  have hinv := iteration_ok hs (reached_invariant hs hr) hit
  have hcl := hinv.centroids
  match hcs : cl.centroids, hcl with
  | [c], _ =>
    have hit : cl.intoIter = [(c, points)] := by rw [Clusters.intoIter, hcs, h2]; rfl
    exact ⟨cl, c, h1, hit, (C44_centroids hs hm h1 c points (by rw [hit]; simp)).1 hne⟩

/-- One cluster, but its points have no mean. -/
theorem cluster_one_panics {env : Env T} {P : T → Prop} {points : List T} (ht : Sound env.pt P points)
    (hs : IsSort env.sort) (hne : points ≠ []) (hmean : env.pt.mean points = .panic) (fuel : Nat) :
    cluster env (fuel + 2) points 1 = .panic := by
  have hpos : 0 < points.length := List.length_pos_iff.2 hne
  cases hi : init env (fuel + 2) points 1 with
  | panic => rcases init_panic ht hs hi with h | h <;> omega
  | err e => exact absurd hi (init_ne_err hs)
  | ok cl =>
    have hinv := init_ok hs hi
    have hasg : cl.assignment = [points] := by
      rw [init] at hi
      obtain ⟨asg, h1, hi⟩ := Ret.bind_ok.1 hi
      obtain ⟨cs, -, hi⟩ := Ret.bind_ok.1 hi
      obtain ⟨ns, -, hi⟩ := Ret.bind_ok.1 hi
      cases hi
      unfold initAssignment at h1
      rw [if_neg (by omega), Nat.div_one, if_pos hpos] at h1
      cases h1; rfl
    have hunch : ∀ cl1 ch, assignPoints env cl = .ok (cl1, ch) → cl1.assignment = [points] := by
      intro cl1 ch h1
      have hch : ch = false := by
        obtain ⟨-, -, -, -, -, moves, m1, -, -, m4, m5⟩ := assignPoints_ok h1
        rw [m4, List.any_eq_false]
        intro m hmem
        obtain ⟨g, g1, e1, e2⟩ := m5 m hmem
        have hj := choose_target e2
        have he1 := tagged_lt (show (m.source, m.point) ∈ tagged cl.assignment by
          rw [← m1]; exact List.mem_map_of_mem hmem)
        rw [hinv.assignment] at he1
        rw [hinv.centroids] at hj
        have : m.source = m.target := by dsimp only at he1; omega
        simpa using this
      subst hch
      rw [assignPoints_unchanged h1, hasg]
    rw [cluster, hi, Ret.bind_ok_eq, iterate]
    have hit : iteration env (fuel + 2) cl 0 = .panic := by
      cases h1 : assignPoints env cl with
      | err e => exact absurd h1 assignPoints_ne_err
      | panic => rw [iteration, h1]; rfl
      | ok r =>
        obtain ⟨cl1, ch⟩ := r
        have ha := hunch cl1 ch h1
        rw [iteration, h1, Ret.bind_ok_eq]
        dsimp only
        rw [updateCentroids, ha, computeCentroids, hmean]
        rfl
    rw [hit]
    rfl

end Kmeans
end Cniic
