import Verif.Proofs.Kmeans

/-!
# Properties of clustering (C43-C46, C49, C58-C60)

The point type, its distance and mean, the random numbers, the sorting function and the lower bound for the
length of neighbour lists are arbitrary (`Env`).  "Clustering returns" is `cluster … = .ok …` for some amount
of fuel; no statement is limited to a particular amount.
-/

namespace Cniic
open Kmeans Spec.Kmeans

variable {T : Type} {env : Env T} {fuel n : Nat} {points : List T} {cl cl' : Clusters T}

/-- **C43.** Whenever clustering returns, there are exactly `n` clusters, and their points together are the
input points, none lost or duplicated. -/
theorem C43_points (hs : IsSort env.sort) (h : cluster env fuel points n = .ok cl) :
    cl.intoIter.length = n ∧ (cl.intoIter.map (·.2)).flatten.Perm points := by
  obtain ⟨cl0, k0, k', hr, hit⟩ := cluster_ok h
  have hi := iteration_ok hs (reached_invariant hs hr) hit
  have h1 := hi.centroids
  have h2 := hi.assignment
  have : cl.intoIter.map (·.2) = cl.assignment := by
    rw [Clusters.intoIter, List.map_snd_zip]
    omega
  refine ⟨?_, by rw [this]; exact hi.points⟩
  rw [Clusters.intoIter, List.length_zip]
  omega

/-- **C44.** Whenever clustering returns, the centroid of each cluster with points is their mean; the centroid
of a cluster without points is (the copy made of) one of the input points. -/
theorem C44_centroids (hs : IsSort env.sort) (hm : MeanOfSome env.pt)
    (h : cluster env fuel points n = .ok cl) (c : T) (ps : List T) (hc : (c, ps) ∈ cl.intoIter) :
    (ps ≠ [] → env.pt.mean ps = .ok c) ∧ (ps = [] → ∃ p ∈ points, env.pt.mean [p] = .ok c) := by
  obtain ⟨cl0, k0, k', hr, hit⟩ := cluster_ok h
  have hi := iteration_ok hs (reached_invariant hs hr) hit
  obtain ⟨cl1, h1, h2, h3, h4⟩ := iteration_parts hit
  obtain ⟨-, hcc⟩ := computeCentroids_ok h3
  obtain ⟨i, hget⟩ := List.mem_iff_getElem?.1 hc
  rw [Clusters.intoIter, List.getElem?_zip_eq_some] at hget
  have := hcc i c ps hget.1 (h2 ▸ hget.2)
  rcases this with h | ⟨h, p, hp, hpc⟩
  · refine ⟨fun _ => h, fun he => ?_⟩
    have := (hm ps).2 he
    rw [h] at this; cases this
  · have he := (hm ps).1 h
    refine ⟨fun hne => absurd he hne, fun _ => ⟨p, ?_, hpc⟩⟩
    exact hi.points.mem_iff.1 (h2 ▸ hp)

private theorem nodup_lt_length {l : List Nat} {n : Nat} (hd : l.Nodup) (h : ∀ a ∈ l, a < n) : l.length ≤ n := by
  induction n generalizing l with
  | zero =>
    cases l with
    | nil => simp
    | cons a l => exact absurd (h a (by simp)) (by omega)
  | succ n ih =>
    have := ih (l := l.erase n) (hd.erase n) (by
      intro a ha
      have h1 := h a (List.mem_of_mem_erase ha)
      have h2 : a ≠ n := by
        rintro rfl
        exact (List.Nodup.not_mem_erase hd) ha
      omega)
    have := List.length_erase (a := n) (l := l)
    split at this <;> omega

/-- A list with `n - 1` entries lists all other centroids. -/
private theorem full_list {g : Neigh} {i : Nat} (hg : Shape n i g) (hi : i < n)
    (hl : g.neighbours.length = n - 1) (t : Nat) (ht : t < n) : t = i ∨ t ∈ g.neighbours.map (·.1) := by
  by_cases h1 : t = i
  · exact Or.inl h1
  · by_cases h2 : t ∈ g.neighbours.map (·.1)
    · exact Or.inr h2
    · exfalso
      have hni : i ∉ g.neighbours.map (·.1) := by
        intro h
        obtain ⟨e, he, rfl⟩ := List.mem_map.1 h
        exact (hg.others e he).1 rfl
      have := nodup_lt_length (l := t :: i :: g.neighbours.map (·.1)) (n := n)
        (by
          rw [List.nodup_cons, List.nodup_cons]
          refine ⟨?_, hni, hg.distinct⟩
          rw [List.mem_cons]
          rintro (h | h)
          · exact h1 h
          · exact h2 h)
        (by
          intro a ha
          rcases List.mem_cons.1 ha with rfl | ha
          · exact ht
          · rcases List.mem_cons.1 ha with rfl | ha
            · exact hi
            · obtain ⟨e, he, rfl⟩ := List.mem_map.1 ha
              exact (hg.others e he).2)
      simp only [List.length_cons, List.length_map] at this
      omega

/-- **C45.** In every step of every run, each point goes to the nearest centroid among its current one and
those in the neighbour list of the current one.  `D` is any measure that justifies the shortcuts for the points
and centroids that may occur. -/
theorem C45_assign {P : T → Prop} {D : T → T → Rat} (hp : Prunable env P D) (hcl : Closed env.pt P points)
    (hs : IsSort env.sort) (hr : Reached env fuel points n cl) {changed : Bool} (h : assignPoints env cl = .ok (cl', changed)) :
    ∃ moves : List (Move T),
      moves.map (fun m => (m.source, m.point)) = tagged cl.assignment ∧
      (∀ j ps, cl'.assignment[j]? = some ps → ps = arrivals moves j) ∧
      (changed = true ↔ ∃ m ∈ moves, m.source ≠ m.target) ∧
      ∀ m ∈ moves, ∃ g, cl.neighbours[m.source]? = some g ∧ m.target < n ∧
        Nearest D cl.centroids (fun t => t = m.source ∨ t ∈ g.neighbours.map (·.1)) m.point m.target := by
  have hi := reached_invariant hs hr
  obtain ⟨a1, a2, a3, a4, a5, moves, m1, m2, m3, m4, m5⟩ := assignPoints_ok h
  refine ⟨moves, m1, ?_, ?_, ?_⟩
  · intro j ps hj
    have hlt := (List.getElem?_eq_some_iff.1 hj).1
    rw [m3 j (by omega)] at hj
    cases hj; rfl
  · rw [m4]; simp
  · intro m hm
    obtain ⟨g, g1, e1, e2⟩ := m5 m hm
    cases hg : cl.neighbours[m.source]? with
    | none => rw [hg] at e1; cases e1
    | some g0 =>
      rw [hg] at e1
      simp only [Option.map_some, Option.some.injEq] at e1
      have hwf := (hi.lists _ _ hg).1
      refine ⟨g0, rfl, hi.assignment ▸ m2 m hm, ?_⟩
      have hx : m.point ∈ cl.assignment.flatten := by
        rw [← tagged_points cl.assignment 0, ← m1]
        exact List.mem_map.2 ⟨_, List.mem_map_of_mem hm, rfl⟩
      have := (choose_ok hp (reached_closed hs hcl hr) (hcl.inputs _ (hi.points.mem_iff.1 hx)) (hwf.strip e1.symm) e2).2
      have he : g.neighbours = g0.neighbours := (Prod.mk.inj e1).2.symm
      rw [he] at this
      exact this

/-- **C45**, lists of all other centroids: no centroid at all is nearer. -/
theorem C45_full {P : T → Prop} {D : T → T → Rat} (hp : Prunable env P D) (hcl : Closed env.pt P points)
    (hs : IsSort env.sort) (hr : Reached env fuel points n cl) {changed : Bool} (h : assignPoints env cl = .ok (cl', changed))
    (hfull : ∀ g ∈ cl.neighbours, g.neighbours.length = n - 1) (j : Nat) (x : T) (ps : List T)
    (hj : cl'.assignment[j]? = some ps) (hx : x ∈ ps) : Nearest D cl.centroids (fun _ => True) x j := by
  have hi := reached_invariant hs hr
  obtain ⟨moves, -, m3, -, m5⟩ := C45_assign hp hcl hs hr h
  rw [m3 j ps hj, arrivals] at hx
  obtain ⟨m, hm, rfl⟩ := List.mem_map.1 hx
  obtain ⟨hm, ht⟩ := List.mem_filter.1 hm
  have ht : m.target = j := by simpa using ht
  obtain ⟨g, hg, -, c, hc, hn⟩ := m5 m hm
  rw [ht] at hc
  refine ⟨c, hc, fun t c' _ hc' => hn t c' ?_ hc'⟩
  have hsh := (hi.lists _ _ hg).1.toShape
  have hlt := (List.getElem?_eq_some_iff.1 hg).1
  have htl := (List.getElem?_eq_some_iff.1 hc').1
  have h1 := hi.neighbours
  have h2 := hi.centroids
  rw [h2] at hsh
  exact full_list hsh (by omega) (hfull g (List.mem_of_getElem? hg)) t (by omega)

/-- **C45**, exact metrics: if distances are exact, symmetric and satisfy the triangle inequality, and
doubling and halving are exact, the shortcuts are justified with the distance itself as the measure. -/
theorem C45_metric (env : Env T) (D : T → T → Rat) (hd : ∀ a b d, env.pt.dist a b = some d → d = D a b)
    (hsym : ∀ a b, D a b = D b a) (htri : ∀ a b c, D a c ≤ D a b + D b c)
    (hmul : ∀ x, env.fl.mul 2 x = 2 * x) (hdiv : ∀ x, env.fl.div x 2 = x / 2) :
    Prunable env (fun _ => True) D where
  mono c t x dc dt _ _ _ h1 h2 h := by rw [← hd _ _ _ h1, ← hd _ _ _ h2]; exact h
  far c t x dc ct _ _ _ h1 h2 h := by
    rw [hmul, hd _ _ _ h1, hd _ _ _ h2] at h
    have := htri c x t
    rw [hsym x t] at this
    grind
  near c t t0 x dc ct r _ _ _ _ h1 h2 _ hr h := by
    rw [hdiv, hd _ _ _ h1] at h
    rw [hd _ _ _ h2] at hr
    have := htri c x t
    rw [hsym x t] at this
    grind

/-- **C46.** Recomputing the neighbours of a centroid takes at most two rounds, whatever the list, the
watermark and the centroids: more rounds change nothing and two are always enough. -/
theorem C46_rounds (env : Env T) (hs : IsSort env.sort) (cs : List T) (more : Nat) (g : Neigh) :
    computeOne env cs (2 + more) g = computeOne env cs 2 g ∧ computeOne env cs 2 g ≠ .err () := by
  rw [Nat.add_comm]
  exact ⟨(computeOne_two env hs cs more g).1, (computeOne_two env hs cs 0 g).2⟩

/-- **C46**, the lists: at every point of every run each list belongs to its centroid and holds distinct other
centroids sorted by distance, with the current distances; there are at most `n - 1`, and at least as many as
the lower bound says, or all. -/
theorem C46_lists (hs : IsSort env.sort) (hr : Reached env fuel points n cl) (i : Nat) (g : Neigh)
    (hg : cl.neighbours[i]? = some g) :
    WellFormed env.pt cl.centroids i g ∧ g.neighbours.length ≤ n - 1 ∧
      min (env.lower n) (n - 1) ≤ g.neighbours.length := by
  have hi := reached_invariant hs hr
  obtain ⟨h1, h2⟩ := hi.lists i g hg
  refine ⟨h1, ?_, h2⟩
  have hlt := (List.getElem?_eq_some_iff.1 hg).1
  have h3 := hi.neighbours
  have h4 := hi.centroids
  have hni : i ∉ g.neighbours.map (·.1) := by
    intro h
    obtain ⟨e, he, rfl⟩ := List.mem_map.1 h
    exact (h1.others e he).1 rfl
  have := nodup_lt_length (l := i :: g.neighbours.map (·.1)) (n := n)
    (List.nodup_cons.2 ⟨hni, h1.distinct⟩)
    (by
      intro a ha
      rcases List.mem_cons.1 ha with rfl | ha
      · omega
      · obtain ⟨e, he, rfl⟩ := List.mem_map.1 ha
        have := (h1.others e he).2
        omega)
  simp only [List.length_cons, List.length_map] at this
  omega

/-- **C46**, growing: a round that wants more than 4/3 of the present entries starts again from all other
centroids, so no list is ever stuck below what the watermark asks for. -/
theorem C46_grows (lower : Nat → Nat) (n : Nat) (g : Neigh) :
    (g.resize lower n).2 = false ↔ g.neighbours.length < min (max (2 * g.watermark) (lower n)) (n - 1) * 3 / 4 := by
  unfold Neigh.resize
  dsimp only
  split
  · simp; omega
  · simp; omega

/-- **C49.** Clustering into no clusters, or into more clusters than there are points, panics. -/
theorem C49_panics (env : Env T) (fuel : Nat) (points : List T) (n : Nat) (h : n = 0 ∨ points.length < n) :
    cluster env fuel points n = .panic := by
  rw [cluster, init, initAssignment_panic.2 h]
  rfl

/-- **C49**, the converse: otherwise the first assignment exists. -/
theorem C49_accepts (points : List T) (n : Nat) (h0 : n ≠ 0) (h : n ≤ points.length) :
    ∃ asg, initAssignment points n = .ok asg := by
  cases ha : initAssignment points n with
  | ok asg => exact ⟨asg, rfl⟩
  | panic =>
    rcases initAssignment_panic.1 ha with h | h <;> omega
  | err e =>
    exfalso
    unfold initAssignment at ha
    split at ha
    · cases ha
    · split at ha <;> cases ha

/-- **C58.** Whenever clustering returns, either it returned after its first iteration, or every point is in a
cluster whose returned centroid is at least as near as those of the other non-empty clusters listed for it; the list
has at least as many entries as the lower bound says, or all. -/
theorem C58_fixpoint {P : T → Prop} {D : T → T → Rat} (hp : Prunable env P D) (hcl : Closed env.pt P points)
    (hs : IsSort env.sort) (hm : MeanOfSome env.pt)
    (h : cluster env fuel points n = .ok cl) :
    (∃ cl0 k, init env fuel points n = .ok cl0 ∧ iteration env fuel cl0 0 = .ok (cl, false, k)) ∨
    ∀ (i : Nat) ps x, cl.assignment[i]? = some ps → x ∈ ps →
      ∃ listed : List Nat, listed.Nodup ∧ min (env.lower n) (n - 1) ≤ listed.length ∧
        (∀ t ∈ listed, t ≠ i ∧ t < n) ∧
        Nearest D cl.centroids (fun t => t = i ∨ (t ∈ listed ∧ cl.assignment[t]? ≠ some [])) x i := by
  obtain ⟨cl0, hcl0, cl1, k0, k', hr, hit, hfirst⟩ := last_iteration h
  rcases hfirst with ⟨rfl, rfl⟩ | ⟨clp, chp, kp, hrp, hitp⟩
  · exact Or.inl ⟨cl1, k', hcl0, hit⟩
  · refine Or.inr ?_
    intro i ps x hps hx
    have hi := reached_invariant hs hr
    obtain ⟨cl2, h1, h2, h3, h4⟩ := iteration_parts hit
    have hasg := assignPoints_unchanged h1
    obtain ⟨clq, q1, q2, q3, q4⟩ := iteration_parts hitp
    obtain ⟨hlc, hcc⟩ := computeCentroids_ok h3
    obtain ⟨hlq, hcq⟩ := computeCentroids_ok q3
    have e1 : cl.assignment = cl1.assignment := h2.trans hasg
    have same : ∀ (t : Nat) c, cl.assignment[t]? ≠ some [] → cl.centroids[t]? = some c →
        cl1.centroids[t]? = some c := by
      intro t c hne hc
      have hlt := (List.getElem?_eq_some_iff.1 hc).1
      have hla := hi.assignment
      have hlc1 := hi.centroids
      have hlt' : t < cl1.assignment.length := by rw [← e1, h2]; omega
      have ht := List.getElem?_eq_getElem hlt'
      have htc := List.getElem?_eq_getElem (show t < cl1.centroids.length by omega)
      generalize cl1.assignment[t] = qs at ht
      generalize cl1.centroids[t] = c1 at htc
      have r1 := hcc t c qs hc (by rw [hasg]; exact ht)
      have r2 := hcq t c1 qs htc (by rw [← q2]; exact ht)
      have hqs : qs ≠ [] := by
        rintro rfl
        exact hne (e1 ▸ ht)
      have hno : env.pt.mean qs ≠ .err () := fun h => hqs ((hm qs).1 h)
      rcases r1 with r1 | ⟨r1, -⟩
      · rcases r2 with r2 | ⟨r2, -⟩
        · rw [r1] at r2; cases r2; exact htc
        · exact absurd r2 hno
      · exact absurd r1 hno
    obtain ⟨moves, m1, m3, m4, m5⟩ := C45_assign hp hcl hs hr h1
    have hps' : cl2.assignment[i]? = some ps := h2 ▸ hps
    have hx0 := List.ne_nil_of_mem hx
    rw [m3 i ps hps', arrivals] at hx
    obtain ⟨m, hmm, rfl⟩ := List.mem_map.1 hx
    obtain ⟨hmm, ht⟩ := List.mem_filter.1 hmm
    have ht : m.target = i := by simpa using ht
    have hst : m.source = m.target := by
      apply Decidable.byContradiction
      intro hne
      have := m4.2 ⟨m, hmm, hne⟩
      cases this
    obtain ⟨g, hg, hmt, c, hc, hn⟩ := m5 m hmm
    rw [hst, ht] at hg hn
    rw [ht] at hc
    have hwf := hi.lists i g hg
    have hlen := hi.centroids
    refine ⟨g.neighbours.map (·.1), hwf.1.distinct, by simpa using hwf.2, ?_, ?_⟩
    · intro t htm
      obtain ⟨e, he, rfl⟩ := List.mem_map.1 htm
      have := hwf.1.others e he
      exact ⟨this.1, by omega⟩
    · have hne : cl.assignment[i]? ≠ some [] := by
        rw [hps]
        rintro h
        cases h
        exact hx0 rfl
      have hli : i < cl.centroids.length := by
        have := (List.getElem?_eq_some_iff.1 hps).1
        rw [hlc, ← h2]
        exact this
      have hci := same i _ hne (List.getElem?_eq_getElem hli)
      rw [hc] at hci
      refine ⟨c, by rw [List.getElem?_eq_getElem hli, hci], ?_⟩
      intro t c' hcons hc'
      rcases hcons with rfl | ⟨htl, htn⟩
      · exact hn t c' (Or.inl rfl) (same t c' hne hc')
      · exact hn t c' (Or.inr htl) (same t c' htn hc')

/-- **C59.** If distances and means do not panic for the points that may occur, clustering panics only for the reasons of `C49` or because of
the check for enough active clusters at the end. -/
theorem C59_panics {P : T → Prop} (ht : Total env.pt P points) (hs : IsSort env.sort) (h : cluster env fuel points n = .panic) :
    n = 0 ∨ points.length < n ∨
      ∃ cl k0 k1 cl', Reached env fuel points n cl ∧ iteration env fuel cl k0 = .ok (cl', false, k1) ∧
        active cl' < minActive env.fl points.length n := by
  rcases cluster_panic ht.toSound hs h with h | h | ⟨cl0, h1, cl', h2, h3⟩ | ⟨v, hv, hm⟩
  · exact Or.inl h
  · exact Or.inr (Or.inl h)
  rotate_left
  · exact absurd hm (ht.mean v hv)
  · obtain ⟨cl, k0, k1, hr, hit⟩ := iterate_ok (.start h1) h2
    refine Or.inr (Or.inr ⟨cl, k0, k1, cl', hr, hit, ?_⟩)
    have := enoughActive_eq env.fl (iteration_ok hs (reached_invariant hs hr) hit)
    rw [h3] at this
    simpa using this

/-- **C59**, the check: whenever clustering returns, nearly as many clusters as requested have points. -/
theorem C59_active (hs : IsSort env.sort) (h : cluster env fuel points n = .ok cl) :
    minActive env.fl points.length n ≤ active cl := by
  unfold cluster at h
  obtain ⟨cl0, h1, h⟩ := Ret.bind_ok.1 h
  obtain ⟨cl1, h2, h⟩ := Ret.bind_ok.1 h
  obtain ⟨clp, k0, k1, hr, hit⟩ := iterate_ok (.start h1) h2
  have := enoughActive_eq env.fl (iteration_ok hs (reached_invariant hs hr) hit)
  split at h
  · rename_i he
    cases h
    rw [he] at this
    simpa using this.symm
  · cases h

/-- **C60.** After an assignment step the watermark of a cluster, which decides the size of its neighbour list,
is the number of neighbours looked at for the last of its points that looked at any; earlier points do not matter,
however far they looked. -/
theorem C60_watermark (hs : IsSort env.sort) (hr : Reached env fuel points n cl) {changed : Bool}
    (h : assignPoints env cl = .ok (cl', changed)) (i : Nat) (hi : i < n) :
    ∃ g c ps g', cl.neighbours[i]? = some g ∧ cl.centroids[i]? = some c ∧ cl.assignment[i]? = some ps ∧
      cl'.neighbours[i]? = some g' ∧ g'.neighbours = g.neighbours ∧
      g'.watermark = (looks env c g ps).getLast?.getD g.watermark := by
  have hinv := reached_invariant hs hr
  have hg := List.getElem?_eq_getElem (show i < cl.neighbours.length by have := hinv.neighbours; omega)
  have hc := List.getElem?_eq_getElem (show i < cl.centroids.length by have := hinv.centroids; omega)
  have hp := List.getElem?_eq_getElem (show i < cl.assignment.length by have := hinv.assignment; omega)
  obtain ⟨g', h1, h2⟩ := assignPoints_watermark h hg hc hp
  refine ⟨_, _, _, g', hg, hc, hp, h1, ?_, h2⟩
  obtain ⟨-, -, -, hst, -⟩ := assignPoints_ok h
  obtain ⟨g0, e1, e2⟩ := getElem?_of_strip hst h1
  rw [hg] at e1
  cases e1
  exact (Prod.mk.inj e2).2

/-! ## Concrete cases

Whole numbers on a line, with exact distances and rounded-down means. -/

namespace KmeansExamples

def linePt : PointOps Int where
  dist a b := some (if a ≤ b then ((b - a : Int) : Rat) else ((a - b : Int) : Rat))
  mean l := if l.length = 0 then .err () else .ok (l.sum / l.length)

def lineEnv : Env Int where
  pt := linePt
  fl := { rnd := id, sqrt := id, powi2 := fun x => x * x }
  sort := sortByDist
  lower n := (List.range n).countP fun k => (k + 1) * (k + 1) ≤ n
  rand k := 7 * k + 3

theorem line_sort : IsSort lineEnv.sort := sortByDist_isSort

theorem line_mean : MeanOfSome lineEnv.pt := by
  intro l
  show (if l.length = 0 then Ret.err () else Ret.ok (l.sum / l.length)) = .err () ↔ l = []
  cases l with
  | nil => simp
  | cons a l => simp

theorem line_total (points : List Int) : Total lineEnv.pt (fun _ => True) points where
  inputs _ _ := trivial
  means _ _ _ _ := trivial
  dist a b _ _ := by simp [lineEnv, linePt]
  one a _ := by simp [lineEnv, linePt]
  mean l _ := by
    show (if l.length = 0 then Ret.err () else Ret.ok (l.sum / l.length)) ≠ .panic
    split <;> simp
  single a := by simp [lineEnv, linePt]

theorem line_prunable : Prunable lineEnv (fun _ => True) fun a b => if a ≤ b then ((b - a : Int) : Rat) else ((a - b : Int) : Rat) := by
  refine C45_metric lineEnv _ ?_ ?_ ?_ ?_ ?_
  · intro a b d h
    simpa [lineEnv, linePt] using h.symm
  · intro a b
    by_cases h1 : a ≤ b <;> by_cases h2 : b ≤ a
    · have : a = b := by omega
      subst this; rfl
    · simp [h1, h2]
    · simp [h1, h2]
    · omega
  · intro a b c
    have cast : ∀ x y z : Int, x ≤ y + z → (x : Rat) ≤ (y : Rat) + (z : Rat) := by
      intro x y z h
      rw [← Rat.intCast_add]
      exact Rat.intCast_le_intCast.2 h
    split <;> split <;> split <;> (apply cast; omega)
  · intro x; rfl
  · intro x; rfl

/-- A run of three iterations with two clusters. -/
theorem run_two : cluster lineEnv 5 [1, 10, 11, 2, 3, 12] 2 =
    .ok { centroids := [11, 2], assignment := [[12, 10, 11], [2, 3, 1]],
          neighbours := [⟨0, [(1, 9)], 0⟩, ⟨1, [(0, 9)], 0⟩] } := by decide +kernel


def idEnv : Env Int := { lineEnv with rand := fun k => k }

/-- A run in which a cluster ends up empty. -/
theorem run_empty : cluster idEnv 9 [10, 10, 0, 1, 10, 3, 13, 1] 3 =
    .ok { centroids := [10, 1, 1], assignment := [[13, 10, 10, 10], [], [3, 1, 0, 1]],
          neighbours := [⟨0, [(1, 9)], 0⟩, ⟨1, [(2, 0)], 0⟩, ⟨2, [(1, 0)], 0⟩] } := by decide +kernel

/-- C43, C44: the points of a run, with a non-empty and an empty cluster. -/
example : ∃ cl, cluster idEnv 9 [10, 10, 0, 1, 10, 3, 13, 1] 3 = .ok cl ∧ cl.intoIter.length = 3 ∧
    (10, [13, 10, 10, 10]) ∈ cl.intoIter ∧ linePt.mean [13, 10, 10, 10] = .ok 10 ∧ (1, []) ∈ cl.intoIter :=
  ⟨_, run_empty, by decide, by decide, by decide, by decide⟩

/-- C45, C46: the state before the loop of a run with three clusters, and a step that moves points. -/
example : ∃ cl cl', Reached lineEnv 2 [1, 10, 11, 2, 3, 12, 30] 3 cl ∧
    assignPoints lineEnv cl = .ok (cl', true) ∧ (∀ g ∈ cl.neighbours, g.neighbours.length = 3 - 1) ∧
    cl.neighbours[1]? = some ⟨1, [(2, 1), (0, 10)], 0⟩ ∧
    cl.assignment = [[12, 30], [2, 3], [1, 10, 11]] ∧ cl'.assignment = [[12, 30, 10, 11], [2, 3], [1]] := by
  refine ⟨{ centroids := [12, 2, 1], assignment := [[12, 30], [2, 3], [1, 10, 11]],
            neighbours := [⟨0, [(1, 10), (2, 11)], 0⟩, ⟨1, [(2, 1), (0, 10)], 0⟩, ⟨2, [(1, 1), (0, 11)], 0⟩] },
          { centroids := [12, 2, 1], assignment := [[12, 30, 10, 11], [2, 3], [1]],
            neighbours := [⟨0, [(1, 10), (2, 11)], 2⟩, ⟨1, [(2, 1), (0, 10)], 1⟩, ⟨2, [(1, 1), (0, 11)], 2⟩] },
    .start (by decide +kernel), by decide +kernel, by decide, by decide, rfl, rfl⟩

/-- C46: a list that is too short for its watermark is replaced, and two rounds are needed. -/
example : computeOne lineEnv [0, 5, 7, 20, 26] 1 ⟨1, [(2, 2)], 1⟩ = .ok ⟨1, [(2, 2)], 0⟩ ∧
    computeOne lineEnv [0, 5, 7, 20, 26] 1 ⟨1, [(2, 2)], 2⟩ = .err () ∧
    computeOne lineEnv [0, 5, 7, 20, 26] 2 ⟨1, [(2, 2)], 2⟩ =
      .ok ⟨1, [(2, 2), (0, 5), (3, 15), (4, 21)], 0⟩ := by decide +kernel

/-- C60: of the points of the third cluster the second one looks at two neighbours and the last one at one;
one remains. -/
example : ∃ cl cl', Reached lineEnv 5 [0, 9, 6, 15, 15, 15, 10, 10, 10] 3 cl ∧
    assignPoints lineEnv cl = .ok (cl', true) ∧ cl.centroids[2]? = some 0 ∧ cl.assignment[2]? = some [0, 9, 6] ∧
    cl.neighbours[2]? = some ⟨2, [(0, 10), (1, 15)], 0⟩ ∧
    looks lineEnv 0 ⟨2, [(0, 10), (1, 15)], 0⟩ [0, 9, 6] = [2, 1] ∧
    cl'.neighbours[2]? = some ⟨2, [(0, 10), (1, 15)], 1⟩ := by
  refine ⟨{ centroids := [10, 15, 0], assignment := [[10, 10, 10], [15, 15, 15], [0, 9, 6]],
            neighbours := [⟨0, [(1, 5), (2, 10)], 0⟩, ⟨1, [(0, 5), (2, 15)], 0⟩, ⟨2, [(0, 10), (1, 15)], 0⟩] },
          { centroids := [10, 15, 0], assignment := [[10, 10, 10, 9, 6], [15, 15, 15], [0]],
            neighbours := [⟨0, [(1, 5), (2, 10)], 0⟩, ⟨1, [(0, 5), (2, 15)], 0⟩, ⟨2, [(0, 10), (1, 15)], 1⟩] },
    .start (by decide +kernel), by decide +kernel, rfl, rfl, rfl, by decide +kernel, rfl⟩

/-- C59: a run that ends with just enough active clusters. -/
example : minActive lineEnv.fl 8 3 = 2 ∧ ∃ cl, cluster idEnv 9 [10, 10, 0, 1, 10, 3, 13, 1] 3 = .ok cl ∧ active cl = 2 :=
  ⟨by decide +kernel, _, run_empty, by decide⟩

/-- C49 -/
example : cluster lineEnv 9 [1, 2] 0 = .panic ∧ cluster lineEnv 9 [1, 2] 3 = .panic :=
  ⟨C49_panics _ _ _ _ (Or.inl rfl), C49_panics _ _ _ _ (Or.inr (by decide))⟩

/-- C58: the run above takes three iterations, so the second case applies. -/
example : ∃ cl, cluster lineEnv 5 [1, 10, 11, 2, 3, 12] 2 = .ok cl ∧
    ∃ cl0, init lineEnv 5 [1, 10, 11, 2, 3, 12] 2 = .ok cl0 ∧
      ∃ cl1 k, iteration lineEnv 5 cl0 0 = .ok (cl1, true, k) :=
  ⟨_, run_two,
    { centroids := [2, 1], assignment := [[2, 3, 12], [1, 10, 11]],
      neighbours := [⟨0, [(1, 1)], 0⟩, ⟨1, [(0, 1)], 0⟩] }, by decide +kernel,
    { centroids := [7, 1], assignment := [[2, 3, 12, 10, 11], [1]],
      neighbours := [⟨0, [(1, 6)], 0⟩, ⟨1, [(0, 6)], 0⟩] }, 0, by decide +kernel⟩

end KmeansExamples

open KmeansExamples in
/-- **C58**, why the first iteration is special: the returned assignment need not fit the returned centroids.
The point 10 is in the cluster with the centroid 32, although the centroid 3 is nearer. -/
theorem C58_refuted : ∃ cl, cluster lineEnv 5 [10, 40, 40, 40, 0, 4, 4, 4] 2 = .ok cl ∧
    cl.intoIter = [(3, [0, 4, 4, 4]), (32, [10, 40, 40, 40])] ∧
    lineEnv.pt.dist 3 10 = some 7 ∧ lineEnv.pt.dist 32 10 = some 22 :=
  ⟨{ centroids := [3, 32], assignment := [[0, 4, 4, 4], [10, 40, 40, 40]],
     neighbours := [⟨0, [(1, 29)], 0⟩, ⟨1, [(0, 29)], 0⟩] }, by decide +kernel, by decide, by decide +kernel,
    by decide +kernel⟩

end Cniic
