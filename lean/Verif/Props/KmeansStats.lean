import Verif.Proofs.KmeansStats
import Verif.Props.Kmeans
import Verif.Props.Shortcut

/-!
# What a pass of the clustering prints (C99)

`assign_points` counts along and prints (kmeans.rs:401-413).  The counting does not change the result; the numbers printed are
those of the specification; and none of the operations on them can fail.
-/

namespace Cniic
open Spec Kmeans Spec.Kmeans

section
variable {T : Type} {env : Env T} {points : List T} {fuel n : Nat}

/-- **C99**, the result: the function with its counters does what `assignPoints` does, from any state.  It returns, panics or
goes on just when that one does: no unwrapping, subtraction, division or index of the counting fails where the rest does not. -/
theorem C99_result (env : Env T) (cl : Clusters T) : (assignPointsStats env cl >>= fun r => .ok r.1) = assignPoints env cl :=
  assignPointsStats_fst cl

/-- **C99**, the numbers, from any state: *moved* and *stayed* are the numbers of points whose cluster is another one and the
same; *certainty radius* and *neighbour cutoff* the numbers of points within the radius and with a neighbour beyond the cutoff,
*stopped early* their sum; the *global max* is the largest number of neighbours looked at for one point and the *min of max* the
least, over the clusters, of the largest such number; the *average* is the mean, rounded down, over the points not within the
radius, and not printed if there are none. -/
theorem C99_numbers {cl cl' : Clusters T} {ch : Bool} {r : Report} (h : assignPointsStats env cl = .ok ((cl', ch), r)) :
    ∃ moves : List (Move T), moves.map (fun m => (m.source, m.point)) = tagged cl.assignment ∧
      (∀ j, j < cl.assignment.length → cl'.assignment[j]? = some (arrivals moves j)) ∧
      r.moved = moves.countP (fun m => m.source != m.target) ∧
      r.stayed = moves.countP (fun m => m.source == m.target) ∧
      r.radius = (tagged cl.assignment).countP (fun p => (look env cl.centroids cl.neighbours p).isNone) ∧
      r.cutoff = (tagged cl.assignment).countP (fun p => (look env cl.centroids cl.neighbours p).any Prod.snd) ∧
      r.stoppedEarly = r.radius + r.cutoff ∧
      r.globalMax = largest (tests env cl.centroids cl.neighbours (tagged cl.assignment)) ∧
      ((∃ i, i < cl.assignment.length ∧
          r.minMax = largest (tests env cl.centroids cl.neighbours (ofCluster cl.assignment i))) ∧
        ∀ i, i < cl.assignment.length →
          r.minMax ≤ largest (tests env cl.centroids cl.neighbours (ofCluster cl.assignment i))) ∧
      r.average = let ts := tests env cl.centroids cl.neighbours (tagged cl.assignment)
        if ts.length = 0 then none else some (ts.sum / ts.length) := by
  rw [assignPointsStats] at h
  split at h
  · rename_i hlen
    obtain ⟨⟨⟨asg', ns', ch'⟩, s⟩, hl, h⟩ := Ret.bind_ok.1 h
    obtain ⟨r', hr, h⟩ := Ret.bind_ok.1 h
    cases h
    have hr := Ret.expect_ok.1 hr
    obtain ⟨moves, m1, m3, m4, m5, m6, m7, m8, m9, m10, m11⟩ := stats_ok hl
    have hle := obvious_le (P := fun p => (look env cl.centroids cl.neighbours p).isNone) m1
      (fun m hm h => m5 m hm (by simpa using h))
    have hn : 0 < cl.assignment.length := by
      refine Nat.pos_of_ne_zero fun h0 => ?_
      rw [h0] at m11
      rw [Stats.report, m11] at hr
      cases hr
    obtain ⟨r', hr', r1, r2, r3, r4, r5, ⟨⟨i, hi, r6⟩, r6'⟩, r7, r8⟩ := report_some hn _ m11 (by omega)
    rw [hr] at hr'
    cases hr'
    have hcount := countP_target moves
    have hml : moves.length = (tagged cl.assignment).length := by rw [← m1, List.length_map]
    have htl := tests_length (env := env) cl.centroids cl.neighbours (tagged cl.assignment)
    refine ⟨moves, m1, fun j hj => m3 j (by omega), by rw [r1, m6], by rw [r2, m7], by rw [r3, m8], by rw [r4, m9],
      by rw [r5, r3, r4], ?_, r7, ?_⟩
    · apply Nat.le_antisymm
      · rw [r6, largest_le]
        intro t ht
        exact le_largest (List.Sublist.subset (List.Sublist.filterMap _ List.filter_sublist) ht)
      · rw [largest_le]
        intro t ht
        obtain ⟨p, hp, cut, hpt⟩ := mem_tests ht
        have hpi := tagged_lt hp
        refine Nat.le_trans (le_largest ?_) (r6' p.1 (by omega))
        exact List.mem_filterMap.2 ⟨p, List.mem_filter.2 ⟨hp, by simp⟩, by rw [hpt]; rfl⟩
    · have e : s.moved + s.stayed - s.obvious = (tests env cl.centroids cl.neighbours (tagged cl.assignment)).length := by omega
      rw [r8, e, m10]
      dsimp only
      by_cases h0 : (tests env cl.centroids cl.neighbours (tagged cl.assignment)).length = 0
      · rw [if_pos h0, if_neg (by simpa using h0)]
      · rw [if_neg h0, if_pos h0]
  · cases h

/-- **C99**, how they relate, at every pass of every run: moved and stayed make up all the points; the pass reports a change just
when some point moved; no point within the radius moves; no point is counted twice as stopped early; there is an average unless
all points are within the radius, and it is at least 1 and at most the global maximum, which is at most the number of the other
clusters. -/
theorem C99_relations (hs : IsSort env.sort) {cl cl' : Clusters T} (hr : Reached env fuel points n cl) {ch : Bool} {r : Report}
    (h : assignPointsStats env cl = .ok ((cl', ch), r)) :
    r.moved + r.stayed = points.length ∧ (ch = true ↔ 0 < r.moved) ∧ r.radius ≤ r.stayed ∧
      r.stoppedEarly = r.radius + r.cutoff ∧ r.stoppedEarly ≤ points.length ∧ r.minMax ≤ r.globalMax ∧ r.globalMax ≤ n - 1 ∧
      (r.average = none ↔ r.radius = points.length) ∧ ∀ a, r.average = some a → 1 ≤ a ∧ a ≤ r.globalMax := by
  have hi := reached_invariant hs hr
  have hpl : (tagged cl.assignment).length = points.length := by
    rw [← List.length_map (f := Prod.snd), tagged_points, hi.points.length_eq]
  have hbound : ∀ t ∈ tests env cl.centroids cl.neighbours (tagged cl.assignment), 1 ≤ t ∧ t ≤ n - 1 := by
    intro t ht
    obtain ⟨p, hp, cut, hpt⟩ := mem_tests ht
    obtain ⟨g, hg, h1, h2⟩ := look_bounds hpt
    have := (C46_lists hs hr _ _ hg).2.1
    omega
  have hlen := tests_length (env := env) cl.centroids cl.neighbours (tagged cl.assignment)
  have hcut := cutoff_le (env := env) cl.centroids cl.neighbours (tagged cl.assignment)
  have hch : ∃ moves : List (Move T), moves.map (fun m => (m.source, m.point)) = tagged cl.assignment ∧
      (ch = moves.any fun m => m.source != m.target) ∧
      (∀ m ∈ moves, look env cl.centroids cl.neighbours (m.source, m.point) = none → m.target = m.source) ∧
      r.moved = moves.countP (fun m => m.source != m.target) ∧
      r.stayed = moves.countP (fun m => m.source == m.target) := by
    have h' := h
    rw [assignPointsStats] at h'
    split at h'
    · obtain ⟨⟨⟨asg', ns', ch'⟩, s⟩, hl, h'⟩ := Ret.bind_ok.1 h'
      obtain ⟨r', hr', h'⟩ := Ret.bind_ok.1 h'
      cases h'
      obtain ⟨moves, m1, m3, m4, m5, m6, m7, m8, m9, m10, m11⟩ := stats_ok hl
      have hle := obvious_le (P := fun p => (look env cl.centroids cl.neighbours p).isNone) m1
        (fun m hm h => m5 m hm (by simpa using h))
      have hn := hi.positive
      have hn' := hi.assignment
      obtain ⟨r', hr'', r1, r2, -⟩ := report_some (by omega) _ m11 (by omega)
      rw [Ret.expect_ok.1 hr'] at hr''
      cases hr''
      exact ⟨moves, m1, m4, m5, by rw [r1, m6], by rw [r2, m7]⟩
    · cases h'
  obtain ⟨moves, m1, m4, m5, m6, m7⟩ := hch
  obtain ⟨-, -, -, -, -, n3, n4, n5, n6, n7, n8⟩ := C99_numbers h
  have hml : moves.length = points.length := by rw [← hpl, ← m1, List.length_map]
  have hcount := countP_target moves
  have hle := obvious_le (P := fun p => (look env cl.centroids cl.neighbours p).isNone) m1
    (fun m hm h => m5 m hm (by simpa using h))
  refine ⟨by omega, ?_, by omega, n5, by omega, ?_, ?_, ?_, ?_⟩
  · rw [m4, m6, List.countP_pos_iff, List.any_eq_true]
  · obtain ⟨⟨i, hi', e⟩, -⟩ := n7
    rw [e, n6, largest_le]
    intro t ht
    exact le_largest (List.Sublist.subset (List.Sublist.filterMap _ List.filter_sublist) ht)
  · rw [n6, largest_le]
    exact fun t ht => (hbound t ht).2
  · rw [n8]
    dsimp only
    split
    · simp; omega
    · simp; omega
  · intro a ha
    rw [n8] at ha
    dsimp only at ha
    split at ha
    · cases ha
    · rename_i h0
      cases ha
      have h1 := length_mul_le_sum (b := 1) fun t ht => (hbound t ht).1
      have h2 := sum_le_length_mul fun t ht => le_largest (l := tests env cl.centroids cl.neighbours (tagged cl.assignment)) ht
      rw [n6]
      refine ⟨?_, ?_⟩
      · rw [Nat.le_div_iff_mul_le (by omega)]; omega
      · exact Nat.div_le_of_le_mul h2

/-- **C99**, the counters: at the end of any pass of any run none of the counts of points is larger than the number of points, no
number of neighbours looked at is larger than the number of other clusters, and their sum is at most the product.  (They only
grow, so the same holds all along; the source has them as `u64`.) -/
theorem C99_counters (hs : IsSort env.sort) {cl : Clusters T} (hr : Reached env fuel points n cl) {asg' : List (List T)}
    {ns' : List Neigh} {ch : Bool} {s : Stats}
    (h : assignLoopStats env cl.centroids (tagged cl.assignment) (List.replicate cl.centroids.length []) cl.neighbours false
      (Stats.zero cl.assignment.length) = .ok ((asg', ns', ch), s)) :
    s.moved + s.stayed = points.length ∧ s.obvious + s.cutoff ≤ points.length ∧ (∀ m ∈ s.maxTested, m ≤ n - 1) ∧
      s.sumTested ≤ points.length * (n - 1) := by
  have hi := reached_invariant hs hr
  obtain ⟨moves, m1, m3, m4, m5, m6, m7, m8, m9, m10, m11⟩ := stats_ok h
  have hpl : (tagged cl.assignment).length = points.length := by
    rw [← List.length_map (f := Prod.snd), tagged_points, hi.points.length_eq]
  have hbound : ∀ l, ∀ t ∈ tests env cl.centroids cl.neighbours l, t ≤ n - 1 := by
    intro l t ht
    obtain ⟨p, hp, cut, hpt⟩ := mem_tests ht
    obtain ⟨g, hg, h1, h2⟩ := look_bounds hpt
    have := (C46_lists hs hr _ _ hg).2.1
    omega
  have hlen := tests_length (env := env) cl.centroids cl.neighbours (tagged cl.assignment)
  have hcut := cutoff_le (env := env) cl.centroids cl.neighbours (tagged cl.assignment)
  have hml : moves.length = points.length := by rw [← hpl, ← m1, List.length_map]
  have hcount := countP_target moves
  refine ⟨by omega, by omega, ?_, ?_⟩
  · intro m hm
    rw [m11] at hm
    obtain ⟨i, -, rfl⟩ := List.mem_map.1 hm
    exact largest_le.2 (hbound _)
  · rw [m10]
    exact Nat.le_trans (sum_le_length_mul (hbound _)) (Nat.mul_le_mul_right _ (by omega))

/-- **C99**, the end: the last pass of every clustering that returns prints that no point moved, and all stayed; the points are
then in the clusters that are returned. -/
theorem C99_last (hs : IsSort env.sort) {cl : Clusters T} (h : cluster env fuel points n = .ok cl) :
    ∃ cl0 cl1 r, Reached env fuel points n cl0 ∧ assignPointsStats env cl0 = .ok ((cl1, false), r) ∧
      cl.assignment = cl1.assignment ∧ r.moved = 0 ∧ r.stayed = points.length := by
  obtain ⟨cl0, k0, k', hr, hit⟩ := cluster_ok h
  obtain ⟨cl1, h1, h2, -⟩ := iteration_parts hit
  rw [← C99_result] at h1
  obtain ⟨⟨p, r⟩, h3, h4⟩ := Ret.bind_ok.1 h1
  cases h4
  have := C99_relations hs hr h3
  refine ⟨cl0, cl1, r, hr, h3, h2, ?_, ?_⟩
  · have := this.2.1.not.1 (by simp); omega
  · have h1 := this.2.1.not.1 (by simp)
    omega

/-- **C99**, one cluster: all points are within the radius, which is infinite; nothing else is counted. -/
theorem C99_one (hs : IsSort env.sort) {cl cl' : Clusters T} (hr : Reached env fuel points 1 cl) {ch : Bool} {r : Report}
    (h : assignPointsStats env cl = .ok ((cl', ch), r)) :
    r = { moved := 0, stayed := points.length, stoppedEarly := points.length, radius := points.length, cutoff := 0,
          globalMax := 0, minMax := 0, average := none } := by
  obtain ⟨h1, h2, h3, h4, h5, h6, h7, h8, h9⟩ := C99_relations hs hr h
  have ha : r.average = none := by
    cases ha : r.average with
    | none => rfl
    | some a => have := h9 a ha; omega
  have := h8.1 ha
  obtain ⟨a, b, c, d, e, f, g, k⟩ := r
  dsimp only at *
  subst ha
  simp only [Report.mk.injEq, and_true]
  omega

end

namespace StatsExamples
open EndsExamples ShortcutExamples

/-- The reports of the passes of a run. -/
def reports {T : Type} (env : Env T) (fuel : Nat) : Nat → Clusters T → List Report
  | 0, _ => []
  | left + 1, cl =>
    match assignPointsStats env cl, iteration env fuel cl 0 with
    | .ok (_, r), .ok (cl', ch, _) => r :: if ch then reports env fuel left cl' else []
    | _, _ => []

/-- The numbers, in the order they are printed. -/
def Report.printed (r : Report) : List Nat × Option Nat :=
  ([r.moved, r.stayed, r.stoppedEarly, r.radius, r.cutoff, r.globalMax, r.minMax], r.average)

/-- The reports of clustering the twelve shades into `n` clusters. -/
def printed (n : Nat) : List (List Nat × Option Nat) :=
  match init (colorEnv outside true) 9 (colorCounts id twelveReds) n with
  | .ok cl => (reports (colorEnv outside true) 9 9 cl).map Report.printed
  | _ => []

/-- C99: what is printed for twelve shades of red in one cluster, in three and in four.  With three, six of the twelve move in
the first pass, one in the second and none in the last; the least of the maxima is 0 as soon as all points of some cluster are
within its radius; and with four, where a list has all three others, the cutoff is counted only if it comes before its end. -/
example : printed 1 = [([0, 12, 12, 12, 0, 0, 0], none)] ∧
    printed 3 = [([6, 6, 9, 6, 3, 2, 2], some 2), ([1, 11, 12, 11, 1, 2, 0], some 2), ([0, 12, 12, 12, 0, 0, 0], none)] ∧
    printed 4 = [([5, 7, 8, 7, 1, 3, 0], some 3), ([1, 11, 11, 11, 0, 3, 0], some 3), ([0, 12, 12, 12, 0, 0, 0], none)] := by
  refine ⟨?_, ?_, ?_⟩ <;> decide +kernel

/-- C99: a state that is reached and a pass that returns, as the theorems require. -/
example : ∃ cl cl' ch r, Reached (colorEnv outside true) 9 (colorCounts id twelveReds) 3 cl ∧
    assignPointsStats (colorEnv outside true) cl = .ok ((cl', ch), r) ∧ r.moved + r.stayed = 12 := by
  have h : (match init (colorEnv outside true) 9 (colorCounts id twelveReds) 3 with | .ok _ => true | _ => false) = true := by
    decide +kernel
  cases hi : init (colorEnv outside true) 9 (colorCounts id twelveReds) 3 with
  | ok cl =>
    obtain ⟨cl1, -, ch, h1, -⟩ := C97_colors Ieee.lawful sortByDist_isSort true (.start hi)
    rw [← C99_result] at h1
    obtain ⟨⟨p, r⟩, h3, h4⟩ := Ret.bind_ok.1 h1
    cases h4
    exact ⟨cl, cl1, ch, r, .start hi, h3, (C99_relations sortByDist_isSort (.start hi) h3).1.trans (by decide +kernel)⟩
  | err _ => rw [hi] at h; cases h
  | panic => rw [hi] at h; cases h

/-- C99: the counters of the first pass with three clusters: bounds 12, 2 and 24. -/
example : (match init (colorEnv outside true) 9 (colorCounts id twelveReds) 3 with
    | .ok cl =>
      match assignLoopStats (colorEnv outside true) cl.centroids (tagged cl.assignment) (List.replicate cl.centroids.length [])
        cl.neighbours false (Stats.zero cl.assignment.length) with
      | .ok (_, s) => some s
      | _ => none
    | _ => none) =
    some { obvious := 6, cutoff := 3, moved := 6, stayed := 6, maxTested := [2, 2, 2], sumTested := 12 } := by decide +kernel

end StatsExamples
end Cniic
