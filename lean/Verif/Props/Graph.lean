import Verif.Proofs.Graph
import Verif.Props.Shortcut

/-!
# The graph of the neighbours (C98)

"For correctness sake, we better hope that this graph is connected" (kmeans.rs:285).  For at most five clusters it is.  For six
it may fall apart; then no point crosses from one part to the other, as long as no list grows.
-/

namespace Cniic
open Spec Kmeans Spec.Kmeans

variable {T : Type} {env : Env T} {fuel n : Nat} {points : List T}

/-- **C98**, few clusters: in every state that clustering goes through the graph is connected, if there are fewer than
`2 * (lower n + 1)` clusters, where `lower n` is the square root. -/
theorem C98_connected (hs : IsSort env.sort) (hn : n < 2 * (env.lower n + 1)) {cl : Clusters T}
    (hr : Reached env fuel points n cl) : Joined n cl := joined_of_few (reached_invariant hs hr) hn

/-- **C98**, five clusters at most: this is so with the square root rounded down. -/
theorem C98_five (hs : IsSort env.sort) (hl : env.lower n = Nat.sqrt n) (hn : n ≤ 5) {cl : Clusters T}
    (hr : Reached env fuel points n cl) : Joined n cl := by
  refine C98_connected hs ?_ hr
  rw [hl]
  have h : ∀ n, n ≤ 5 → n < 2 * (Nat.sqrt n + 1) := by decide +kernel
  exact h n hn

/-- **C98**, at the beginning of any clustering the graph is complete: every list holds all other clusters. -/
theorem C98_start (hs : IsSort env.sort) {cl : Clusters T} (h : init env fuel points n = .ok cl) {i : Nat} {g : Neigh}
    (hg : cl.neighbours[i]? = some g) {t : Nat} (ht : t < n) (hne : t ≠ i) : t ∈ g.neighbours.map (·.1) :=
  init_all hs h hg ht hne

/-- **C98**, a part: when no list crosses from one side to the other, a pass leaves each side its points. -/
theorem C98_kept {cl cl' : Clusters T} {changed : Bool} (h : assignPoints env cl = .ok (cl', changed)) {S : Nat → Bool}
    (hS : ¬Crosses cl S) (b : Bool) : (side S b cl'.assignment).Perm (side S b cl.assignment) := assignPoints_side h hS b

/-- **C98**, as long as the program reports that no list has grown, the sides stay apart. -/
theorem C98_stays (hs : IsSort env.sort) {cl cl1 : Clusters T} {changed : Bool} (h : assignPoints env cl = .ok (cl1, changed))
    {cs : List T} {ns : List Neigh} (hc : computeNeighboursCount true env fuel cs cl1.neighbours 0 = .ok (ns, 0))
    {S : Nat → Bool} (hS : ¬Crosses cl S) : ¬Crosses { cl1 with centroids := cs, neighbours := ns } S := by
  rintro ⟨i, g', e, hg, he, hne⟩
  obtain ⟨g1, h1, h2⟩ := (computeNeighboursCount_counter hs hc).2 rfl i g' hg
  obtain ⟨-, -, -, a4, -⟩ := assignPoints_ok h
  obtain ⟨g, h3, h4⟩ := getElem?_of_strip a4 h1
  have h5 : g1.neighbours = g.neighbours := congrArg Prod.snd h4
  obtain ⟨e', he', h6⟩ := List.mem_map.1 (h5 ▸ h2 e he)
  exact hS ⟨i, g, e', h3, he', by rw [h6]; exact hne⟩

namespace GraphExamples
open EndsExamples

/-- Eleven shades of red. -/
def elevenReds : Img where
  width := 11
  height := 1
  pixels := [207, 126, 114, 240, 52, 180, 31, 70, 10, 190, 175].map fun r => ⟨r, 0, 0, 255⟩
  size := by decide

/-- The states of the clustering into six clusters. -/
def state (k : Nat) : Ret Unit (Clusters ColorCount × Nat) :=
  match k with
  | 0 => do
    let cl ← init (colorEnv outside true) 9 (colorCounts id elevenReds) 6
    .ok (cl, 0)
  | k + 1 => do
    let (cl, r) ← state k
    let (cl, _, r) ← iteration (colorEnv outside true) 9 cl r
    .ok (cl, r)

theorem state_reached {k r : Nat} {cl : Clusters ColorCount} (h : state k = .ok (cl, r)) :
    Reached (colorEnv outside true) 9 (colorCounts id elevenReds) 6 cl := by
  induction k generalizing cl r with
  | zero =>
    rw [state] at h
    obtain ⟨cl', h1, h⟩ := Ret.bind_ok.1 h
    cases h
    exact .start h1
  | succ k ih =>
    rw [state] at h
    obtain ⟨⟨cl', r'⟩, h1, h⟩ := Ret.bind_ok.1 h
    dsimp only at h
    obtain ⟨⟨cl'', ch, r''⟩, h2, h⟩ := Ret.bind_ok.1 h
    cases h
    exact .step (ih h1) h2

/-- The lists of a state. -/
def lists (r : Ret Unit (Clusters ColorCount × Nat)) : List (List Nat) :=
  match r with
  | .ok (cl, _) => cl.neighbours.map fun g => g.neighbours.map (·.1)
  | _ => []

/-- The lists after two iterations: the clusters 0, 1 and 5 list each other, and so do 2, 3 and 4. -/
theorem lists_two : lists (state 2) = [[1, 5], [0, 5], [4, 3], [4, 2], [2, 3], [1, 0]] := by decide +kernel

/-- The clusters 2, 3 and 4. -/
def dark (i : Nat) : Bool := 2 ≤ i && i ≤ 4

end GraphExamples

open EndsExamples GraphExamples ShortcutExamples in
/-- **C98**, six clusters: the graph may fall apart.  It does so for eleven shades of red after two iterations, and the result is
that 114 ends at the centroid 92, although 126 is nearer.  (No two distances in a list are equal here.) -/
theorem C98_apart :
    (∃ cl, Reached (colorEnv outside true) 9 (colorCounts id elevenReds) 6 cl ∧ ¬Joined 6 cl) ∧
      shades (cluster (colorEnv outside true) 9 (colorCounts id elevenReds) 6) =
        [(126, [126]), (181, [175, 180, 190]), (10, [10]), (92, [70, 114]), (41, [52, 31]), (223, [207, 240])] := by
  refine ⟨?_, by decide +kernel⟩
  have hl := lists_two
  cases h : state 2 with
  | err _ => rw [h] at hl; cases hl
  | panic => rw [h] at hl; cases hl
  | ok r =>
    obtain ⟨cl, k⟩ := r
    rw [h] at hl
    exact ⟨cl, state_reached h, fun hj => not_crosses_of_lists (S := dark) hl (by decide)
      (hj dark ⟨2, by decide, by decide⟩ ⟨0, by decide, by decide⟩)⟩

namespace GraphExamples
open EndsExamples ShortcutExamples

theorem state_two : ∃ cl k, state 2 = .ok (cl, k) ∧ ¬Crosses cl dark := by
  have hl := lists_two
  cases h : state 2 with
  | err _ => rw [h] at hl; cases hl
  | panic => rw [h] at hl; cases hl
  | ok r =>
    obtain ⟨cl, k⟩ := r
    rw [h] at hl
    exact ⟨cl, k, rfl, not_crosses_of_lists (S := dark) hl (by decide)⟩

/-- C98: the pass after that leaves the three dark clusters the same points. -/
example : ∃ cl cl1 changed, Reached (colorEnv outside true) 9 (colorCounts id elevenReds) 6 cl ∧ ¬Crosses cl dark ∧
    assignPoints (colorEnv outside true) cl = .ok (cl1, changed) ∧
    (side dark true cl1.assignment).Perm (side dark true cl.assignment) := by
  obtain ⟨cl, k, h1, h2⟩ := state_two
  have hr := state_reached h1
  obtain ⟨⟨cl1, ch⟩, h3⟩ := assignPoints_total (color_sound outside true _) (fun _ _ => trivial)
    (reached_invariant (env := colorEnv outside true) sortByDist_isSort hr)
  exact ⟨cl, cl1, ch, hr, h2, h3, C98_kept h3 h2 true⟩

/-- C98: these points. -/
example : (match state 2 with
    | .ok (cl, _) => (side dark true cl.assignment).map fun p => p.color.r
    | _ => []) = [10, 70, 114, 52, 31] := by decide +kernel

/-- C98: no list grows in this iteration. -/
example : (match state 2 with
    | .ok (cl, k) =>
      match assignPoints (colorEnv outside true) cl with
      | .ok (cl1, _) =>
        match updateCentroids (colorEnv outside true) 9 cl1 k with
        | .ok (cl2, _) =>
          match computeNeighboursCount true (colorEnv outside true) 9 cl2.centroids cl1.neighbours 0 with
          | .ok (_, grown) => some grown
          | _ => none
        | _ => none
      | _ => none
    | _ => none) = some 0 := by decide +kernel

/-- C98: five clusters of the same shades. -/
example {cl : Clusters ColorCount} (h : Reached (colorEnv outside true) 9 (colorCounts id elevenReds) 5 cl) : Joined 5 cl :=
  C98_five (env := colorEnv outside true) sortByDist_isSort (by decide +kernel) (by decide) h

/-- C98: there is such a state, and each of its lists holds the four other clusters. -/
example : (lists do
    let cl ← init (colorEnv outside true) 9 (colorCounts id elevenReds) 5
    .ok (cl, 0)).map List.length = [4, 4, 4, 4, 4] := by decide +kernel

end GraphExamples

end Cniic
