import Verif.Proofs.Hang
import Verif.Proofs.Fuel
import Verif.Props.Clusterc

/-!
# Clustering need not end (C63)

The mean of a cluster is rounded to whole numbers, so moving to the mean may make a cluster worse, and the loop that waits
for an iteration without changes may run in a circle.
-/

namespace Cniic
open Spec Kmeans Spec.Kmeans

/-- **C63**, what it means not to end: a number of granted iterations that suffices for a run to end gives the result that
every larger number gives; so a run ends, with one result, or uses up any number. -/
theorem C63_outcome {T : Type} (env : Env T) (points : List T) (n : Nat) :
    (∃ r least, r ≠ .err () ∧ ∀ fuel, least ≤ fuel → cluster env fuel points n = r) ∨
      ∀ fuel, cluster env fuel points n = .err () := by
  by_cases h : ∃ fuel, cluster env fuel points n ≠ .err ()
  · obtain ⟨fuel, h⟩ := h
    exact .inl ⟨_, fuel, h, fun m hm => cluster_stable env points n fuel m hm h⟩
  · exact .inr fun fuel => Classical.byContradiction fun hn => h ⟨fuel, hn⟩

/-- 7 by 3 pixels in 8 colours. -/
def circlingColors : Img where
  width := 7
  height := 3
  pixels :=
    [⟨1, 0, 2, 255⟩, ⟨1, 0, 2, 255⟩, ⟨1, 0, 2, 255⟩, ⟨1, 0, 2, 255⟩, ⟨1, 0, 2, 255⟩, ⟨1, 0, 2, 255⟩, ⟨1, 0, 2, 255⟩,
     ⟨1, 0, 2, 255⟩, ⟨1, 0, 2, 255⟩, ⟨1, 0, 2, 255⟩, ⟨0, 0, 0, 255⟩, ⟨1, 1, 2, 255⟩, ⟨1, 1, 2, 255⟩, ⟨1, 1, 2, 255⟩,
     ⟨1, 1, 2, 255⟩, ⟨1, 3, 5, 255⟩, ⟨2, 3, 0, 255⟩, ⟨2, 1, 2, 255⟩, ⟨3, 3, 2, 255⟩, ⟨3, 3, 2, 255⟩, ⟨1, 2, 4, 255⟩]
  size := by decide

/-- Its colours with their counts. -/
def circlingBase : List ColorCount :=
  [⟨⟨1, 0, 2⟩, 10⟩, ⟨⟨0, 0, 0⟩, 1⟩, ⟨⟨1, 1, 2⟩, 4⟩, ⟨⟨1, 3, 5⟩, 1⟩, ⟨⟨2, 3, 0⟩, 1⟩, ⟨⟨2, 1, 2⟩, 1⟩, ⟨⟨3, 3, 2⟩, 2⟩,
   ⟨⟨1, 2, 4⟩, 1⟩]

/-- The ways of dividing the colours that occur after the first iteration, as binary numbers. -/
def circlingMarks : List (List Bool) :=
  [2, 3, 7, 8, 16, 18, 19, 39, 55, 80, 82, 88, 112, 119, 120, 135, 136, 143, 167, 173, 175, 200, 216, 236, 237, 239, 247,
   248, 252, 253].map fun m => (List.range 8).map (Nat.testBit m)

private theorem base_eq : colorCounts id circlingColors = circlingBase := by decide +kernel

private theorem marks_lively : ∀ bs ∈ circlingMarks, fit (pick circlingBase bs) = true ∧
    fit (pick circlingBase (bs.map (!·))) = true ∧
    lively circlingBase circlingMarks bs (markMean circlingBase bs) (markMean circlingBase (bs.map (!·))) = true := by
  decide +kernel

private theorem starts_lively : ∀ bs ∈ allMarks circlingBase.length, (pick circlingBase bs).length = circlingBase.length / 2 →
    ∀ a ∈ pick circlingBase bs, ∀ b ∈ pick circlingBase (bs.map (!·)),
      lively circlingBase circlingMarks bs a.color b.color = true := by
  decide +kernel

theorem circlingColors_circles {o : Outside} (hfl : o.fl.Lawful) (hs : IsSort o.sort) (hlow : 0 < o.lower 2) (chk : Bool)
    {ho1 : List (Rgb UInt8 × Nat) → List (Rgb UInt8 × Nat)} (hho : IsOrder ho1) :
    Circles (colorEnv o chk) (colorCounts ho1 circlingColors) 2 := by
  have hp : (colorCounts ho1 circlingColors).Perm circlingBase := by
    rw [← base_eq]
    exact (hho _).map _
  exact color_circles hfl hs hlow hp (by decide) marks_lively starts_lively

/-- **C63**, cluster-colors: encoding this image with two colours does not end, whatever the order of the hash map, the
random numbers, the order of equal distances, and whether or not the sums of the means are checked for overflow.  The counter of
the iterations is left out here; in debug builds it overflows in the end (C87). -/
theorem C63_cluster_colors {o : Outside} (hfl : o.fl.Lawful) (hs : IsSort o.sort) (hlow : 0 < o.lower 2) (chk : Bool)
    {ho1 : List (Rgb UInt8 × Nat) → List (Rgb UInt8 × Nat)} (hho : IsOrder ho1)
    (ho2 : List (Rgb UInt8 × Nat) → List (Rgb UInt8 × Nat)) (M : MinHeap (Rgb UInt8)) (fuel : Nat) :
    clusterColorsEncode o chk ho1 ho2 M fuel 2 circlingColors = .err () := by
  rw [clusterColorsEncode, show (2 : UInt64).toNat = 2 from rfl,
    cluster_endless (circlingColors_circles hfl hs hlow chk hho) fuel]
  rfl

/-- 2 by 3 pixels. -/
def circlingPixels : Img where
  width := 2
  height := 3
  pixels := [⟨0, 0, 1, 255⟩, ⟨1, 1, 0, 255⟩, ⟨0, 1, 1, 255⟩, ⟨1, 0, 1, 255⟩, ⟨0, 1, 0, 255⟩, ⟨0, 1, 0, 255⟩]
  size := by decide

/-- The pixels as points. -/
def pix (i : Nat) : ColorPos := (dataPoints circlingPixels).getD i ⟨0, 0, ⟨0, 0, 0⟩⟩

/-- The states of the run; the last two alternate. -/
def circlingStates : List PosState :=
  [((pix 3, pix 0), [pix 3, pix 4, pix 5], [pix 0, pix 1, pix 2]),
   ((⟨0, 1, ⟨0, 0, 0⟩⟩, ⟨0, 0, ⟨0, 0, 1⟩⟩), [pix 3, pix 4, pix 5, pix 1], [pix 0, pix 2]),
   ((⟨0, 2, ⟨0, 1, 0⟩⟩, ⟨0, 0, ⟨0, 0, 0⟩⟩), [pix 4, pix 5], [pix 3, pix 1, pix 0, pix 2]),
   ((⟨0, 1, ⟨0, 1, 0⟩⟩, ⟨0, 0, ⟨0, 0, 0⟩⟩), [pix 4, pix 5, pix 2], [pix 3, pix 1, pix 0]),
   ((⟨0, 1, ⟨0, 0, 0⟩⟩, ⟨0, 0, ⟨0, 0, 1⟩⟩), [pix 4, pix 5, pix 2, pix 3, pix 1], [pix 0])]

/-- The pixels and the other centroids. -/
def circlingPoints : List ColorPos :=
  dataPoints circlingPixels ++ [⟨0, 1, ⟨0, 0, 0⟩⟩, ⟨0, 0, ⟨0, 0, 0⟩⟩, ⟨0, 1, ⟨0, 1, 0⟩⟩]

/-- **C63**, voronoi in the release profile with IEEE 754 arithmetic: encoding this image with two clusters does not
end. -/
theorem C63_voronoi {o : Outside} (ho : o.fl = Ieee.ops) (hs : IsSort o.sort) (hlow : 0 < o.lower 2) (fuel : Nat) :
    voronoiEncode o false fuel 2 circlingPixels = .err () := by
  rw [voronoiEncode, show (2 : UInt64).toNat = 2 from rfl,
    cluster_endless (pos_circles ho hs hlow (l := circlingPoints) (S := circlingStates) (points := dataPoints circlingPixels)
      (a := pix 3) (A := [pix 4, pix 5]) (b := pix 0) (B := [pix 1, pix 2]) (a' := pix 3) (b' := pix 0)
      (by decide +kernel) (by decide +kernel) (by decide +kernel) (by decide +kernel) (by decide +kernel)
      (by decide +kernel) (by decide +kernel)) fuel]
  rfl

/-! ## Concrete cases -/

namespace HangExamples
open ClusterExamples

/-- C63: a run that ends. -/
example : ∃ r least, r ≠ .err () ∧ ∀ fuel, least ≤ fuel → cluster (colorEnv out true) fuel (colorCounts id img) 2 = r := by
  rcases C63_outcome (colorEnv out true) (colorCounts id img) 2 with h | h
  · exact h
  · cases color_run.symm.trans (h 9)

/-- C63: the hypotheses hold for IEEE 754 arithmetic, a stable sort and the shortest list of 1. -/
example (fuel : Nat) : clusterColorsEncode { out with fl := Ieee.ops } true id id (listHeap _) fuel 2 circlingColors = .err () :=
  C63_cluster_colors Ieee.lawful sortByDist_isSort (by decide) true (fun _ => List.Perm.refl _) id (listHeap _) fuel

example (fuel : Nat) : voronoiEncode { out with fl := Ieee.ops } false fuel 2 circlingPixels = .err () :=
  C63_voronoi rfl sortByDist_isSort (by decide) fuel

end HangExamples
end Cniic
