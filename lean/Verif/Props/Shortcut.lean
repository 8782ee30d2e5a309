import Verif.Proofs.Shortcut
import Verif.Props.Prune
import Verif.Props.Ends

/-!
# A shortcut said to be superfluous (C97)

A comment in `assign_points` (kmeans.rs:354) asks to remove the test of the certainty radius as a duplicate of the test in the
loop.  It is one as far as the clusters of the points are concerned, in each pass; but the loop also records how many neighbours
it has looked at, the lists are cut to twice that number, and so the clustering as a whole comes out differently.
-/

namespace Cniic
open Spec Kmeans Spec.Kmeans

/-- **C97**, any points for whose distances the test is a special case of the loop: from any state that clustering goes through,
a pass without the test puts the points into the same clusters and reports a change just when the original does; the lists of
neighbours stay as they are, apart from the watermarks. -/
theorem C97_pass {T : Type} {env : Env T} {P : T → Prop} (htt : Tight env P) (hs : IsSort env.sort) {points : List T}
    (ht : Sound env.pt P points) {fuel n : Nat} {cl : Clusters T} (hr : Reached env fuel points n cl) :
    ∃ cl1 cl2 changed, assignPoints env cl = .ok (cl1, changed) ∧ assignPointsAll env cl = .ok (cl2, changed) ∧
      cl2.assignment = cl1.assignment ∧ cl2.centroids = cl1.centroids ∧
      cl1.neighbours.map entries = cl.neighbours.map entries ∧ cl2.neighbours.map entries = cl.neighbours.map entries := by
  have hcs := reached_closed hs ht.toClosed hr
  have hi := reached_invariant hs hr
  obtain ⟨⟨cl1, ch⟩, h1⟩ := assignPoints_total ht hcs hi
  obtain ⟨cl2, h2, e1, e2, e3⟩ := assignPoints_all htt ht.dist hi hcs ht.inputs h1
  obtain ⟨-, -, -, a4, -⟩ := assignPoints_ok h1
  exact ⟨cl1, cl2, ch, h1, h2, e2, e1, a4, e3.trans a4⟩

/-- **C97**, cluster-colors: so it is for the colours of any picture. -/
theorem C97_colors {o : Outside} (hfl : o.fl.Lawful) (hs : IsSort o.sort) (chk : Bool) {points : List ColorCount} {fuel n : Nat}
    {cl : Clusters ColorCount} (hr : Reached (colorEnv o chk) fuel points n cl) :
    ∃ cl1 cl2 changed, assignPoints (colorEnv o chk) cl = .ok (cl1, changed) ∧
      assignPointsAll (colorEnv o chk) cl = .ok (cl2, changed) ∧
      cl2.assignment = cl1.assignment ∧ cl2.centroids = cl1.centroids ∧
      cl1.neighbours.map entries = cl.neighbours.map entries ∧ cl2.neighbours.map entries = cl.neighbours.map entries :=
  C97_pass (color_tight hfl chk) hs (color_sound o chk points) hr

theorem narrow_sound (o : Outside) (img : Img) (hw : img.width.toNat ≤ 2 ^ 16) (hh : img.height.toNat ≤ 2 ^ 16) :
    Sound (posEnv o false).pt Narrow (dataPoints img) where
  toClosed := narrow_closed o false img hw hh
  dist a b _ _ := (pos_total o (dataPoints img)).dist a b trivial trivial
  one := (pos_total o (dataPoints img)).one
  single := (pos_total o (dataPoints img)).single

/-- **C97**, voronoi: so it is in release builds for the pixels of any picture of at most 65536 by 65536 pixels, although the
distances are rounded twice. -/
theorem C97_pixels {o : Outside} (hfl : o.fl.Lawful) (hs : IsSort o.sort) {img : Img} (hw : img.width.toNat ≤ 2 ^ 16)
    (hh : img.height.toNat ≤ 2 ^ 16) {fuel n : Nat} {cl : Clusters ColorPos}
    (hr : Reached (posEnv o false) fuel (dataPoints img) n cl) :
    ∃ cl1 cl2 changed, assignPoints (posEnv o false) cl = .ok (cl1, changed) ∧
      assignPointsAll (posEnv o false) cl = .ok (cl2, changed) ∧
      cl2.assignment = cl1.assignment ∧ cl2.centroids = cl1.centroids ∧
      cl1.neighbours.map entries = cl.neighbours.map entries ∧ cl2.neighbours.map entries = cl.neighbours.map entries :=
  C97_pass (pos_tight hfl false) hs (narrow_sound o img hw hh) hr

/-- **C97**, few clusters: as long as the least length of the lists, the square root of the number of clusters, is all the others
(so for at most two clusters), the clustering as a whole is the same without the test. -/
theorem C97_few {o : Outside} (hfl : o.fl.Lawful) (hs : IsSort o.sort) {n : Nat} (hn : n - 1 ≤ o.lower n) (fuel : Nat) :
    (∀ chk points, clusterAll (colorEnv o chk) fuel points n = cluster (colorEnv o chk) fuel points n) ∧
      ∀ img : Img, img.width.toNat ≤ 2 ^ 16 → img.height.toNat ≤ 2 ^ 16 →
        clusterAll (posEnv o false) fuel (dataPoints img) n = cluster (posEnv o false) fuel (dataPoints img) n :=
  ⟨fun chk points => cluster_all_few (env := colorEnv o chk) (color_tight hfl chk) hs (color_sound o chk points) hn fuel,
    fun img hw hh => cluster_all_few (env := posEnv o false) (pos_tight hfl false) hs (narrow_sound o img hw hh) hn fuel⟩

namespace ShortcutExamples
open EndsExamples

/-- Twelve shades of red. -/
def twelveReds : Img where
  width := 12
  height := 1
  pixels := [8, 21, 53, 7, 93, 62, 79, 75, 58, 30, 77, 19].map fun r => ⟨r, 0, 0, 255⟩
  size := by decide

/-- What becomes of them: the centroids with the shades of their clusters. -/
def shades (r : Ret Unit (Clusters ColorCount)) : List (UInt8 × List UInt8) :=
  match r with
  | .ok cl => cl.intoIter.map fun p => (p.1.color.r, p.2.map fun q => q.color.r)
  | _ => []

end ShortcutExamples

open EndsExamples ShortcutExamples in
/-- **C97**, more clusters: with the test removed, the result is another one and not as good.  Of twelve shades of red in
four clusters, with the test every one ends at the nearest centroid; without it 53 ends at 30, although 74 is nearer.  (No two
distances in a list are equal here: any sorting function gives the same.) -/
theorem C97_differs :
    shades (cluster (colorEnv outside true) 9 (colorCounts id twelveReds) 4) =
        [(23, [30, 19, 21]), (71, [53, 77, 79, 75, 58, 93, 62]), (7, [7]), (8, [8])] ∧
      shades (clusterAll (colorEnv outside true) 9 (colorCounts id twelveReds) 4) =
        [(30, [30, 19, 21, 53]), (74, [77, 79, 75, 58, 93, 62]), (7, [7]), (8, [8])] := by
  constructor <;> decide +kernel

namespace ShortcutExamples
open EndsExamples

/-- C97: the first pass over the twelve shades, with and without the test. -/
example : ∃ cl cl1 cl2 changed, Reached (colorEnv outside true) 9 (colorCounts id twelveReds) 4 cl ∧
    assignPoints (colorEnv outside true) cl = .ok (cl1, changed) ∧
    assignPointsAll (colorEnv outside true) cl = .ok (cl2, changed) ∧ cl2.assignment = cl1.assignment := by
  have h : (match init (colorEnv outside true) 9 (colorCounts id twelveReds) 4 with | .ok _ => true | _ => false) = true := by
    decide +kernel
  cases hi : init (colorEnv outside true) 9 (colorCounts id twelveReds) 4 with
  | ok cl =>
    obtain ⟨cl1, cl2, ch, h1, h2, h3, -⟩ := C97_colors Ieee.lawful sortByDist_isSort true (.start hi)
    exact ⟨cl, cl1, cl2, ch, .start hi, h1, h2, h3⟩
  | err _ => rw [hi] at h; cases h
  | panic => rw [hi] at h; cases h

/-- C97: the watermarks differ after this pass.  Without the test it is the last point of a cluster that sets it, even if that
point is where the centroid is. -/
example : (match init (colorEnv outside true) 9 (colorCounts id twelveReds) 4 with
    | .ok cl =>
      match assignPoints (colorEnv outside true) cl, assignPointsAll (colorEnv outside true) cl with
      | .ok (cl1, _), .ok (cl2, _) => [cl1.neighbours.map Neigh.watermark, cl2.neighbours.map Neigh.watermark]
      | _, _ => []
    | _ => []) = [[3, 0, 3, 3], [1, 0, 3, 3]] := by decide +kernel

/-- C97: the condition for few clusters, met by two but not by four. -/
example : 2 - 1 ≤ outside.lower 2 ∧ ¬4 - 1 ≤ outside.lower 4 := by decide

/-- C97: pixels of a picture that is not too large. -/
example : clusterAll (posEnv outside false) 9 (dataPoints twelveReds) 2 = cluster (posEnv outside false) 9 (dataPoints twelveReds) 2 :=
  (C97_few (o := outside) Ieee.lawful sortByDist_isSort (by decide) 9).2 twelveReds (by decide) (by decide)

end ShortcutExamples
end Cniic
