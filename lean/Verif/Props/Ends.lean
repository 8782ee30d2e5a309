import Verif.Proofs.Shades
import Verif.Props.Hang

/-!
# When clustering ends (C80)

The counterpart of C63: clustering ends if moving to the mean makes no cluster worse by some measure that agrees with the
distances.  Rounding the mean down spoils that for colours in general, but not for shades of one tint.
-/

namespace Cniic
open Spec Kmeans Spec.Kmeans

/-- **C80**: clustering ends if there is a measure that a point lowers by moving to a nearer centroid, and for which the mean
is the best centroid, provided that the random numbers hit every cluster again and again. -/
theorem C80_ends {T : Type} {env : Env T} {P : T → Prop} {points : List T} {cost : T → T → Nat} (hs : IsSort env.sort)
    (hm : MeanOfSome env.pt) (hc : Closed env.pt P points) (hl : Lowers env.pt P points cost) {n : Nat}
    (hf : Fair env.rand n) :
    ∃ r least, r ≠ .err () ∧ ∀ fuel, least ≤ fuel → cluster env fuel points n = r := by
  obtain ⟨fuel, h⟩ := cluster_ends hs hm hc hl hf
  exact ⟨_, fuel, h, fun m hm => cluster_stable env points n fuel m hm h⟩

/-- **C80**, cluster-colors: a picture whose colours are shades of one tint is encoded, or the encoder panics, after a finite
number of iterations, for any number of colours, order of the hash map and order of equal distances, and in either build
profile. -/
theorem C80_one_tint {o : Outside} (hfl : o.fl.Lawful) (hs : IsSort o.sort) (chk : Bool)
    {ho1 : List (Rgb UInt8 × Nat) → List (Rgb UInt8 × Nat)} (hho : IsOrder ho1)
    (ho2 : List (Rgb UInt8 × Nat) → List (Rgb UInt8 × Nat)) (M : MinHeap (Rgb UInt8)) (n : UInt64) (img : Img)
    (hfit : CountsFit img) (htint : OneTint img) (hf : Fair o.rand n.toNat) :
    ∃ r least, r ≠ .err () ∧ ∀ fuel, least ≤ fuel → clusterColorsEncode o chk ho1 ho2 M fuel n img = r := by
  obtain ⟨base, mask, hsh⟩ := htint
  have hlt := weights_bound (colorCounts_nodup hho img)
  obtain ⟨r, least, hr, h⟩ : ∃ r least, r ≠ .err () ∧ ∀ fuel, least ≤ fuel →
      cluster (colorEnv o chk) fuel (colorCounts ho1 img) n.toNat = r := by
    by_cases hne : colorCounts ho1 img = []
    · refine ⟨.panic, 0, fun h => (by cases h), fun fuel _ => ?_⟩
      rw [hne]
      simp only [cluster, Kmeans.init, initAssignment, List.length_nil, Nat.zero_div]
      split
      · rfl
      · rw [if_neg (by decide)]
        rfl
    · obtain ⟨hc, hl⟩ := shades_lower hfl chk (colorCounts_pos hho img hfit) hlt
        (fun p hp => hsh p.color ((mem_colorCounts hho img p.color).1 (List.mem_map_of_mem hp))) hne
      exact C80_ends (env := colorEnv o chk) hs (color_meanOfSome o chk) hc hl hf
  refine ⟨r >>= fun clusters => Ret.expect (reducedImg (reducedColors clusters) img) >>= fun reduced =>
    if h : reduced.pixels.length = reduced.width.toNat * reduced.height.toNat then
      .ok (hufmanEncode M ho2 (reduced.toImg h))
    else .panic, least, ?_, fun fuel hfu => ?_⟩
  · intro he
    rcases Ret.bind_err.1 he with he | ⟨cl, -, he⟩
    · exact hr he
    rcases Ret.bind_err.1 he with he | ⟨rd, -, he⟩
    · exact Ret.expect_ne_err he
    split at he <;> cases he
  · rw [clusterColorsEncode, h fuel hfu]

/-- **C80**, greyscale pictures. -/
theorem C80_grey {o : Outside} (hfl : o.fl.Lawful) (hs : IsSort o.sort) (chk : Bool)
    {ho1 : List (Rgb UInt8 × Nat) → List (Rgb UInt8 × Nat)} (hho : IsOrder ho1)
    (ho2 : List (Rgb UInt8 × Nat) → List (Rgb UInt8 × Nat)) (M : MinHeap (Rgb UInt8)) (n : UInt64) (img : Img)
    (hfit : CountsFit img) (hgrey : Grey img) (hf : Fair o.rand n.toNat) :
    ∃ r least, r ≠ .err () ∧ ∀ fuel, least ≤ fuel → clusterColorsEncode o chk ho1 ho2 M fuel n img = r := by
  refine C80_one_tint hfl hs chk hho ho2 M n img hfit ⟨⟨0, 0, 0⟩, ⟨true, true, true⟩, fun c hc => ⟨c.r.toNat, ?_⟩⟩ hf
  obtain ⟨h1, h2⟩ := hgrey c hc
  simp [h1, h2]

/-! ## Two channels -/

/-- 6 by 3 pixels in 8 colours without blue. -/
def circlingFlat : Img where
  width := 6
  height := 3
  pixels :=
    [⟨2, 1, 0, 255⟩, ⟨2, 1, 0, 255⟩, ⟨2, 1, 0, 255⟩, ⟨2, 1, 0, 255⟩, ⟨2, 1, 0, 255⟩, ⟨4, 1, 0, 255⟩,
     ⟨4, 3, 0, 255⟩, ⟨4, 4, 0, 255⟩, ⟨0, 0, 0, 255⟩, ⟨0, 2, 0, 255⟩, ⟨0, 4, 0, 255⟩, ⟨1, 1, 0, 255⟩,
     ⟨1, 1, 0, 255⟩, ⟨1, 1, 0, 255⟩, ⟨1, 1, 0, 255⟩, ⟨1, 1, 0, 255⟩, ⟨1, 1, 0, 255⟩, ⟨1, 1, 0, 255⟩]
  size := by decide

/-- Its colours with their counts. -/
def circlingFlatBase : List ColorCount :=
  [⟨⟨2, 1, 0⟩, 5⟩, ⟨⟨4, 1, 0⟩, 1⟩, ⟨⟨4, 3, 0⟩, 1⟩, ⟨⟨4, 4, 0⟩, 1⟩,
   ⟨⟨0, 0, 0⟩, 1⟩, ⟨⟨0, 2, 0⟩, 1⟩, ⟨⟨0, 4, 0⟩, 1⟩, ⟨⟨1, 1, 0⟩, 7⟩]

/-- The ways of dividing the colours that occur after the first iteration, as binary numbers. -/
def circlingFlatMarks : List (List Bool) :=
  [48, 112, 96, 104, 108, 110, 111, 207, 143, 159, 151, 147, 145, 144].map fun m => (List.range 8).map (Nat.testBit m)

/-- **C80**, two channels: shades of one tint cannot be replaced by colours that lack one channel.  Encoding this image with
two colours does not end (until the counter of iterations overflows, C87) if the hash map lists the colours in the order of
their first pixels. -/
theorem C80_two_channels {o : Outside} (hfl : o.fl.Lawful) (hs : IsSort o.sort) (hlow : 0 < o.lower 2) (chk : Bool)
    (ho2 : List (Rgb UInt8 × Nat) → List (Rgb UInt8 × Nat)) (M : MinHeap (Rgb UInt8)) (fuel : Nat) :
    (∀ c ∈ circlingFlat.rgbPixels, c.b = 0) ∧ clusterColorsEncode o chk id ho2 M fuel 2 circlingFlat = .err () := by
  have hp : colorCounts id circlingFlat = circlingFlatBase := by decide +kernel
  refine ⟨by decide, ?_⟩
  rw [clusterColorsEncode, show (2 : UInt64).toNat = 2 from rfl, hp,
    cluster_endless (color_circles_from hfl hs hlow (base := circlingFlatBase) (L := circlingFlatMarks)
      (bs := [false, false, false, false, true, true, true, true])
      (by rfl) (by rfl) rfl (by rfl) (by rfl) (by decide +kernel) (by decide +kernel)) fuel]
  rfl

/-! ## Concrete cases -/

namespace EndsExamples
open ClusterExamples

/-- Random numbers that take all values in turn. -/
theorem fair_id (n : Nat) : Fair id n := by
  intro i hi k
  refine ⟨i + n * k, ?_, ?_⟩
  · have : k ≤ n * k := Nat.le_mul_of_pos_left k (by omega)
    omega
  · rw [id, Nat.add_mul_mod_self_left, Nat.mod_eq_of_lt hi]

def outside : Outside := { out with fl := Ieee.ops, rand := id }

/-- Six pixels in five shades of grey. -/
def grey : Img where
  width := 3
  height := 2
  pixels := [⟨0, 0, 0, 255⟩, ⟨90, 90, 90, 255⟩, ⟨250, 250, 250, 255⟩, ⟨91, 91, 91, 255⟩, ⟨90, 90, 90, 255⟩, ⟨7, 7, 7, 255⟩]
  size := by decide

/-- Four pixels whose red is 20 and whose green and blue go up and down together. -/
def tinted : Img where
  width := 4
  height := 1
  pixels := [⟨20, 3, 103, 255⟩, ⟨20, 40, 140, 255⟩, ⟨20, 0, 100, 255⟩, ⟨20, 41, 141, 255⟩]
  size := by decide

/-- C80: shades of grey. -/
example : ∃ r least, r ≠ .err () ∧ ∀ fuel, least ≤ fuel →
    clusterColorsEncode outside true id id (listHeap _) fuel 3 grey = r :=
  C80_grey Ieee.lawful sortByDist_isSort true (fun _ => .refl _) id (listHeap _) 3 grey (.of_small (by decide))
    (by unfold Grey; decide) (fair_id _)

/-- C80: shades of a tint. -/
example : ∃ r least, r ≠ .err () ∧ ∀ fuel, least ≤ fuel →
    clusterColorsEncode outside true id id (listHeap _) fuel 2 tinted = r := by
  refine C80_one_tint Ieee.lawful sortByDist_isSort true (fun _ => .refl _) id (listHeap _) 2 tinted (.of_small (by decide)) ?_ (fair_id _)
  refine ⟨⟨20, 0, 100⟩, ⟨false, true, true⟩, ?_⟩
  have h : ∀ c ∈ tinted.rgbPixels, c.r.toNat = 20 ∧ c.b.toNat = 100 + c.g.toNat := by decide
  intro c hc
  obtain ⟨h1, h2⟩ := h c hc
  exact ⟨c.g.toNat, by simp [h1], by simp, by simp [h2]⟩

/-- C80: the result for the grey picture, not the best one. -/
example : (match cluster (colorEnv outside true) 9 (colorCounts id grey) 3 with
    | .ok cl => cl.assignment.map fun v => v.map fun p => (p.color.r, p.count)
    | _ => []) = [[(7, 1)], [(91, 1), (90, 2), (250, 1)], [(0, 1)]] := by decide +kernel

/-- C80: the condition on the measure holds for the points of that picture. -/
example : Lowers (colorEnv outside true).pt (fun c => IsShade ⟨0, 0, 0⟩ ⟨true, true, true⟩ c.color) (colorCounts id grey)
    (shadeCost ⟨0, 0, 0⟩ ⟨true, true, true⟩ 7) := by
  have h : ∀ p ∈ colorCounts id grey, p.color.g = p.color.r ∧ p.color.b = p.color.r := by decide +kernel
  refine (shades_lower (o := outside) Ieee.lawful true (points := colorCounts id grey) (by decide +kernel) (by decide +kernel)
    (fun p hp => ⟨p.color.r.toNat, ?_⟩) (by decide +kernel)).2
  simp [h p hp]

/-- C80, two channels: the hypotheses hold for IEEE 754 arithmetic and a stable sort. -/
example (fuel : Nat) : clusterColorsEncode outside true id id (listHeap _) fuel 2 circlingFlat = .err () :=
  (C80_two_channels Ieee.lawful sortByDist_isSort (by decide) true id (listHeap _) fuel).2

end EndsExamples
end Cniic
