import Verif.Spec.Image
import Verif.Spec.Ser
import Verif.Model.Clusterc

/-!
# Specification: clustering codecs
-/

namespace Cniic

/-- The position, then the colour. -/
instance : SerSpec ColorPos :=
  ⟨fun _ => True, fun p => SerSpec.bytes p.x ++ SerSpec.bytes p.y ++ SerSpec.bytes p.color⟩

namespace Spec

/-- The mean colour of some pixels, each channel rounded down. -/
def floorMean (px : List (Rgb UInt8)) : Rgb UInt8 :=
  ⟨UInt8.ofNat ((px.map fun c => c.r.toNat).sum / px.length),
   UInt8.ofNat ((px.map fun c => c.g.toNat).sum / px.length),
   UInt8.ofNat ((px.map fun c => c.b.toNat).sum / px.length)⟩

/-- No colour occurs 2^32 times or more. -/
def CountsFit (img : Img) : Prop := ∀ c, img.rgbPixels.count c < 2 ^ 32

/-- Sums of coordinates of different pixels are below 2^64.  This is so for all images of fewer than 2^32 pixels. -/
def SumsFit (img : Img) : Prop :=
  img.width.toNat * img.pixels.length < 2 ^ 64 ∧ img.height.toNat * img.pixels.length < 2 ^ 64

/-- The weight of a colour: the number of its pixels, cut to 32 bits. -/
def weight (img : Img) (c : Rgb UInt8) : Nat := img.rgbPixels.count c % 2 ^ 32

/-- The mean of some colours with these weights, each channel rounded down. -/
def weightedMean (img : Img) (cs : List (Rgb UInt8)) : Rgb UInt8 :=
  ⟨UInt8.ofNat ((cs.map fun c => c.r.toNat * weight img c).sum / (cs.map (weight img)).sum),
   UInt8.ofNat ((cs.map fun c => c.g.toNat * weight img c).sum / (cs.map (weight img)).sum),
   UInt8.ofNat ((cs.map fun c => c.b.toNat * weight img c).sum / (cs.map (weight img)).sum)⟩

/-- Squared distance of a centroid from a position. -/
def sqDist (c : ColorPos) (x y : Nat) : Nat :=
  (((c.x.toNat : Int) - x) ^ 2 + ((c.y.toNat : Int) - y) ^ 2).toNat

/-- The same, as computed without overflow checks. -/
def wrappedSqDist (c : ColorPos) (x y : Nat) : Nat := sqDist c x y % 2 ^ 32

/-- The difference of two numbers. -/
def gap (a b : Nat) : Nat := (a - b) + (b - a)

/-- Squared distance of two colours. -/
def colorSq (a b : Rgb UInt8) : Nat :=
  gap a.r.toNat b.r.toNat ^ 2 + gap a.g.toNat b.g.toNat ^ 2 + gap a.b.toNat b.b.toNat ^ 2

/-- Squared distance of two pixels: of the positions and of the colours. -/
def pixelSq (a b : ColorPos) : Nat :=
  gap a.x.toNat b.x.toNat ^ 2 + gap a.y.toNat b.y.toNat ^ 2 + colorSq a.color b.color

/-- `best` is the first item of the list with the least value of `f`. -/
def IsFirstMin {α : Type} (f : α → Nat) (l : List α) (best : α) : Prop :=
  ∃ l1 l2, l = l1 ++ best :: l2 ∧ (∀ a ∈ l1, f best < f a) ∧ ∀ a ∈ l2, f best ≤ f a

/-- A voronoi file: the dimensions, the number of centroids, the centroids. -/
def voronoiBytes (w h : UInt32) (cs : List ColorPos) : List UInt8 :=
  SerSpec.bytes w ++ SerSpec.bytes h ++ le 8 cs.length ++ cs.flatMap SerSpec.bytes

end Spec
end Cniic
