import Verif.Props.AnyCodec

/-!
# The alpha channel (C73)
-/

namespace Cniic
open Spec SerSpec Kmeans

theorem getPixel_toRgb {a b : Img} (h : a.toRgb = b.toRgb) (x y : Nat) :
    (a.getPixel x y).map Rgba.toRgb = (b.getPixel x y).map Rgba.toRgb := by
  have hw : a.width = b.width := congrArg RgbImage.width h
  have hh : a.height = b.height := congrArg RgbImage.height h
  have hp : a.rgbPixels = b.rgbPixels := congrArg RgbImage.pixels h
  unfold Img.getPixel
  rw [hw, hh]
  split
  · rw [← List.getElem?_map, ← List.getElem?_map]
    exact congrArg (fun l : List (Rgb UInt8) => l[_]?) hp
  · rfl

theorem getAll_toRgb {a b : Img} (h : a.toRgb = b.toRgb) (cs : List (Nat × Nat)) :
    (getAll a cs).map (List.map Rgba.toRgb) = (getAll b cs).map (List.map Rgba.toRgb) := by
  induction cs with
  | nil => rfl
  | cons c cs ih =>
    obtain ⟨x, y⟩ := c
    have h1 := getPixel_toRgb h x y
    unfold getAll
    generalize a.getPixel x y = s at *
    generalize b.getPixel x y = t at *
    generalize getAll a cs = l at *
    generalize getAll b cs = m at *
    cases s <;> cases t <;> cases l <;> cases m <;> simp_all

theorem linearize_toRgb (scan : Scan) {a b : Img} (h : a.toRgb = b.toRgb) :
    (linearize scan a).map (List.map Rgba.toRgb) = (linearize scan b).map (List.map Rgba.toRgb) := by
  unfold linearize
  rw [show a.width = b.width from congrArg RgbImage.width h,
    show a.height = b.height from congrArg RgbImage.height h]
  exact getAll_toRgb h _

/-- Looking only at the colours of the pixels. -/
theorem bind_toRgb {β : Type} {s t : Option (List Rgba)}
    (h : s.map (List.map Rgba.toRgb) = t.map (List.map Rgba.toRgb)) (f : List (Rgb UInt8) → W β) :
    (do let l ← (orPanic s : W _); f (l.map Rgba.toRgb)) =
      (do let l ← (orPanic t : W _); f (l.map Rgba.toRgb)) := by
  cases s <;> cases t <;> simp at h
  · rfl
  · simp only [orPanic, pure_bind]
    rw [h]

/-- **C73.** Two images of the same size whose pixels differ at most in the alpha channel are encoded in the same way:
the same bytes on every writer, the same outcome on every writer that fails. -/
theorem C73_alpha (p : Setup) (fuel : Nat) (c : AnyCodec) {a b : Img} (h : a.toRgb = b.toRgb) :
    c.encode p fuel a = c.encode p fuel b := by
  have hw : a.width = b.width := congrArg RgbImage.width h
  have hh : a.height = b.height := congrArg RgbImage.height h
  have hp : a.rgbPixels = b.rgbPixels := congrArg RgbImage.pixels h
  cases c with
  | clusterColors n =>
    have h1 : colorCounts p.orderColor a = colorCounts p.orderColor b := by unfold colorCounts; rw [hp]
    have h2 : ∀ m, reducedImg m a = reducedImg m b := by intro m; unfold reducedImg; rw [hp, hw, hh]
    simp only [AnyCodec.encode, clusterColorsEncode, h1, h2]
  | voronoi n =>
    have h1 : dataPoints a = dataPoints b := by unfold dataPoints; rw [hp, hw]
    simp only [AnyCodec.encode, voronoiEncode, h1, hw, hh]
  | delta =>
    simp only [AnyCodec.encode, deltaEncode, hw, hh]
    congr 2
    funext u
    exact bind_toRgb (linearize_toRgb p.scan h) fun iter =>
      match drain (DiffStream.next p.chk) (iter.length + 1) (DiffStream.new iter) with
      | .ok items => encodeAll p.heapDiff p.orderDiff items
      | _ => Proc.panic
  | hilbert m =>
    simp only [AnyCodec.encode, hilbertEncode, hw, hh]
    congr 2
    funext u
    exact bind_toRgb (linearize_toRgb p.scan h) fun iter =>
      match m with
      | .rle d =>
        if d.isZero then forIter (AbstractRle.next Exact) serRun (iter.length + 1) (rleExact iter)
        else forIter (AbstractRle.next (Approx p.out.fl d)) serRun (iter.length + 1) (rleApprox iter)
      | .zip => do
        let bytes ← orPanic (drainBytes SerStream.next (11 * iter.length + 1) (SerStream.fromIter iter))
        zipDictEncode bytes
  | hufman => simp only [AnyCodec.encode, hufmanEncode, hw, hh, hp]
  | zip z =>
    have h1 : zipInput a = zipInput b := by unfold zipInput; rw [hp, hw, hh]
    simp only [AnyCodec.encode, zipEncode, h1]

/-- **C73**, what is lost: whatever a codec writes for an image is also what it writes for the opaque image with the
same colours.  In particular no decoder can restore the alpha channel. -/
theorem C73_opaque (p : Setup) (fuel : Nat) (c : AnyCodec) (img : Img) :
    c.encode p fuel img =
      c.encode p fuel (img.toRgb.toImg (by simp [Img.toRgb, rgbPixels_length])) := by
  apply C73_alpha
  simp only [Img.toRgb, RgbImage.toImg, Img.rgbPixels, List.map_map]
  congr 1

/-- Two pixels, one of them transparent. -/
def halfTransparent : Img := { width := 2, height := 1, pixels := [⟨1, 2, 3, 0⟩, ⟨4, 5, 6, 255⟩], size := rfl }

example : halfTransparent.toRgb = { width := 2, height := 1, pixels := [⟨1, 2, 3⟩, ⟨4, 5, 6⟩] } ∧
    halfTransparent.pixels ≠ (halfTransparent.toRgb.toImg rfl).pixels := by decide

example (p : Setup) (fuel : Nat) (c : AnyCodec) :
    c.encode p fuel halfTransparent = c.encode p fuel (halfTransparent.toRgb.toImg rfl) :=
  C73_alpha p fuel c rfl

end Cniic
