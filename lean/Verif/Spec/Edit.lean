import Verif.Spec.Decode

/-! # Specification: files edited without decoding them -/

namespace Cniic

/-- The tree with every leaf replaced. -/
def BinTrie.mapLeaves {T U : Type} (f : T → U) : BinTrie T → BinTrie U
  | .leaf v => .leaf (f v)
  | .branch l r => .branch (l.mapLeaves f) (r.mapLeaves f)

/-- The picture with every colour replaced. -/
def RgbImage.recolor (f : Rgb UInt8 → Rgb UInt8) (x : RgbImage) : RgbImage := { x with pixels := x.pixels.map f }

namespace Spec

/-- What a decoder says, with every colour of the picture replaced. -/
def recolored (f : Rgb UInt8 → Rgb UInt8) : Ret Unit RgbImage → Ret Unit RgbImage
  | .ok x => .ok (x.recolor f)
  | .err e => .err e
  | .panic => .panic

/-- The coloured point with another colour. -/
def recolorPoint (f : Rgb UInt8 → Rgb UInt8) (c : ColorPos) : ColorPos := { c with color := f c.color }

/-- The part at the top left of the picture, `w` wide and `h` high. -/
def cropped (w h : UInt32) (x : RgbImage) : RgbImage :=
  { width := w, height := h
    pixels := (cells w.toNat h.toNat).map fun c => (x.pixels[c.2 * x.width.toNat + c.1]?).getD black }

end Spec
end Cniic
