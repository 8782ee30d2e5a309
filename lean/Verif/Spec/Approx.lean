import Verif.Core.FloatLaws
import Verif.Spec.Image

/-!
# Specification: approximate runs

Everything here is exact arithmetic on rational and natural numbers.
-/

namespace Cniic.Spec

/-- Sum of a channel over some pixels. -/
def chanSum (ch : Rgb UInt8 → UInt8) (g : List (Rgb UInt8)) : Nat := (g.map fun c => (ch c).toNat).sum

/-- The mean of a channel. -/
def chanMean (ch : Rgb UInt8 → UInt8) (g : List (Rgb UInt8)) : Rat := (chanSum ch g : Rat) / g.length

/-- `s / n` rounded to the nearest integer, half-way cases up. -/
def roundedDiv (s n : Nat) : Nat := (2 * s + n) / (2 * n)

/-- The mean colour of some pixels, each channel rounded to nearest. -/
def meanColor (g : List (Rgb UInt8)) : Rgb UInt8 :=
  ⟨UInt8.ofNat (roundedDiv (chanSum (·.r) g) g.length), UInt8.ofNat (roundedDiv (chanSum (·.g) g) g.length),
    UInt8.ofNat (roundedDiv (chanSum (·.b) g) g.length)⟩

/-- The exact mean colour. -/
def meanExact (g : List (Rgb UInt8)) : Rgb Rat := ⟨chanMean (·.r) g, chanMean (·.g) g, chanMean (·.b) g⟩

/-- The colours are at most `d` apart (Euclidean distance). -/
structure Near (a b : Rgb Rat) (d : Rat) : Prop where
  le : (a.r - b.r) ^ 2 + (a.g - b.g) ^ 2 + (a.b - b.b) ^ 2 ≤ d ^ 2

/-- The colour as numbers. -/
def exactColor (c : Rgb UInt8) : Rgb Rat := ⟨c.r.toNat, c.g.toNat, c.b.toNat⟩

/-- `1/2 + 1/3 + ... + 1/n`. -/
def harm : Nat → Rat
  | 0 => 0
  | 1 => 0
  | n + 2 => harm (n + 1) + 1 / ((n : Rat) + 2)

/-- The colour of a decoded image at a cell. -/
def pixelAt (img : RgbImage) (c : Nat × Nat) : Option (Rgb UInt8) := img.pixels[c.2 * img.width.toNat + c.1]?

/-- Each pixel of a group replaced by the mean colour of the group. -/
def averaged (groups : List (List (Rgb UInt8))) : List (Rgb UInt8) :=
  groups.flatMap fun g => List.replicate g.length (meanColor g)

end Cniic.Spec
