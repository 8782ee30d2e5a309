import Verif.Spec.Approx
import Verif.Spec.Bench

/-! # Specification: how far a decoded picture is from the original on average -/

namespace Cniic.Spec

/-- The squared error of the picture in which every pixel has the colour `c`, which need not be made of integers. -/
def deviation (xs : List (Rgb UInt8)) (c : Rgb Rat) : Rat :=
  (xs.map fun x => ((x.r.toNat : Rat) - c.r) ^ 2 + ((x.g.toNat : Rat) - c.g) ^ 2 + ((x.b.toNat : Rat) - c.b) ^ 2).sum

/-- In each channel, `ys` is darker than `xs` by less than one level on average (or not at all). -/
def SlightlyDarker (xs ys : List (Rgb UInt8)) : Prop :=
  ∀ ch : Rgb UInt8 → UInt8, ch = (·.r) ∨ ch = (·.g) ∨ ch = (·.b) →
    chanSum ch ys ≤ chanSum ch xs ∧ (xs ≠ [] → chanSum ch xs < chanSum ch ys + xs.length)

/-- In each channel, `ys` differs from `xs` by at most half a level on average. -/
def SameBrightness (xs ys : List (Rgb UInt8)) : Prop :=
  ∀ ch : Rgb UInt8 → UInt8, ch = (·.r) ∨ ch = (·.g) ∨ ch = (·.b) →
    2 * chanSum ch ys ≤ 2 * chanSum ch xs + xs.length ∧ 2 * chanSum ch xs ≤ 2 * chanSum ch ys + xs.length

end Cniic.Spec
