import Verif.Spec.Approx

/-!
# Specification: the allowance of approximate runs
-/

namespace Cniic.Spec

/-- A shade of red. -/
def shade (r : UInt8) : Rgb UInt8 := ⟨r, 0, 0⟩

/-- `n` pairs of pixels of the shades 50 and 20, one after the other. -/
def pairs5020 : Nat → List (Rgb UInt8)
  | 0 => []
  | n + 1 => shade 50 :: shade 20 :: pairs5020 n

/-- A block of 255 pixels: the shade 30 and then 127 pairs of the shades 50 and 20. -/
def teethBlock : List (Rgb UInt8) := shade 30 :: pairs5020 127

/-- The shades 0 and 14 and then `m` blocks. -/
def teeth (m : Nat) : List (Rgb UInt8) := shade 0 :: shade 14 :: (List.replicate m teethBlock).flatten

end Cniic.Spec
