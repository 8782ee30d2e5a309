/-!
# Specification vocabulary: bits of bytes

Independent of the model: bits are read off the number with `Nat.testBit`.
-/

namespace Cniic.Spec

/-- The 8 bits of a byte, most significant first. -/
def bitsMsb (n : UInt8) : List Bool := (List.range 8).map fun i => n.toNat.testBit (7 - i)

/-- The 8 bits of a byte, least significant first. -/
def bitsLsb (n : UInt8) : List Bool := (List.range 8).map fun i => n.toNat.testBit i

/-- The bits of a sequence of bytes, each byte most significant bit first. -/
def bitsOf (bs : List UInt8) : List Bool := bs.flatMap bitsMsb

example : bitsMsb 0xb2 = [true, false, true, true, false, false, true, false] := by decide

end Cniic.Spec
