import Verif.Model.Bit
import Verif.Spec.Bits

/-!
# Bit writers without the mask, and least significant bit first
-/

namespace Cniic.Spec

/-- `write_byte` (bit.rs:222-240) as its comment suggests: without the masking in line 236. -/
def writeByteUnmasked (w : BitWriter) (n : UInt8) : W BitWriter :=
  if w.bitCount == 0 then do
    writeAll [n]
    pure w
  else do
    Proc.assert (w.bitOrder == .msbFirst)
    writeAll [w.currBits <<< (8 - w.bitCount) ||| n >>> w.bitCount]
    pure { w with currBits := n }

/-- The calls that a writer gets: bits, bytes, and arrays as in `write_arr` (bit.rs:164-178). -/
inductive AnyOp where
  | bit (b : Bool)
  | byte (n : UInt8)
  | arr (a : BitArray)

/-- `write_arr` does its bytes one by one and then its last bits. -/
def AnyOp.split : AnyOp → List (Bool ⊕ UInt8)
  | .bit b => [.inl b]
  | .byte n => [.inr n]
  | .arr a => a.fullBytes.map .inr ++ (List.range' (8 - a.partialCount).toNat (8 - (8 - a.partialCount).toNat)).map fun j =>
      .inl (nth a.partialByte (UInt8.ofNat j) a.bitOrder)

/-- Writing bits and bytes with a given `write_byte`. -/
def writeMixed (writeByte : BitWriter → UInt8 → W BitWriter) (w : BitWriter) : List (Bool ⊕ UInt8) → W BitWriter
  | [] => pure w
  | .inl b :: ops => do
    let w ← w.write b
    writeMixed writeByte w ops
  | .inr n :: ops => do
    let w ← writeByte w n
    writeMixed writeByte w ops

/-- Writing single bits. -/
def writeBits (w : BitWriter) : List Bool → W BitWriter
  | [] => pure w
  | b :: bs => do
    let w ← w.write b
    writeBits w bs

end Cniic.Spec
