import Verif.Core.Sink
import Verif.Core.Reader

/-!
# Model of `src/bit.rs`
-/

namespace Cniic

/-- `enum Bit { Zero, One }` (bit.rs:3-7): `false` is `Zero`, `true` is `One`. -/
abbrev Bit := Bool

/-- `Bit::byte` / `From<&Bit> for u8` (bit.rs:9-22). -/
def Bit.byte (b : Bit) : UInt8 := if b then 1 else 0

/-- `enum BitOrder` (bit.rs:26-37). -/
inductive BitOrder where
  | msbFirst
  | lsbFirst
  deriving Repr, DecidableEq

/-- `push_bit` (bit.rs:39-54); the `&mut u8` is returned. -/
def pushBit (n : UInt8) (b : Bit) : BitOrder → UInt8
  | .msbFirst => (n <<< 1) ||| Bit.byte b
  | .lsbFirst => (n >>> 1) ||| (Bit.byte b <<< 7)

/-- `byte_from_slice` (bit.rs:56-67). -/
def byteFromSlice (bits : List Bit) (bo : BitOrder) : Option UInt8 :=
  if bits.length ≠ 8 then none
  else some (bits.foldl (fun n b => pushBit n b bo) 0)

/-- `nth` (bit.rs:70-86).  All callers pass `idx < 8`, so the shift amount is in range (Lean's
`UInt8` shift and Rust's agree there; Rust would panic or mask for `idx ≥ 8`). -/
def nth (byte : UInt8) (idx : UInt8) (bo : BitOrder) : Bit :=
  let mask : UInt8 := match bo with
    | .lsbFirst => 1 <<< idx
    | .msbFirst => 0x80 >>> idx
  let masked := byte &&& mask
  if masked == 0 then false else true

/-- `bit_array` (bit.rs:88-100). -/
def bitArray (byte : UInt8) (bo : BitOrder) : List Bit :=
  [ nth byte 0 bo, nth byte 1 bo, nth byte 2 bo, nth byte 3 bo,
    nth byte 4 bo, nth byte 5 bo, nth byte 6 bo, nth byte 7 bo ]

/-- `bit_mask` (bit.rs:102-105). -/
def bitMask (nbits : UInt8) : UInt8 := (((1 : UInt16) <<< nbits.toUInt16) - 1).toUInt8

/-- `struct BitArray` (bit.rs:114-120). -/
structure BitArray where
  fullBytes    : List UInt8
  partialCount : UInt8
  partialByte  : UInt8
  bitOrder     : BitOrder
  deriving Repr, DecidableEq

/-- The first loop of `BitArray::from_slice` (bit.rs:128-134): packs 8 bits at a time, returning the
bytes and the bits left over.  `none` models the `unwrap` of line 130 panicking. -/
def packFull (bo : BitOrder) (bits : List Bit) : Option (List UInt8 × List Bit) :=
  if bits.length ≥ 8 then
    match byteFromSlice (bits.take 8) bo with
    | none => none
    | some b =>
      match packFull bo (bits.drop 8) with
      | none => none
      | some (bs, rest) => some (b :: bs, rest)
  else some ([], bits)
termination_by bits.length
decreasing_by simp; omega

/-- `BitArray::from_slice` (bit.rs:123-149); `none` = panic. -/
def BitArray.fromSlice (bits : List Bit) (bo : BitOrder) : Option BitArray :=
  match packFull bo bits with
  | none => none
  | some (bs, rest) =>
    some { fullBytes := bs
           partialCount := UInt8.ofNat rest.length
           partialByte := rest.foldl (fun n b => pushBit n b bo) 0
           bitOrder := bo }

/-- `BitArray::len` (bit.rs:151-153). -/
def BitArray.len (a : BitArray) : Nat := a.fullBytes.length * 8 + a.partialCount.toNat

/-- `struct IoBitWriter` (bit.rs:186-191) without the underlying writer, which is the `Sink`. -/
structure BitWriter where
  currBits : UInt8
  bitCount : UInt8
  bitOrder : BitOrder
  deriving Repr, DecidableEq

/-- `IoBitWriter::new` (bit.rs:194-201). -/
def BitWriter.new (bo : BitOrder) : BitWriter := { currBits := 0, bitCount := 0, bitOrder := bo }

/-- `IoBitWriter::write` (bit.rs:210-220).  The updated struct is returned; on an I/O error it is
dropped, as every caller panics or returns on such an error. -/
def BitWriter.write (w : BitWriter) (b : Bit) : W BitWriter :=
  let curr := pushBit w.currBits b w.bitOrder
  let count := w.bitCount + 1
  if count == 8 then do
    writeAll [curr]
    pure { w with currBits := curr, bitCount := 0 }
  else
    pure { w with currBits := curr, bitCount := count }

/-- `IoBitWriter::write_byte` (bit.rs:222-240). -/
def BitWriter.writeByte (w : BitWriter) (n : UInt8) : W BitWriter :=
  if w.bitCount == 0 then do
    writeAll [n]
    pure w
  else do
    Proc.assert (w.bitOrder == .msbFirst)
    let msb := w.currBits <<< (8 - w.bitCount)
    let lsb := n >>> w.bitCount
    let completedByte := msb ||| lsb
    writeAll [completedByte]
    pure { w with currBits := n &&& bitMask w.bitCount }

/-- `IoBitWriter::pad_and_flush` (bit.rs:243-253). -/
def BitWriter.padAndFlush (w : BitWriter) : W BitWriter :=
  if w.bitCount != 0 then do
    let curr := w.currBits <<< (8 - w.bitCount)
    writeAll [curr]
    flush
    pure { w with currBits := 0, bitCount := 0 }
  else do
    flush
    pure w

/-- First loop of `write_arr` (bit.rs:165-167). -/
def BitWriter.writeBytes (w : BitWriter) : List UInt8 → W BitWriter
  | [] => pure w
  | b :: bs => do
    let w ← w.writeByte b
    w.writeBytes bs

/-- Second loop of `write_arr` (bit.rs:174-176), over the list of bit indices `starting_bit..8`. -/
def BitWriter.writeIdx (w : BitWriter) (byte : UInt8) (bo : BitOrder) : List Nat → W BitWriter
  | [] => pure w
  | j :: js => do
    let w ← w.write (nth byte (UInt8.ofNat j) bo)
    w.writeIdx byte bo js

/-- `WriteBit::write_arr` (bit.rs:164-178). -/
def BitWriter.writeArr (w : BitWriter) (arr : BitArray) : W BitWriter := do
  let w ← w.writeBytes arr.fullBytes
  let startingBit : UInt8 := 8 - arr.partialCount
  w.writeIdx arr.partialByte arr.bitOrder
    (List.range' startingBit.toNat (8 - startingBit.toNat))

/-- State of the iterator made by `bit_reader` (bit.rs:256-259), a `FlatMap`: bits of the byte being
read, then the bytes not read yet. -/
structure BitReader where
  front : List Bit
  bytes : List UInt8
  deriving Repr, DecidableEq

/-- `bit_reader(bytes, bo)` (bit.rs:256-259). -/
def bitReader (bytes : List UInt8) : BitReader := { front := [], bytes := bytes }

/-- `next` of the iterator of `bit_reader` (bit.rs:256-259): bytes are pulled lazily. -/
def BitReader.next (bo : BitOrder) : Rd BitReader Bit := fun r =>
  match r.front with
  | b :: bs => (.ok b, { r with front := bs })
  | [] =>
    match r.bytes with
    | [] => (.err (), r)
    | n :: ns =>
      match bitArray n bo with
      | [] => (.err (), { front := [], bytes := ns })  -- impossible: 8 bits
      | b :: bs => (.ok b, { front := bs, bytes := ns })

end Cniic
