import Verif.Proofs.Bit

/-!
# Properties of the bit-level writer and reader (C01, C02, C03)
-/

namespace Cniic
open Spec

/-- One call on an MSB-first bit writer. -/
inductive BitOp where
  | bit (b : Bool)
  | byte (n : UInt8)
  | arr (bits : List Bool)   -- `write_arr(&BitArray::from_slice(bits, MsbFirst))`

/-- The bits that the call is asked to write. -/
def BitOp.bits : BitOp → List Bool
  | .bit b => [b]
  | .byte n => bitsMsb n
  | .arr bits => bits

/-- Performing the call (bit.rs:210-240 and 164-178, with 123-149 for the array). -/
def BitOp.run (w : BitWriter) : BitOp → W BitWriter
  | .bit b => w.write b
  | .byte n => w.writeByte n
  | .arr bits =>
    match BitArray.fromSlice bits .msbFirst with
    | none => Proc.panic
    | some a => w.writeArr a

/-- Performing several calls in a row. -/
def runOps (w : BitWriter) : List BitOp → W BitWriter
  | [] => pure w
  | op :: ops => do
    let w ← op.run w
    runOps w ops

theorem appends_op {w : BitWriter} (h : w.Ok) (op : BitOp) : w.Appends (op.run w) op.bits := by
  cases op with
  | bit b => exact BitWriter.appends_write h b
  | byte n => exact BitWriter.appends_writeByte h n
  | arr bits =>
    obtain ⟨a, ha, _, hw⟩ := fromSlice_msb bits
    simp only [BitOp.run, ha]
    exact hw w h

theorem appends_runOps {w : BitWriter} (h : w.Ok) (ops : List BitOp) :
    w.Appends (runOps w ops) (ops.flatMap BitOp.bits) := by
  induction ops generalizing w with
  | nil => exact BitWriter.Appends.pure h
  | cons op ops ih => exact BitWriter.Appends.bind (appends_op h op) fun w' hw => ih hw

/-- **C01.** Any sequence of writes followed by `pad_and_flush`, on any device: either all bytes
arrive and they spell exactly the bits that were written followed by fewer than 8 zero bits, which is
also what the bit reader gives back; or a device fault is reported and what arrived is a prefix. -/
theorem C01_bit_writer_faithful (ops : List BitOp) :
    ∃ out w' k,
      Emits Emits.errOnly (do let w ← runOps (BitWriter.new .msbFirst) ops; w.padAndFlush) out w' ∧
      k < 8 ∧
      bitsOf out = ops.flatMap BitOp.bits ++ List.replicate k false ∧
      Yields (BitReader.next .msbFirst) (bitReader out)
        (ops.flatMap BitOp.bits ++ List.replicate k false) := by
  obtain ⟨o1, w1, e1, k1, p1⟩ := appends_runOps BitWriter.ok_new ops
  obtain ⟨o2, w2, k, e2, hk, _, _, p2⟩ := BitWriter.emits_padAndFlush k1
  rw [BitWriter.pending_new, List.nil_append] at p1
  have hb : bitsOf (o1 ++ o2) = ops.flatMap BitOp.bits ++ List.replicate k false := by
    rw [show bitsOf (o1 ++ o2) = bitsOf o1 ++ bitsOf o2 by simp [bitsOf], p2, p1,
      List.append_assoc]
  exact ⟨o1 ++ o2, w2, k, e1.bind e2, hk, hb, by rw [← hb]; exact yields_bitReader _⟩

/-- Non-trivial instance of C01: 3 bits, a byte and a 9-bit array, at unaligned positions. -/
example : ∃ n, (do let w ← runOps (BitWriter.new .msbFirst)
                     [.bit false, .bit true, .bit false, .byte 0xf0,
                      .arr [true, true, true, true, false, false, false, false, true]]
                   w.padAndFlush : W BitWriter) Sink.mem =
    (.ok ⟨0, 0, .msbFirst⟩, { Sink.mem [0x5e, 0x1e, 0x10] with calls := n }) := by
  have h : BitArray.fromSlice [true, true, true, true, false, false, false, false, true] .msbFirst
      = some ⟨[0xf0], 1, 1, .msbFirst⟩ := by
    simp [BitArray.fromSlice, packFull, byteFromSlice]; decide
  refine ⟨4, ?_⟩
  simp only [runOps, BitOp.run, h]
  rfl

/-- The padding bits cannot be told from data: the same output arises from different inputs, so the
number of bits must be known to the reader. -/
theorem C01_padding_is_ambiguous :
    bytesOf (do let w ← runOps (BitWriter.new .msbFirst) [.bit true]; w.padAndFlush) =
    bytesOf (do let w ← runOps (BitWriter.new .msbFirst) [.bit true, .bit false]; w.padAndFlush) :=
  rfl

/-- The restriction to MSB-first is necessary: an LSB-first writer loses bits when padding.  One
`One` bit is written, the byte that comes out has no bit set. -/
theorem C01_lsb_writer_loses_bits :
    bytesOf (do let w ← (BitWriter.new .lsbFirst).write true; w.padAndFlush) = .ok [0] ∧
    Yields (BitReader.next .lsbFirst) (bitReader [0]) (List.replicate 8 false) :=
  ⟨rfl, yields_bitReader_aux .lsbFirst [] [0]⟩

/-- ... and an unaligned `write_byte` on an LSB-first writer panics, whatever the byte. -/
theorem C01_lsb_unaligned_byte_panics (b : Bit) (n : UInt8) :
    bytesOf (do let w ← (BitWriter.new .lsbFirst).write b; w.writeByte n) = .panic := rfl

/-- **C02.** Packing never panics, keeps the number of bits, and writing the array with an MSB-first
writer in any state emits exactly the bits: those pending before, then these, are those that reached
the device and those pending after. -/
theorem C02_bit_array_keeps_bits (bits : List Bool) :
    ∃ a, BitArray.fromSlice bits .msbFirst = some a ∧ a.len = bits.length ∧
      ∀ w : BitWriter, w.bitOrder = .msbFirst → w.bitCount < 8 →
        ∃ out w', Emits Emits.errOnly (w.writeArr a) out w' ∧
          w'.bitOrder = .msbFirst ∧ w'.bitCount < 8 ∧
          (bitsMsb w.currBits).drop (8 - w.bitCount.toNat) ++ bits =
            bitsOf out ++ (bitsMsb w'.currBits).drop (8 - w'.bitCount.toNat) := by
  obtain ⟨a, h1, h2, h3⟩ := fromSlice_msb bits
  refine ⟨a, h1, h2, fun w ho hc => ?_⟩
  obtain ⟨out, w', e, hk, hp⟩ := h3 w ⟨hc, ho⟩
  exact ⟨out, w', e, hk.order, hk.count, hp⟩

example : (BitArray.fromSlice [true, true, true, true, false, false, false, false, true] .msbFirst)
    = some ⟨[0xf0], 1, 1, .msbFirst⟩ := by
  simp [BitArray.fromSlice, packFull, byteFromSlice]; decide

example : let w : BitWriter := ⟨0x05, 3, .msbFirst⟩
    w.bitOrder = .msbFirst ∧ w.bitCount < 8 := by decide

/-- **C03**, splitting: `bit_array` gives the bits of the byte in the order asked for, and
`byte_from_slice` puts them back together. -/
theorem C03_split_join (n : UInt8) :
    bitArray n .msbFirst = bitsMsb n ∧ bitArray n .lsbFirst = bitsLsb n ∧
    byteFromSlice (bitArray n .msbFirst) .msbFirst = some n ∧
    byteFromSlice (bitArray n .lsbFirst) .lsbFirst = some n := by
  refine ⟨bitArray_msb n, bitArray_lsb n, ?_, ?_⟩
  · revert n; exact u8_forall (by decide +kernel)
  · revert n; exact u8_forall (by decide +kernel)

/-- **C03**, joining: 8 bits make a byte that splits back into them; any other number is refused. -/
theorem C03_join_split (bits : List Bool) (bo : BitOrder) :
    (bits.length = 8 → ∃ n, byteFromSlice bits bo = some n ∧ bitArray n bo = bits) ∧
    (bits.length ≠ 8 → byteFromSlice bits bo = none) := by
  refine ⟨fun h => ?_, fun h => by simp [byteFromSlice, h]⟩
  cases bo with
  | msbFirst =>
    obtain ⟨n, h1, h2⟩ := byteFromSlice_msb h
    exact ⟨n, h1, by rw [bitArray_msb, h2]⟩
  | lsbFirst =>
    obtain ⟨n, h1, h2⟩ := byteFromSlice_lsb h
    exact ⟨n, h1, by rw [bitArray_lsb, h2]⟩

example : byteFromSlice [true, false, true, true, false, false, true, false] .lsbFirst = some 0x4d :=
  by decide

end Cniic
