import Verif.Model.Bit
import Verif.Spec.Bits

/-!
# Lemmas about the bit writer
-/

namespace Cniic
open Spec

theorem u8_forall {p : UInt8 → Prop} (h : ∀ i : Fin 256, p (UInt8.ofFin i)) (x : UInt8) : p x := by
  have := h x.toFin; simpa using this

@[simp] theorem bitsMsb_length (n : UInt8) : (bitsMsb n).length = 8 := by simp [bitsMsb]

theorem bitArray_msb (n : UInt8) : bitArray n .msbFirst = bitsMsb n := by
  revert n; exact u8_forall (by decide +kernel)

theorem bitArray_lsb (n : UInt8) : bitArray n .lsbFirst = bitsLsb n := by
  revert n; exact u8_forall (by decide +kernel)

theorem bitsMsb_push (n : UInt8) (b : Bit) :
    bitsMsb (pushBit n b .msbFirst) = (bitsMsb n).tail ++ [b] := by
  revert n; cases b <;> exact u8_forall (by decide +kernel)

theorem bitsLsb_push (n : UInt8) (b : Bit) :
    bitsLsb (pushBit n b .lsbFirst) = (bitsLsb n).tail ++ [b] := by
  revert n; cases b <;> exact u8_forall (by decide +kernel)

theorem bitsMsb_or (x y : UInt8) :
    bitsMsb (x ||| y) = List.zipWith (· || ·) (bitsMsb x) (bitsMsb y) := by
  simp [bitsMsb, List.range_succ]

theorem bitsMsb_shl (n : UInt8) (k : Fin 8) :
    bitsMsb (n <<< (8 - UInt8.ofNat (k.val + 1))) =
      (bitsMsb n).drop (7 - k.val) ++ List.replicate (7 - k.val) false := by
  revert k; revert n; exact u8_forall (by decide +kernel)

theorem bitsMsb_shr (n : UInt8) (k : Fin 7) :
    bitsMsb (n >>> UInt8.ofNat (k.val + 1)) =
      List.replicate (k.val + 1) false ++ (bitsMsb n).take (7 - k.val) := by
  revert k; revert n; exact u8_forall (by decide +kernel)

theorem bitsMsb_mask (n : UInt8) (k : Fin 8) :
    (bitsMsb (n &&& bitMask (UInt8.ofNat (k.val + 1)))).drop (7 - k.val) =
      (bitsMsb n).drop (7 - k.val) := by
  revert k; revert n; exact u8_forall (by decide +kernel)

theorem bitsMsb_inj {m n : UInt8} (h : bitsMsb m = bitsMsb n) : m = n := by
  have h1 : ∀ n : UInt8, byteFromSlice (bitsMsb n) .msbFirst = some n :=
    u8_forall (by decide +kernel)
  have := h1 m
  rw [h, h1 n] at this
  exact (Option.some.inj this).symm

theorem zipWith_or_false_left (l : List Bool) :
    List.zipWith (· || ·) (List.replicate l.length false) l = l := by
  induction l with
  | nil => rfl
  | cons x xs ih => simp [List.replicate_succ, ih]

theorem zipWith_or_false_right (l : List Bool) :
    List.zipWith (· || ·) l (List.replicate l.length false) = l := by
  induction l with
  | nil => rfl
  | cons x xs ih => simp [List.replicate_succ, ih]

/-- The byte completed by an unaligned `write_byte`. -/
theorem bitsMsb_complete (c n : UInt8) (k : Fin 7) :
    bitsMsb ((c <<< (8 - UInt8.ofNat (k.val + 1))) ||| (n >>> UInt8.ofNat (k.val + 1))) =
      (bitsMsb c).drop (7 - k.val) ++ (bitsMsb n).take (7 - k.val) := by
  rw [bitsMsb_or, bitsMsb_shl c ⟨k.val, by omega⟩, bitsMsb_shr]
  rw [List.zipWith_append (by simp; omega)]
  congr 1
  · have := zipWith_or_false_right ((bitsMsb c).drop (7 - k.val))
    rwa [show ((bitsMsb c).drop (7 - k.val)).length = k.val + 1 by simp; omega] at this
  · have := zipWith_or_false_left ((bitsMsb n).take (7 - k.val))
    rwa [show ((bitsMsb n).take (7 - k.val)).length = 7 - k.val by simp; omega] at this

/-! ## Folding bits into a byte -/

theorem bitsMsb_fold (bits : List Bit) (n : UInt8) (h : bits.length ≤ 8) :
    bitsMsb (bits.foldl (fun n b => pushBit n b .msbFirst) n) =
      (bitsMsb n).drop bits.length ++ bits := by
  induction bits generalizing n with
  | nil => simp
  | cons b bs ih =>
    simp only [List.length_cons] at h
    rw [List.foldl_cons, ih _ (by omega), bitsMsb_push]
    rw [List.drop_append_of_le_length (by simp; omega)]
    simp [List.drop_tail, List.length_cons]

theorem bitsLsb_fold (bits : List Bit) (n : UInt8) (h : bits.length ≤ 8) :
    bitsLsb (bits.foldl (fun n b => pushBit n b .lsbFirst) n) =
      (bitsLsb n).drop bits.length ++ bits := by
  induction bits generalizing n with
  | nil => simp
  | cons b bs ih =>
    simp only [List.length_cons] at h
    rw [List.foldl_cons, ih _ (by omega), bitsLsb_push]
    rw [List.drop_append_of_le_length (by simp [bitsLsb]; omega)]
    simp [List.drop_tail, List.length_cons]

theorem byteFromSlice_msb {bits : List Bit} (h : bits.length = 8) :
    ∃ n, byteFromSlice bits .msbFirst = some n ∧ bitsMsb n = bits := by
  refine ⟨_, by simp [byteFromSlice, h]; rfl, ?_⟩
  rw [bitsMsb_fold _ _ (by omega), List.drop_of_length_le (by simp [h]), List.nil_append]

theorem byteFromSlice_lsb {bits : List Bit} (h : bits.length = 8) :
    ∃ n, byteFromSlice bits .lsbFirst = some n ∧ bitsLsb n = bits := by
  refine ⟨_, by simp [byteFromSlice, h]; rfl, ?_⟩
  rw [bitsLsb_fold _ _ (by omega), List.drop_of_length_le (by simp [h, bitsLsb]), List.nil_append]

/-! ## The writer invariant -/

namespace BitWriter

/-- The bits accepted but not handed to the device yet. -/
def pending (w : BitWriter) : List Bool := (bitsMsb w.currBits).drop (8 - w.bitCount.toNat)

/-- Reachable states of an MSB-first writer. -/
structure Ok (w : BitWriter) : Prop where
  count : w.bitCount.toNat < 8
  order : w.bitOrder = .msbFirst

theorem pending_length {w : BitWriter} (h : w.Ok) : w.pending.length = w.bitCount.toNat := by
  have := h.count; simp [pending]; omega

theorem ok_new : (BitWriter.new .msbFirst).Ok := ⟨by decide, rfl⟩

theorem pending_new : (BitWriter.new .msbFirst).pending = [] := by decide

/-- Contract of a writer operation that appends `bits`. -/
def Appends (w : BitWriter) (m : W BitWriter) (bits : List Bool) : Prop :=
  ∃ out w', Emits Emits.errOnly m out w' ∧ w'.Ok ∧ w.pending ++ bits = bitsOf out ++ w'.pending

theorem Appends.bind {w : BitWriter} {m : W BitWriter} {f : BitWriter → W BitWriter}
    {b1 b2 : List Bool} (h1 : w.Appends m b1)
    (h2 : ∀ w' : BitWriter, w'.Ok → w'.Appends (f w') b2) : w.Appends (m >>= f) (b1 ++ b2) := by
  obtain ⟨o1, w1, e1, k1, p1⟩ := h1
  obtain ⟨o2, w2, e2, k2, p2⟩ := h2 w1 k1
  refine ⟨o1 ++ o2, w2, e1.bind e2, k2, ?_⟩
  rw [← List.append_assoc, p1, List.append_assoc, p2]
  simp [bitsOf]

theorem Appends.pure {w : BitWriter} (h : w.Ok) : w.Appends (Pure.pure w) [] :=
  ⟨[], w, Emits.pure w, h, by simp [bitsOf]⟩

theorem appends_write {w : BitWriter} (h : w.Ok) (b : Bit) : w.Appends (w.write b) [b] := by
  have hc := h.count
  have hadd : (w.bitCount + 1).toNat = w.bitCount.toNat + 1 := by
    rw [UInt8.toNat_add]; simp; omega
  unfold write
  rw [h.order]
  by_cases h8 : w.bitCount + 1 = 8
  · have h7 : w.bitCount.toNat = 7 := by
      have : (w.bitCount + 1).toNat = 8 := by rw [h8]; rfl
      omega
    simp only [h8, beq_self_eq_true, if_true]
    refine ⟨_, _, Emits.bind (Emits.writeAll _) (Emits.pure _), ⟨by simp, rfl⟩, ?_⟩
    simp only [pending, bitsOf, List.flatMap_cons, List.flatMap_nil, List.append_nil, bitsMsb_push,
      h7]
    have h0 : ∀ l : List Bool, l.length = 8 → l.drop (8 - (0 : UInt8).toNat) = [] :=
      fun l hl => List.drop_of_length_le (by simp [hl])
    rw [h0 _ (by simp)]
    simp
  · have hne : ((w.bitCount + 1) == 8) = false := by simpa using h8
    simp only [hne]
    refine ⟨[], _, Emits.pure _, ⟨?_, rfl⟩, ?_⟩
    · have : (w.bitCount + 1).toNat ≠ 8 := fun hh => h8 (by
        apply UInt8.toNat_inj.1; simpa using hh)
      simp only []; omega
    · simp only [pending, bitsOf, List.flatMap_nil, List.nil_append, bitsMsb_push, hadd]
      rw [List.drop_append_of_le_length (by simp), List.drop_tail]
      congr 2; omega

theorem appends_writeByte {w : BitWriter} (h : w.Ok) (n : UInt8) :
    w.Appends (w.writeByte n) (bitsMsb n) := by
  have hc := h.count
  unfold writeByte
  by_cases h0 : w.bitCount = 0
  · simp only [h0, beq_self_eq_true, if_true]
    refine ⟨_, _, Emits.bind (Emits.writeAll _) (Emits.pure _), h, ?_⟩
    simp [pending, bitsOf, h0, List.drop_of_length_le]
  · have hne : (w.bitCount == 0) = false := by simpa using h0
    have hpos : w.bitCount.toNat ≠ 0 := fun hh => h0 (by apply UInt8.toNat_inj.1; simpa using hh)
    simp only [hne, h.order, beq_self_eq_true, Proc.assert_true, pure_bind]
    let k : Fin 7 := ⟨w.bitCount.toNat - 1, by omega⟩
    have hk : w.bitCount = UInt8.ofNat (k.val + 1) := by
      apply UInt8.toNat_inj.1; simp [k]; omega
    refine ⟨_, _, Emits.bind (Emits.writeAll _) (Emits.pure _), ⟨hc, rfl⟩, ?_⟩
    have hcount : w.bitCount.toNat = k.val + 1 := by simp [k]; omega
    simp only [pending, bitsOf, List.flatMap_cons, List.flatMap_nil, List.append_nil]
    rw [hcount]
    rw [hk, bitsMsb_complete, show 8 - (k.val + 1) = 7 - k.val by omega,
      bitsMsb_mask n ⟨k.val, by omega⟩, List.append_assoc, List.take_append_drop]

theorem appends_writeBytes {w : BitWriter} (h : w.Ok) (bs : List UInt8) :
    w.Appends (w.writeBytes bs) (bitsOf bs) := by
  induction bs generalizing w with
  | nil => exact Appends.pure h
  | cons b bs ih => exact Appends.bind (appends_writeByte h b) fun w' hw => ih hw

theorem appends_writeIdx {w : BitWriter} (h : w.Ok) (byte : UInt8) (bo : BitOrder) (js : List Nat) :
    w.Appends (w.writeIdx byte bo js) (js.map fun j => nth byte (UInt8.ofNat j) bo) := by
  induction js generalizing w with
  | nil => exact Appends.pure h
  | cons j js ih =>
    exact Appends.bind (b1 := [_]) (appends_write h _) fun w' hw => ih hw

/-- The padding: fewer than 8 zero bits. -/
theorem emits_padAndFlush {w : BitWriter} (h : w.Ok) :
    ∃ out w' k, Emits Emits.errOnly w.padAndFlush out w' ∧ k < 8 ∧
      w'.Ok ∧ w'.pending = [] ∧ bitsOf out = w.pending ++ List.replicate k false := by
  have hc := h.count
  unfold padAndFlush
  by_cases h0 : w.bitCount = 0
  · have : (w.bitCount != 0) = false := by simp [h0]
    simp only [this]
    refine ⟨_, _, 0, Emits.bind Emits.flush (Emits.pure _), by omega, h, ?_, ?_⟩
    · simp [pending, h0]
    · simp [bitsOf, pending, h0]
  · have hne : (w.bitCount != 0) = true := by simpa using h0
    have hpos : w.bitCount.toNat ≠ 0 := fun hh => h0 (by apply UInt8.toNat_inj.1; simpa using hh)
    simp only [hne, if_true]
    let k : Fin 8 := ⟨w.bitCount.toNat - 1, by omega⟩
    have hk : w.bitCount = UInt8.ofNat (k.val + 1) := by
      apply UInt8.toNat_inj.1; simp [k]; omega
    have hcount : w.bitCount.toNat = k.val + 1 := by simp [k]; omega
    refine ⟨_, _, 7 - k.val,
      Emits.bind (Emits.writeAll _) (Emits.bind Emits.flush (Emits.pure _)), by omega,
      ⟨by simp, h.order⟩, by simp [pending, List.drop_of_length_le], ?_⟩
    simp only [pending, bitsOf, List.append_nil, List.flatMap_cons, List.flatMap_nil]
    rw [hcount, hk, bitsMsb_shl, show 8 - (k.val + 1) = 7 - k.val by omega]

end BitWriter

/-! ## Bit arrays -/

theorem packFull_msb (bits : List Bit) :
    ∃ bs rest, packFull .msbFirst bits = some (bs, rest) ∧ rest.length < 8 ∧
      bits = bitsOf bs ++ rest := by
  fun_induction packFull .msbFirst bits with
  | case1 bits hlen hnone =>
    obtain ⟨n, hn, _⟩ := byteFromSlice_msb (bits := bits.take 8) (by simp; omega)
    simp [hn] at hnone
  | case2 bits hlen b hb hnone ih =>
    obtain ⟨bs, rest, h, _⟩ := ih; simp [h] at hnone
  | case3 bits hlen b hb bs rest hpack ih =>
    obtain ⟨bs', rest', h1, h2, h3⟩ := ih
    rw [hpack] at h1; cases h1
    obtain ⟨n, hn, hbits⟩ := byteFromSlice_msb (bits := bits.take 8) (by simp; omega)
    rw [hb] at hn; cases hn
    refine ⟨_, _, rfl, h2, ?_⟩
    rw [bitsOf, List.flatMap_cons, hbits, List.append_assoc]
    show bits = List.take 8 bits ++ (bitsOf bs ++ rest)
    rw [← h3, List.take_append_drop]
  | case4 bits hlen => exact ⟨[], bits, rfl, by omega, by simp [bitsOf]⟩

theorem partial_bits (rest : List Bit) (h : rest.length < 8) :
    ((List.range' (8 - UInt8.ofNat rest.length).toNat (8 - (8 - UInt8.ofNat rest.length).toNat)).map
      fun j => nth (rest.foldl (fun n b => pushBit n b .msbFirst) 0) (UInt8.ofNat j) .msbFirst) =
      rest := by
  have hto : (8 - UInt8.ofNat rest.length).toNat = 8 - rest.length := by
    rw [UInt8.toNat_sub_of_le]
    · simp; omega
    · rw [UInt8.le_iff_toNat_le]; simp; omega
  rw [hto]
  have key : ∀ n : UInt8, ∀ k : Fin 8,
      (List.range' (8 - k.val) (8 - (8 - k.val))).map (fun j => nth n (UInt8.ofNat j) .msbFirst) =
        (bitsMsb n).drop (8 - k.val) := u8_forall (by decide +kernel)
  rw [key _ ⟨rest.length, h⟩, bitsMsb_fold _ _ (by omega)]
  rw [List.drop_append]
  have : (bitsMsb 0).drop rest.length = List.replicate (8 - rest.length) false := by
    have hb : bitsMsb 0 = List.replicate 8 false := by decide
    rw [hb, List.drop_replicate]
  simp only [this, List.drop_replicate, List.length_replicate]
  simp

theorem fromSlice_msb (bits : List Bit) :
    ∃ a, BitArray.fromSlice bits .msbFirst = some a ∧ a.len = bits.length ∧
      ∀ w : BitWriter, w.Ok → w.Appends (w.writeArr a) bits := by
  obtain ⟨bs, rest, hp, hl, hb⟩ := packFull_msb bits
  refine ⟨_, by simp [BitArray.fromSlice, hp]; rfl, ?_, ?_⟩
  · rw [hb]
    have : (bitsOf bs).length = bs.length * 8 := by
      clear hp hb
      induction bs with
      | nil => rfl
      | cons b bs ih => simp only [bitsOf, List.flatMap_cons, List.length_append, bitsMsb_length,
          List.length_cons] at *; omega
    simp [BitArray.len, this]; omega
  · intro w hw
    unfold BitWriter.writeArr
    have h := BitWriter.Appends.bind (BitWriter.appends_writeBytes hw bs)
      (fun w' hw' => BitWriter.appends_writeIdx hw'
        (rest.foldl (fun n b => pushBit n b .msbFirst) 0) .msbFirst
        (List.range' (8 - UInt8.ofNat rest.length).toNat (8 - (8 - UInt8.ofNat rest.length).toNat)))
    rw [partial_bits rest hl, ← hb] at h
    exact h

/-! ## The bit reader -/

theorem yields_bitReader_aux (bo : BitOrder) (front : List Bit) (bytes : List UInt8) :
    Yields (BitReader.next bo) ⟨front, bytes⟩ (front ++ bytes.flatMap (bitArray · bo)) := by
  induction bytes generalizing front with
  | nil =>
    rw [List.flatMap_nil, List.append_nil]
    induction front with
    | nil =>
      refine ⟨fun t => t = ⟨[], []⟩, rfl, ?_⟩
      rintro t rfl; exact ⟨rfl, rfl⟩
    | cons b bs ih => exact ⟨_, rfl, ih⟩
  | cons n ns ih =>
    induction front with
    | nil =>
      rw [List.nil_append, List.flatMap_cons]
      exact ⟨_, rfl, ih _⟩
    | cons b bs ihf => exact ⟨_, rfl, ihf⟩

theorem yields_bitReader (bytes : List UInt8) :
    Yields (BitReader.next .msbFirst) (bitReader bytes) (bitsOf bytes) := by
  have := yields_bitReader_aux .msbFirst [] bytes
  rw [List.nil_append] at this
  simpa [bitArray_msb, bitsOf, bitReader] using this

end Cniic
