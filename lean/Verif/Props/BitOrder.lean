import Verif.Spec.BitOrder
import Verif.Props.Bits

/-!
# A mask that is not necessary, and bits in the other order (C105)
-/

namespace Cniic
open Spec

/-! ## The mask -/

/-- Two writers that cannot be told apart: the bits that are still to be written agree. -/
structure Alike (w w' : BitWriter) : Prop where
  order : w'.bitOrder = w.bitOrder
  count : w'.bitCount = w.bitCount
  less  : w.bitCount.toNat < 8
  msb   : w.bitOrder = .msbFirst → w.bitCount ≠ 0 → w.currBits <<< (8 - w.bitCount) = w'.currBits <<< (8 - w.bitCount)
  lsb   : w.bitOrder = .lsbFirst → w.currBits = w'.currBits

theorem Alike.refl {w : BitWriter} (h : w.bitCount.toNat < 8) : Alike w w := ⟨rfl, rfl, h, fun _ _ => rfl, fun _ => rfl⟩

theorem push_first (x : UInt8) (b : Bool) : pushBit x b .msbFirst <<< (7 : UInt8) = (Bit.byte b) <<< (7 : UInt8) := by
  revert x; cases b <;> exact u8_forall (by decide +kernel)

theorem push_more (x : UInt8) (b : Bool) (c : Fin 7) : pushBit x b .msbFirst <<< (8 - (UInt8.ofNat (c.val + 1) + 1)) =
    x <<< (8 - UInt8.ofNat (c.val + 1)) ||| (Bit.byte b) <<< (8 - (UInt8.ofNat (c.val + 1) + 1)) := by
  revert c; revert x; cases b <;> exact u8_forall (by decide +kernel)

theorem mask_shift (n : UInt8) (c : Fin 7) :
    (n &&& bitMask (UInt8.ofNat (c.val + 1))) <<< (8 - UInt8.ofNat (c.val + 1)) = n <<< (8 - UInt8.ofNat (c.val + 1)) := by
  revert c; revert n; exact u8_forall (by decide +kernel)

theorem count_cases {c : UInt8} (h : c.toNat < 8) : c = 0 ∨ ∃ k : Fin 7, c = UInt8.ofNat (k.val + 1) := by
  by_cases h0 : c = 0
  · exact .inl h0
  · have : c.toNat ≠ 0 := fun h => h0 (UInt8.toNat_inj.1 h)
    exact .inr ⟨⟨c.toNat - 1, by omega⟩, by
      rw [show c.toNat - 1 + 1 = c.toNat by omega]
      simp⟩

/-- On every device the two computations do the same, and leave writers that cannot be told apart. -/
def SameW (m m' : W BitWriter) : Prop :=
  ∀ s, (∃ v v' t, m s = (.ok v, t) ∧ m' s = (.ok v', t) ∧ Alike v v') ∨ (m s = m' s ∧ ∀ v t, m s ≠ (.ok v, t))

theorem SameW.bind {m m' : W BitWriter} {f f' : BitWriter → W BitWriter} (h : SameW m m')
    (hf : ∀ v v', Alike v v' → SameW (f v) (f' v')) : SameW (m >>= f) (m' >>= f') := by
  intro s
  rcases h s with ⟨v, v', t, h1, h2, h3⟩ | ⟨h1, h2⟩
  · rw [Proc.bind_ok h1, Proc.bind_ok h2]
    exact hf v v' h3 t
  · rcases hr : m s with ⟨_ | _ | _, t⟩
    · exact absurd hr (h2 _ _)
    · rw [Proc.bind_err hr, Proc.bind_err (h1 ▸ hr)]
      exact .inr ⟨rfl, by simp⟩
    · rw [Proc.bind_panic hr, Proc.bind_panic (h1 ▸ hr)]
      exact .inr ⟨rfl, by simp⟩

theorem SameW.act (m : W Unit) {v v' : BitWriter} (h : Alike v v') :
    SameW (m >>= fun _ => pure v) (m >>= fun _ => pure v') := by
  intro s
  rcases hr : m s with ⟨_ | _ | _, t⟩
  · rw [Proc.bind_ok hr, Proc.bind_ok hr]
    exact .inl ⟨v, v', t, rfl, rfl, h⟩
  · rw [Proc.bind_err hr, Proc.bind_err hr]
    exact .inr ⟨rfl, by simp⟩
  · rw [Proc.bind_panic hr, Proc.bind_panic hr]
    exact .inr ⟨rfl, by simp⟩

theorem same_bit {w w' : BitWriter} (h : Alike w w') (b : Bool) : SameW (w.write b) (w'.write b) := by
  unfold BitWriter.write
  have hle : (w.bitCount + 1).toNat = w.bitCount.toNat + 1 := by
    have := h.less
    rw [UInt8.toNat_add]
    simp
    omega
  rw [h.count, h.order]
  by_cases h8 : w.bitCount + 1 = 8
  · have hc : w.bitCount = 7 := by
      apply UInt8.toNat_inj.1
      have := congrArg UInt8.toNat h8
      rw [hle] at this
      simp at this
      simp [this]
    have hp : pushBit w'.currBits b w.bitOrder = pushBit w.currBits b w.bitOrder := by
      cases ho : w.bitOrder with
      | msbFirst =>
        have := h.msb ho (by rw [hc]; decide)
        rw [hc] at this
        simp only [pushBit]
        rw [show (1 : UInt8) = 8 - 7 by decide, this]
      | lsbFirst => rw [h.lsb ho]
    simp only [h8, beq_self_eq_true, if_true, hp]
    exact SameW.act _ ⟨rfl, rfl, by simp, fun _ h => absurd rfl h, fun _ => rfl⟩
  · simp only [beq_iff_eq, h8, if_false]
    intro s
    refine .inl ⟨_, _, s, rfl, rfl, rfl, rfl, ?_, ?_, ?_⟩
    · show (w.bitCount + 1).toNat < 8
      have : (w.bitCount + 1).toNat ≠ 8 := fun hh => h8 (UInt8.toNat_inj.1 hh)
      have := h.less
      omega
    · intro ho _
      simp only at ho
      simp only [ho]
      rcases count_cases h.less with h0 | ⟨k, hk⟩
      · rw [h0, show (8 : UInt8) - (0 + 1) = 7 by decide, push_first, push_first]
      · have := h.msb ho (by
          rw [hk]
          have : ∀ k : Fin 7, UInt8.ofNat (k.val + 1) ≠ 0 := by decide
          exact this k)
        rw [hk] at this
        rw [hk, push_more, push_more, this]
    · intro ho
      simp only at ho
      show pushBit w.currBits b w.bitOrder = pushBit w'.currBits b w.bitOrder
      rw [h.lsb ho]

theorem same_byte {w w' : BitWriter} (h : Alike w w') (n : UInt8) : SameW (w.writeByte n) (writeByteUnmasked w' n) := by
  unfold BitWriter.writeByte writeByteUnmasked
  rw [h.count, h.order]
  by_cases h0 : w.bitCount = 0
  · simp only [h0, beq_self_eq_true, if_true]
    exact SameW.act _ h
  · simp only [beq_iff_eq, h0, if_false]
    cases ho : w.bitOrder with
    | lsbFirst =>
      intro s
      exact .inr ⟨rfl, by intro v t hh; cases hh⟩
    | msbFirst =>
      have hm := h.msb ho h0
      rw [← hm]
      simp only [show (BitOrder.msbFirst == BitOrder.msbFirst) = true from rfl, Proc.assert_true, pure_bind]
      refine SameW.act _ ⟨by simp, by simp, h.less, ?_, ?_⟩
      · intro _ _
        obtain ⟨k, hk⟩ := (count_cases h.less).resolve_left h0
        show (n &&& bitMask w.bitCount) <<< (8 - w.bitCount) = n <<< (8 - w.bitCount)
        rw [hk, mask_shift]
      · intro hl
        simp only [ho] at hl
        cases hl

theorem same_mixed (ops : List (Bool ⊕ UInt8)) {w w' : BitWriter} (h : Alike w w') :
    SameW (writeMixed BitWriter.writeByte w ops) (writeMixed writeByteUnmasked w' ops) := by
  induction ops generalizing w w' with
  | nil => exact fun s => .inl ⟨w, w', s, rfl, rfl, h⟩
  | cons op ops ih =>
    cases op with
    | inl b => exact (same_bit h b).bind fun v v' hv => ih hv
    | inr n => exact (same_byte h n).bind fun v v' hv => ih hv

theorem same_pad {w w' : BitWriter} (h : Alike w w') : SameW w.padAndFlush w'.padAndFlush := by
  unfold BitWriter.padAndFlush
  rw [h.count, h.order]
  by_cases h0 : w.bitCount = 0
  · simp only [h0, bne_self_eq_false, Bool.false_eq_true, if_false]
    exact SameW.act _ h
  · simp only [bne_iff_ne, ne_eq, h0, not_false_eq_true, if_true]
    have e : w'.currBits <<< (8 - w.bitCount) = w.currBits <<< (8 - w.bitCount) := by
      cases ho : w.bitOrder with
      | lsbFirst => rw [h.lsb ho]
      | msbFirst => rw [h.msb ho h0]
    rw [e]
    have := SameW.act (do writeAll [w.currBits <<< (8 - w.bitCount)]; flush) (v := ⟨0, 0, w.bitOrder⟩) (v' := ⟨0, 0, w.bitOrder⟩)
      (Alike.refl (by simp))
    rw [bind_assoc] at this
    exact this

/-- **C105**, arrays are bytes and bits one after the other. -/
theorem C105_arrays (w : BitWriter) (a : BitArray) : w.writeArr a = writeMixed BitWriter.writeByte w (AnyOp.split (.arr a)) := by
  have h1 : ∀ (bs : List UInt8) (w : BitWriter) (ops : List (Bool ⊕ UInt8)),
      writeMixed BitWriter.writeByte w (bs.map .inr ++ ops) =
        w.writeBytes bs >>= fun w => writeMixed BitWriter.writeByte w ops := by
    intro bs
    induction bs with
    | nil => intro w ops; simp [BitWriter.writeBytes]
    | cons b bs ih =>
      intro w ops
      simp only [List.map_cons, List.cons_append, writeMixed, BitWriter.writeBytes, ih, bind_assoc]
  have h2 : ∀ (js : List Nat) (w : BitWriter),
      writeMixed BitWriter.writeByte w (js.map fun j => .inl (nth a.partialByte (UInt8.ofNat j) a.bitOrder)) =
        w.writeIdx a.partialByte a.bitOrder js := by
    intro js
    induction js with
    | nil => intro w; rfl
    | cons j js ih =>
      intro w
      simp only [List.map_cons, writeMixed, BitWriter.writeIdx, ih]
  rw [AnyOp.split, h1]
  unfold BitWriter.writeArr
  simp only [h2]

/-- **C105**, the comment at the mask is right: for any bits and bytes in any order, in both bit orders and on any device, the
writer does the same without it. -/
theorem C105_mask (bo : BitOrder) (ops : List AnyOp) :
    (do let w ← writeMixed BitWriter.writeByte (.new bo) (ops.flatMap AnyOp.split)
        let _ ← w.padAndFlush
        pure () : W Unit) =
    (do let w ← writeMixed writeByteUnmasked (.new bo) (ops.flatMap AnyOp.split)
        let _ ← w.padAndFlush
        pure () : W Unit) := by
  have h := (same_mixed (ops.flatMap AnyOp.split) (Alike.refl (w := .new bo) (by cases bo <;> decide))).bind
    fun v v' hv => same_pad hv
  funext s
  have e : ∀ wb : BitWriter → UInt8 → W BitWriter,
      (do let w ← writeMixed wb (.new bo) (ops.flatMap AnyOp.split)
          let _ ← w.padAndFlush
          pure () : W Unit) =
      ((writeMixed wb (.new bo) (ops.flatMap AnyOp.split) >>= BitWriter.padAndFlush) >>= fun _ => pure ()) := by
    intro wb
    rw [bind_assoc]
  rw [e, e]
  rcases h s with ⟨v, v', t, h1, h2, -⟩ | ⟨h1, h2⟩
  · rw [Proc.bind_ok h1, Proc.bind_ok h2]
  · rcases hr : (writeMixed BitWriter.writeByte (.new bo) (ops.flatMap AnyOp.split) >>= BitWriter.padAndFlush) s with
      ⟨_ | _ | _, t⟩
    · exact absurd hr (h2 _ _)
    · rw [Proc.bind_err hr, Proc.bind_err (h1 ▸ hr)]
    · rw [Proc.bind_panic hr, Proc.bind_panic (h1 ▸ hr)]

/-- The two writers are different: the bits kept differ. -/
example : (writeMixed BitWriter.writeByte (.new .msbFirst) [.inl true, .inr 255] (Sink.mem [])).1 = .ok ⟨1, 1, .msbFirst⟩ ∧
    (writeMixed writeByteUnmasked (.new .msbFirst) [.inl true, .inr 255] (Sink.mem [])).1 = .ok ⟨255, 1, .msbFirst⟩ :=
  ⟨rfl, rfl⟩

/-! ## Least significant bit first -/

theorem bitsLsb_length (n : UInt8) : (bitsLsb n).length = 8 := by simp [bitsLsb]

theorem bitsLsb_shl (n : UInt8) (k : Fin 7) :
    bitsLsb (n <<< (8 - UInt8.ofNat (k.val + 1))) = List.replicate (7 - k.val) false ++ (bitsLsb n).take (k.val + 1) := by
  revert k; revert n; exact u8_forall (by decide +kernel)

/-- The last eight bits written singly. -/
def lastEight (bits : List Bool) : List Bool := (List.replicate 8 false ++ bits).drop bits.length

theorem lastEight_length (bits : List Bool) : (lastEight bits).length = 8 := by simp [lastEight]; omega

theorem lastEight_push (bits : List Bool) (b : Bool) : lastEight (bits ++ [b]) = (lastEight bits).tail ++ [b] := by
  unfold lastEight
  rw [← List.append_assoc, List.length_append, List.length_singleton, List.drop_append_of_le_length (by simp), ← List.drop_drop]
  simp

theorem lastEight_all {bits : List Bool} (h : 8 ≤ bits.length) : lastEight bits = bits.drop (bits.length - 8) := by
  unfold lastEight
  rw [List.drop_append, List.drop_of_length_le (by simpa using h)]
  simp

/-- A writer that has got these bits, least significant first. -/
structure LsbState (w : BitWriter) (bits : List Bool) : Prop where
  order : w.bitOrder = .lsbFirst
  count : w.bitCount.toNat = bits.length % 8
  curr  : bitsLsb w.currBits = lastEight bits

theorem lsb_write {w : BitWriter} {bits : List Bool} (h : LsbState w bits) (b : Bool) :
    ∃ out w', Emits Emits.errOnly (w.write b) out w' ∧ LsbState w' (bits ++ [b]) ∧
      bits.take (bits.length / 8 * 8) ++ out.flatMap bitsLsb = (bits ++ [b]).take ((bits.length + 1) / 8 * 8) := by
  have hc := h.count
  have hlt : w.bitCount.toNat < 8 := by omega
  have hle : (w.bitCount + 1).toNat = w.bitCount.toNat + 1 := by
    rw [UInt8.toNat_add]
    simp
    omega
  have hcur : bitsLsb (pushBit w.currBits b w.bitOrder) = lastEight (bits ++ [b]) := by
    rw [h.order, bitsLsb_push, h.curr, lastEight_push]
  unfold BitWriter.write
  by_cases h8 : w.bitCount + 1 = 8
  · have h7 : w.bitCount.toNat = 7 := by
      have := congrArg UInt8.toNat h8
      rw [hle] at this
      simpa using this
    simp only [h8, beq_self_eq_true, if_true]
    refine ⟨[pushBit w.currBits b w.bitOrder] ++ [], _, (Emits.writeAll _).bind (Emits.pure _), ⟨h.order, ?_, hcur⟩, ?_⟩
    · simp
      omega
    · simp only [List.append_nil, List.flatMap_cons, List.flatMap_nil, hcur]
      rw [lastEight_all (by simp; omega), show (bits.length + 1) / 8 * 8 = (bits ++ [b]).length by simp; omega,
        List.take_length]
      have e1 : bits.length / 8 * 8 = bits.length - 7 := by omega
      rw [e1, List.length_append, List.length_singleton, show bits.length + 1 - 8 = bits.length - 7 by omega]
      rw [← List.take_append_of_le_length (l₂ := [b]) (by omega)]
      exact List.take_append_drop _ _
  · simp only [beq_iff_eq, h8, if_false]
    have hne : w.bitCount.toNat ≠ 7 := by
      intro h7
      apply h8
      apply UInt8.toNat_inj.1
      rw [hle, h7]
      rfl
    refine ⟨[], _, Emits.pure _, ⟨h.order, ?_, hcur⟩, ?_⟩
    · show (w.bitCount + 1).toNat = _
      rw [hle]
      simp
      omega
    · rw [List.flatMap_nil, List.append_nil, show (bits.length + 1) / 8 * 8 = bits.length / 8 * 8 by omega,
        List.take_append_of_le_length (by omega)]

theorem lsb_writeBits (bs : List Bool) {w : BitWriter} {bits : List Bool} (h : LsbState w bits) :
    ∃ out w', Emits Emits.errOnly (writeBits w bs) out w' ∧ LsbState w' (bits ++ bs) ∧
      bits.take (bits.length / 8 * 8) ++ out.flatMap bitsLsb = (bits ++ bs).take ((bits ++ bs).length / 8 * 8) := by
  induction bs generalizing w bits with
  | nil => exact ⟨[], w, Emits.pure _, by simpa using h, by simp⟩
  | cons b bs ih =>
    obtain ⟨o1, w1, e1, h1, p1⟩ := lsb_write h b
    obtain ⟨o2, w2, e2, h2, p2⟩ := ih h1
    refine ⟨o1 ++ o2, w2, e1.bind e2, by simpa using h2, ?_⟩
    rw [List.flatMap_append, ← List.append_assoc, p1]
    simpa using p2

/-- **C105**, least significant bit first: single bits in whole bytes come back.  A last byte of `k` bits does not: it is shifted
the wrong way, and reads as `8 - k` zeros followed by the `k` bits that were written eight to `8 - k + 1` writes ago (zeros if there
were none). -/
theorem C105_lsb (bits : List Bool) :
    ∃ out w', Emits Emits.errOnly (do let w ← writeBits (.new .lsbFirst) bits; w.padAndFlush) out w' ∧
      out.flatMap bitsLsb = bits.take (bits.length / 8 * 8) ++
        if bits.length % 8 = 0 then []
        else List.replicate (8 - bits.length % 8) false ++ (lastEight bits).take (bits.length % 8) := by
  obtain ⟨o1, w1, e1, h1, p1⟩ := lsb_writeBits bits (w := .new .lsbFirst) (bits := []) ⟨rfl, rfl, by decide⟩
  simp only [List.nil_append, List.take_nil] at p1 h1
  by_cases hk : bits.length % 8 = 0
  · have h0 : w1.bitCount = 0 := UInt8.toNat_inj.1 (by rw [h1.count, hk]; rfl)
    refine ⟨o1 ++ ([] ++ []), w1, e1.bind ?_, by rw [if_pos hk, List.append_nil, List.append_nil, List.append_nil, p1]⟩
    unfold BitWriter.padAndFlush
    simp only [h0, bne_self_eq_false, Bool.false_eq_true, if_false]
    exact Emits.flush.bind (Emits.pure w1)
  · have h0 : w1.bitCount ≠ 0 := by
      intro h
      apply hk
      rw [← h1.count, h]
      rfl
    have hlt : w1.bitCount.toNat < 8 := by rw [h1.count]; omega
    obtain ⟨k, hkk⟩ := (count_cases hlt).resolve_left h0
    refine ⟨o1 ++ ([w1.currBits <<< (8 - w1.bitCount)] ++ ([] ++ [])), { w1 with currBits := 0, bitCount := 0 }, e1.bind ?_, ?_⟩
    · unfold BitWriter.padAndFlush
      simp only [bne_iff_ne, ne_eq, h0, not_false_eq_true, if_true]
      exact (Emits.writeAll [w1.currBits <<< (8 - w1.bitCount)]).bind (Emits.flush.bind (Emits.pure _))
    · have hkv : k.val + 1 = bits.length % 8 := by
        rw [← h1.count, hkk, UInt8.toNat_ofNat']
        have := k.isLt
        omega
      rw [List.flatMap_append, p1, if_neg hk]
      simp only [List.append_nil, List.flatMap_cons, List.flatMap_nil]
      rw [hkk, bitsLsb_shl, h1.curr, ← hkv]
      congr 2
      congr 1
      omega

/-- **C105**, what that means: reading back gives the bits that were written only for whole bytes or if the last bits happen to be
equal to what they are replaced by; otherwise they are lost.  With 1 to 4 bits in the last byte only zeros come back. -/
theorem C105_lsb_lost (bits : List Bool) (k : Nat) (hk : bits.length % 8 = k) (h1 : 1 ≤ k) (h4 : k ≤ 4) :
    ∃ out w', Emits Emits.errOnly (do let w ← writeBits (.new .lsbFirst) bits; w.padAndFlush) out w' ∧
      (out.flatMap bitsLsb).take bits.length = bits.take (bits.length - k) ++ List.replicate k false := by
  obtain ⟨out, w', h, e⟩ := C105_lsb bits
  refine ⟨out, w', h, ?_⟩
  rw [e, if_neg (by omega), hk]
  have hl : bits.length / 8 * 8 = bits.length - k := by omega
  rw [hl, List.take_append, List.take_of_length_le (by simp), List.length_take, Nat.min_eq_left (by omega),
    show bits.length - (bits.length - k) = k by omega, List.take_append_of_le_length (by simp; omega)]
  simp
  omega

example : (bytesOf (do let w ← writeBits (.new .lsbFirst) [true, true, true, true, true, true, true, true, true, true, false]
                       w.padAndFlush)) = .ok [255, 224] := rfl

end Cniic
