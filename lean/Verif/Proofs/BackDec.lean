import Verif.Proofs.BackEnc

/-! # Proofs about the lookback symbols and decoder -/

namespace Cniic.Back

open Cniic.Spec

/-! ## Symbols -/

theorem mask0 : mask 0 = 0 := by decide
theorem mask1 : mask 1 = 32768 := by decide

theorem u16_ofNat {n : Nat} (h : n < 65536) : (UInt16.ofNat n).toNat = n := by
  rw [UInt16.toNat_ofNat']; exact Nat.mod_eq_of_lt h

theorem compressLen0 {len : Nat} (h : len ≤ 32767) : (compressLen len 0).toNat = len := by
  rw [compressLen, mask0, UInt16.toNat_or, u16_ofNat (by omega)]
  simp

theorem compressLen1 {len : Nat} (h : len ≤ 32767) : (compressLen len 1).toNat = 32768 + len := by
  rw [compressLen, mask1, UInt16.toNat_or, u16_ofNat (by omega)]
  have := Nat.two_pow_add_eq_or_of_lt (i := 15) (b := len) (by omega) 1
  rw [Nat.or_comm] at this
  exact this.symm

theorem decompressLen_spec (c : UInt16) :
    decompressLen c = (if c.toNat < 32768 then 0 else 1, c.toNat % 32768) := by
  have hc := c.toNat_lt
  rw [decompressLen, mask1]
  have h2 : (c &&& ~~~(32768 : UInt16)).toNat = c.toNat % 32768 := by
    rw [UInt16.toNat_and]
    exact Nat.and_two_pow_sub_one_eq_mod c.toNat 15
  have h1 : (c &&& (32768 : UInt16)) = if c.toNat < 32768 then 0 else 32768 := by
    apply UInt16.toNat_inj.1
    rw [UInt16.toNat_and]
    have e : (32768 : UInt16).toNat = 2 ^ 15 := rfl
    rw [e]
    apply Nat.eq_of_testBit_eq
    intro i
    rw [Nat.testBit_and, Nat.testBit_two_pow]
    by_cases hi : 15 = i
    · subst hi
      rw [Nat.testBit_eq_decide_div_mod_eq]
      by_cases h : c.toNat < 32768
      · rw [if_pos h]
        have : c.toNat / 2 ^ 15 = 0 := by omega
        rw [this]; rfl
      · rw [if_neg h]
        have : c.toNat / 2 ^ 15 = 1 := by omega
        rw [this]; rfl
    · rw [decide_eq_false hi, Bool.and_false]
      by_cases h : c.toNat < 32768
      · rw [if_pos h]; simp
      · rw [if_neg h, e, Nat.testBit_two_pow, decide_eq_false hi]
  rw [h2, h1]
  by_cases h : c.toNat < 32768
  · simp only [if_pos h]; rfl
  · simp only [if_neg h]; rfl

theorem u16_bytes (n : Nat) (h : n < 65536) : SerSpec.bytes (UInt16.ofNat n) = le 2 n := by
  show le 2 (UInt16.ofNat n).toNat = _
  rw [u16_ofNat h]

theorem emits_u16 {c : UInt16} {n : Nat} (h : c.toNat = n) :
    Emits Emits.errOnly (ser c) (le 2 n) () := by
  subst h; exact LawfulSer.emits c trivial

theorem emits_bytes (data : List UInt8) :
    Emits Emits.errOnly (Proc.forEach ser data) data () := by
  have h := Emits.forEach (K := Emits.errOnly) (f := (ser : UInt8 → W Unit)) (g := fun b => [b]) data
    (fun b _ => Emits.writeAll [b])
  have e : data.flatMap (fun b => [b]) = data := by simp
  rwa [e] at h

theorem emits_sym {s : Symbol} (h : Fits s) : Emits Emits.errOnly s.ser (symbolBytes s) () := by
  cases s with
  | explicit data =>
    have h : data.length ≤ 32767 := h
    simp only [Symbol.ser, h, decide_true, Proc.assert_true, pure_bind]
    exact Emits.bind (emits_u16 (compressLen0 h)) (emits_bytes data)
  | lookBack len back =>
    obtain ⟨h1, h2⟩ : len ≤ 32767 ∧ back ≤ 65535 := h
    simp only [Symbol.ser, h1, h2, decide_true, Proc.assert_true, pure_bind]
    exact Emits.bind (emits_u16 (compressLen1 h1)) (emits_u16 (u16_ofNat (by omega)))

theorem emits_syms {syms : List Symbol} (h : ∀ s ∈ syms, Fits s) :
    Emits Emits.errOnly (Proc.forEach Symbol.ser syms) (syms.flatMap symbolBytes) () :=
  Emits.forEach syms fun s hs => emits_sym (h s hs)

instance (s : Symbol) : Decidable (Fits s) := by cases s <;> unfold Fits <;> exact inferInstance

/-- A symbol that does not fit makes the serializer panic (unless the device failed before). -/
theorem ser_panics {s : Symbol} (h : ¬ Fits s) (k : Sink) (hk : ∀ i, k.fault i = none) :
    (s.ser k).1 = .panic := by
  cases s with
  | explicit data =>
    have h : ¬ data.length ≤ 32767 := h
    simp only [Symbol.ser, h, decide_false, Proc.assert_false]
    rfl
  | lookBack len back =>
    by_cases h1 : len ≤ 32767
    · have h2 : ¬ back ≤ 65535 := fun h2 => h ⟨h1, h2⟩
      simp only [Symbol.ser, h1, h2, decide_true, decide_false, Proc.assert_true, Proc.assert_false,
        pure_bind]
      obtain ⟨n, ⟨_, he⟩ | ⟨_, hf, _⟩⟩ := emits_u16 (compressLen1 h1) k
      · rw [Proc.bind_ok he]; rfl
      · exact absurd (hk _) hf
    · simp only [Symbol.ser, h1, decide_false, Proc.assert_false]
      rfl

theorem forEach_ser_panics {syms : List Symbol} (h : ¬ ∀ s ∈ syms, Fits s) (k : Sink)
    (hk : ∀ i, k.fault i = none) : ((Proc.forEach Symbol.ser syms) k).1 = .panic := by
  induction syms generalizing k with
  | nil => exact absurd (by simp) h
  | cons s syms ih =>
    rw [Proc.forEach_cons]
    by_cases hs : Fits s
    · obtain ⟨n, ⟨_, he⟩ | ⟨_, hf, _⟩⟩ := emits_sym hs k
      · rw [Proc.bind_ok he]
        apply ih
        · intro hh
          apply h
          intro t ht
          rcases List.mem_cons.1 ht with rfl | ht
          · exact hs
          · exact hh t ht
        · exact hk
      · exact absurd (hk _) hf
    · have := ser_panics hs k hk
      generalize hr : s.ser k = r at this
      obtain ⟨r, k'⟩ := r
      simp only at this
      subst this
      rw [Proc.bind_panic hr]

theorem bytesOf_syms {syms : List Symbol} {bytes : List UInt8}
    (h : bytesOf (Proc.forEach Symbol.ser syms) = .ok bytes) :
    (∀ s ∈ syms, Fits s) ∧ bytes = syms.flatMap symbolBytes := by
  by_cases hf : ∀ s ∈ syms, Fits s
  · refine ⟨hf, ?_⟩
    rw [(emits_syms hf).bytesOf] at h
    cases h; rfl
  · exfalso
    have := forEach_ser_panics hf (Sink.mem []) (fun _ => rfl)
    unfold bytesOf at h
    generalize Proc.forEach Symbol.ser syms (Sink.mem []) = r at *
    obtain ⟨r, k⟩ := r
    simp only at this
    subst this
    cases h

theorem takeCollect_list {α : Type} (k : Nat) (l : List α) :
    takeCollect listNext k l = (.ok (l.take k), l.drop k) := by
  induction k generalizing l with
  | zero => rfl
  | succ k ih =>
    cases l with
    | nil => rfl
    | cons a l => simp [takeCollect, ih]

theorem de_u16 (n : Nat) (h : n < 65536) (rest : List UInt8) :
    (de listNext (le 2 n ++ rest) : Ret Unit UInt16 × List UInt8) = (.ok (UInt16.ofNat n), rest) := by
  rw [← u16_bytes n h]
  exact LawfulSer.de_bytes _ trivial rest

/-- Reading a literal run. -/
theorem de_literal {len : Nat} (h : len ≤ 32767) (tail : List UInt8) :
    Symbol.de listNext (le 2 len ++ tail) =
      (if len ≤ tail.length then .ok (.explicit (tail.take len)) else .panic, tail.drop len) := by
  have hd : decompressLen (UInt16.ofNat len) = (0, len) := by
    rw [decompressLen_spec, u16_ofNat (by omega), if_pos (by omega), Nat.mod_eq_of_lt (by omega)]
  unfold Symbol.de
  rw [Proc.bind_ok (de_u16 len (by omega) tail)]
  simp only [hd, if_true]
  rw [Proc.bind_ok (takeCollect_list len tail)]
  by_cases hl : len ≤ tail.length
  · have : ((tail.take len).length == len) = true := by simp; omega
    simp only [this, hl, if_true]; rfl
  · have : ((tail.take len).length == len) = false := by simp; omega
    simp only [this, hl, if_false]; rfl

/-- Reading a copy. -/
theorem de_copy {len : Nat} (h : len ≤ 32767) (tail : List UInt8) :
    Symbol.de listNext (le 2 (32768 + len) ++ tail) =
      (match (de listNext tail : Ret Unit UInt16 × List UInt8) with
       | (.ok back, r) => (.ok (.lookBack len back.toNat), r)
       | (.err e, r) => (.err e, r)
       | (.panic, r) => (.panic, r)) := by
  have hd : decompressLen (UInt16.ofNat (32768 + len)) = (1, len) := by
    rw [decompressLen_spec, u16_ofNat (by omega), if_neg (by omega)]
    congr 1; omega
  unfold Symbol.de
  rw [Proc.bind_ok (de_u16 (32768 + len) (by omega) tail)]
  simp only [hd]
  rw [if_neg (by decide), if_pos trivial, Proc.bind_def]
  rcases (de listNext tail : Ret Unit UInt16 × List UInt8) with ⟨_ | _ | _, _⟩ <;> rfl

theorem de_symbol {s : Symbol} (h : Fits s) (rest : List UInt8) :
    Symbol.de listNext (symbolBytes s ++ rest) = (.ok s, rest) := by
  cases s with
  | explicit data =>
    simp only [symbolBytes, List.append_assoc]
    rw [de_literal h, if_pos (by simp)]
    simp
  | lookBack len back =>
    obtain ⟨h1, h2⟩ : len ≤ 32767 ∧ back ≤ 65535 := h
    simp only [symbolBytes, List.append_assoc]
    rw [de_copy h1, de_u16 back (by omega)]
    simp only [u16_ofNat (show back < 65536 by omega)]

theorem le_two (n : Nat) : le 2 n = [UInt8.ofNat n, UInt8.ofNat (n / 256)] := by
  simp [le, byteAt, List.range_succ]

/-- Two bytes are a 16-bit number. -/
theorem two_bytes (a b : UInt8) : ∃ n, n < 65536 ∧ [a, b] = le 2 n := by
  have ha := a.toNat_lt
  have hb := b.toNat_lt
  refine ⟨a.toNat + 256 * b.toNat, by omega, ?_⟩
  rw [le_two]
  have e1 : UInt8.ofNat (a.toNat + 256 * b.toNat) = a := by
    apply UInt8.toNat_inj.1; rw [UInt8.toNat_ofNat']; omega
  have e2 : UInt8.ofNat ((a.toNat + 256 * b.toNat) / 256) = b := by
    apply UInt8.toNat_inj.1; rw [UInt8.toNat_ofNat']; omega
  rw [e1, e2]

/-! ## Decoder -/

/-- The decoder has produced the history `h`, has `q` ready and `bytes` to read. -/
structure DecInv (N : Nat) (d : Decoder) (h bytes q : List UInt8) : Prop where
  ring : RingInv N d.history h
  iter : d.iter = bytes
  dec  : d.decoded = q

theorem DecInv.new (N : Nat) (bytes : List UInt8) : DecInv N (zipBackDecode N bytes) [] bytes [] :=
  ⟨.new N 0, rfl, rfl⟩

theorem DecInv.pop {N : Nat} {d : Decoder} {h bytes q : List UInt8} {b : UInt8}
    (hd : DecInv N d h bytes (b :: q)) : ∃ d', Decoder.next d = (.ok b, d') ∧ DecInv N d' h bytes q := by
  refine ⟨{ d with decoded := q }, ?_, hd.ring, hd.iter, rfl⟩
  simp only [Decoder.next, hd.dec]

theorem DecInv.decode_some {N : Nat} (hN : 0 < N) {d : Decoder} {h rest : List UInt8} {s : Symbol}
    (hs : Fits s) {x : List UInt8} (hx : symbolMeaning N h s = some x)
    (hd : DecInv N d h (symbolBytes s ++ rest) []) :
    ∃ d', d.decodeNext = some d' ∧ DecInv N d' (h ++ x) rest x := by
  unfold Decoder.decodeNext
  rw [hd.iter, de_symbol hs]
  cases s with
  | explicit data =>
    simp only [symbolMeaning, Option.some.injEq] at hx
    subst hx
    exact ⟨_, rfl, hd.ring.writeAll hN _, rfl, by simp [hd.dec]⟩
  | lookBack len back =>
    have : d.history.lookbackSequence len back = some x := by
      rw [hd.ring.lookbackSequence]; exact hx
    simp only [this]
    exact ⟨_, rfl, hd.ring.writeAll hN _, rfl, by simp [hd.dec]⟩

theorem DecInv.decode_none {N : Nat} {d : Decoder} {h rest : List UInt8} {s : Symbol}
    (hs : Fits s) (hx : symbolMeaning N h s = none)
    (hd : DecInv N d h (symbolBytes s ++ rest) []) : d.decodeNext = none := by
  unfold Decoder.decodeNext
  rw [hd.iter, de_symbol hs]
  cases s with
  | explicit data => cases hx
  | lookBack len back =>
    have : d.history.lookbackSequence len back = none := by
      rw [hd.ring.lookbackSequence]; exact hx
    simp only [this]

theorem next_of_decode {d d' : Decoder} (hq : d.decoded = []) (h : d.decodeNext = some d')
    {b : UInt8} {q : List UInt8} (hd' : d'.decoded = b :: q) :
    Decoder.next d = Decoder.next d' := by
  simp only [Decoder.next, hq, h, hd']

/-- Pulling an item from two states that behave the same. -/
theorem EndsAfter.of_next_eq {σ α : Type} {next : Rd σ α} {s t : σ} {xs : List α}
    (e : next s = next t) (h : EndsAfter next t xs) : EndsAfter next s xs := by
  cases xs with
  | nil => simpa [EndsAfter, e] using h
  | cons x xs => obtain ⟨s', h1, h2⟩ := h; exact ⟨s', e.trans h1, h2⟩

/-- Bytes that mean something are decoded to their meaning. -/
theorem yields_meaning {N : Nat} (hN : 0 < N) (syms : List Symbol) (hf : ∀ s ∈ syms, Fits s)
    {h out : List UInt8} (hm : meaningFrom N h syms = some out)
    (hne : ∀ s ∈ syms, s ≠ .explicit [] ∧ ∀ len back, s = .lookBack len back → 0 < len ∧ 0 < back)
    {d : Decoder} {q : List UInt8} (hd : DecInv N d h (syms.flatMap symbolBytes) q) :
    Yields Decoder.next d (q ++ out) := by
  induction q generalizing d with
  | cons b q ih =>
    obtain ⟨d', h1, h2⟩ := hd.pop
    exact ⟨d', h1, ih h2⟩
  | nil =>
    induction syms generalizing d h out with
    | nil =>
      simp only [meaningFrom, Option.some.injEq] at hm
      subst hm
      refine ⟨fun t => t.iter = [] ∧ t.decoded = [], ⟨hd.iter, hd.dec⟩, ?_⟩
      rintro ⟨it, hi, de⟩ ⟨rfl, rfl⟩
      exact ⟨rfl, rfl, rfl⟩
    | cons s syms ih =>
      simp only [meaningFrom] at hm
      cases hx : symbolMeaning N h s with
      | none => rw [hx] at hm; cases hm
      | some x =>
        rw [hx] at hm
        simp only at hm
        cases hy : meaningFrom N (h ++ x) syms with
        | none => rw [hy] at hm; cases hm
        | some y =>
          rw [hy] at hm
          simp only [Option.some.injEq] at hm
          subst hm
          rw [List.flatMap_cons] at hd
          have hs := hf s (by simp)
          obtain ⟨d', h1, h2⟩ := hd.decode_some hN hs hx
          have hxne : x ≠ [] := by
            have := hne s (by simp)
            cases s with
            | explicit data =>
              simp only [symbolMeaning, Option.some.injEq] at hx
              subst hx
              exact fun h => this.1 (by rw [h])
            | lookBack len back =>
              have h3 := this.2 len back rfl
              simp only [symbolMeaning] at hx
              split at hx
              · next hb =>
                simp only [Option.some.injEq] at hx
                subst hx
                intro he
                have := congrArg List.length he
                simp at this; omega
              · cases hx
          have ih := fun {d} => ih (fun t ht => hf t (by simp [ht])) hy (fun t ht => hne t (by simp [ht]))
            (d := d)
          have : Yields Decoder.next d' (x ++ y) := by
            clear h1 hx hxne
            generalize hgx : h ++ x = hx' at *
            clear hgx hd
            induction x generalizing d' with
            | nil => exact ih h2
            | cons b x ihx =>
              obtain ⟨d2, h3, h4⟩ := h2.pop
              exact ⟨d2, h3, ihx d2 h4⟩
          rw [List.nil_append]
          cases x with
          | nil => exact absurd rfl hxne
          | cons b x => exact Yields.of_next_eq (next_of_decode hd.dec h1 h2.dec) this

/-- What the decoder does on `bytes` when it has `q` ready. -/
theorem reads_outcome {N : Nat} (hN : 0 < N) {h bytes out : List UInt8} {e : Ending}
    (hr : Reads N h bytes out e) {d : Decoder} {q : List UInt8} (hd : DecInv N d h bytes q) :
    (e = .none → EndsAfter Decoder.next d (q ++ out)) ∧
    (e = .panic → PanicsAfter Decoder.next d (q ++ out)) := by
  induction q generalizing d with
  | cons b q ih =>
    obtain ⟨d', h1, h2⟩ := hd.pop
    exact ⟨fun he => ⟨d', h1, (ih h2).1 he⟩, fun he => ⟨d', h1, (ih h2).2 he⟩⟩
  | nil =>
    induction hr generalizing d with
    | @stop hist bytes hl =>
      refine ⟨fun _ => ?_, fun h => by cases h⟩
      simp only [List.nil_append, EndsAfter, Decoder.next, hd.dec]
      have : d.decodeNext = some { d with iter := [] } := by
        unfold Decoder.decodeNext
        rw [hd.iter]
        match bytes, hl with
        | [], _ => rfl
        | [a], _ => rfl
      rw [this]
      simp only [hd.dec]
    | @shortCopy hist len tail hl ht =>
      refine ⟨fun _ => ?_, fun h => by cases h⟩
      simp only [List.nil_append, EndsAfter, Decoder.next, hd.dec]
      have : d.decodeNext = some { d with iter := [] } := by
        unfold Decoder.decodeNext
        rw [hd.iter, de_copy hl]
        match tail, ht with
        | [], _ => rfl
        | [a], _ => rfl
      rw [this]
      simp only [hd.dec]
    | @shortLiteral hist len tail hl ht =>
      refine ⟨(fun h => by cases h), fun _ => ?_⟩
      simp only [List.nil_append, PanicsAfter, Decoder.next, hd.dec]
      have : d.decodeNext = none := by
        unfold Decoder.decodeNext
        rw [hd.iter, de_literal hl, if_neg (by omega)]
      rw [this]
    | dangling hs hx =>
      refine ⟨(fun h => by cases h), fun _ => ?_⟩
      simp only [List.nil_append, PanicsAfter, Decoder.next, hd.dec, hd.decode_none hs hx]
    | empty hs hx =>
      refine ⟨fun _ => ?_, fun h => by cases h⟩
      obtain ⟨d', h1, h2⟩ := hd.decode_some hN hs hx
      simp only [List.nil_append, EndsAfter, Decoder.next, hd.dec, h1, h2.dec]
    | @symbol hist s x rest out e hs hx hne _ ih =>
      obtain ⟨d', h1, h2⟩ := hd.decode_some hN hs hx
      have : (e = .none → EndsAfter Decoder.next d' (x ++ out)) ∧
          (e = .panic → PanicsAfter Decoder.next d' (x ++ out)) := by
        clear h1 hx hne
        generalize hgx : hist ++ x = hx' at *
        clear hgx hd
        induction x generalizing d' with
        | nil => exact ih h2
        | cons b x ihx =>
          obtain ⟨d2, h3, h4⟩ := h2.pop
          exact ⟨fun he => ⟨d2, h3, (ihx d2 h4).1 he⟩, fun he => ⟨d2, h3, (ihx d2 h4).2 he⟩⟩
      rw [List.nil_append]
      cases x with
      | nil => exact absurd rfl hne
      | cons b x =>
        have e := next_of_decode hd.dec h1 h2.dec
        exact ⟨fun he => EndsAfter.of_next_eq e (this.1 he), fun he => PanicsAfter.of_next_eq e (this.2 he)⟩

/-- Every byte sequence reads as something. -/
theorem reads_total (N : Nat) (n : Nat) : ∀ (h bytes : List UInt8), bytes.length ≤ n →
    ∃ out e, Reads N h bytes out e := by
  induction n using Nat.strongRecOn with
  | _ n ih =>
  intro h bytes hn
  match bytes, hn with
  | [], _ => exact ⟨_, _, .stop (by simp)⟩
  | [a], _ => exact ⟨_, _, .stop (by simp)⟩
  | a :: b :: tail, hn =>
    obtain ⟨c, hc, he⟩ := two_bytes a b
    have hb : a :: b :: tail = le 2 c ++ tail := by rw [← he]; rfl
    have fin : ∀ (s : Symbol) (rest : List UInt8), Fits s → rest.length < n →
        a :: b :: tail = symbolBytes s ++ rest → ∃ out e, Reads N h (a :: b :: tail) out e := by
      intro s rest hs hl hsb
      rw [hsb]
      cases hx : symbolMeaning N h s with
      | none => exact ⟨_, _, .dangling hs hx⟩
      | some x =>
        cases x with
        | nil => exact ⟨_, _, .empty hs hx⟩
        | cons y x =>
          obtain ⟨out, e, hr⟩ := ih rest.length hl (h ++ y :: x) rest (Nat.le_refl _)
          exact ⟨_, _, .symbol hs hx (by simp) hr⟩
    simp only [List.length_cons] at hn
    by_cases hk : c < 32768
    · by_cases hl : tail.length < c
      · rw [hb]; exact ⟨_, _, .shortLiteral (by omega) hl⟩
      · have hlen : (tail.take c).length = c := by rw [List.length_take]; omega
        refine fin (.explicit (tail.take c)) (tail.drop c) (by show _ ≤ _; omega) (by simp; omega) ?_
        rw [hb, symbolBytes, hlen, List.append_assoc, List.take_append_drop]
    · have hcc : c = 32768 + (c - 32768) := by omega
      match tail, hn, hb, fin with
      | [], _, hb, _ => rw [hb, hcc]; exact ⟨_, _, .shortCopy (by omega) (by simp)⟩
      | [x], _, hb, _ => rw [hb, hcc]; exact ⟨_, _, .shortCopy (by omega) (by simp)⟩
      | x :: y :: tail, hn, hb, fin =>
        obtain ⟨c2, hc2, he2⟩ := two_bytes x y
        refine fin (.lookBack (c - 32768) c2) tail ⟨by omega, by omega⟩ (by simp at hn; omega) ?_
        rw [hb, symbolBytes, ← hcc, ← he2, List.append_assoc]; rfl

end Cniic.Back
