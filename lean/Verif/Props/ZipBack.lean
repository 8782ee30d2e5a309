import Verif.Proofs.BackFactor

/-! # Properties of the lookback coder (C21 - C27, C53) -/

namespace Cniic
open Spec Back

/-- A possible read-ahead policy: the capacity starts at 16 and doubles now and then. -/
example : ∀ i, repBufInit ≤ (fun i => 16 * (i + 1) : Caps) i := by
  intro i; simp only [repBufInit]; omega

/-- **C21.** Whenever encoding completes, decoding gives the input back exactly, then ends. -/
theorem C21_zip_back_round_trip (cap : Caps) (hcap : ∀ i, repBufInit ≤ cap i)
    (input bytes : List UInt8) (h : bytesOf (zipBackEncode ringSize cap input) = .ok bytes) :
    Yields Decoder.next (zipBackDecode ringSize bytes) input := by
  obtain ⟨syms, hf, he⟩ := zipBackEncode_spec (show 0 < ringSize by decide) hcap input
  rw [he] at h
  obtain ⟨hfit, rfl⟩ := bytesOf_syms h
  have := yields_meaning (show 0 < ringSize by decide) syms hfit (Factor.meaning hf [] rfl)
    (Factor.nonempty hf) (DecInv.new ringSize _)
  simpa using this

/-- **C21**, any window size: the same with a window of any size `N`, so for any number of
wrap-arounds. -/
theorem C21_any_window (N : Nat) (hN : 0 < N) (cap : Caps) (hcap : ∀ i, repBufInit ≤ cap i)
    (input bytes : List UInt8) (h : bytesOf (zipBackEncode N cap input) = .ok bytes) :
    Yields Decoder.next (zipBackDecode N bytes) input := by
  obtain ⟨syms, hf, he⟩ := zipBackEncode_spec hN hcap input
  rw [he] at h
  obtain ⟨hfit, rfl⟩ := bytesOf_syms h
  have := yields_meaning hN syms hfit (Factor.meaning hf [] rfl) (Factor.nonempty hf)
    (DecInv.new N _)
  simpa using this

/-- **C21**, the output does not depend on the read-ahead policy. -/
theorem C21_policy_independent (cap cap' : Caps) (hcap : ∀ i, repBufInit ≤ cap i)
    (hcap' : ∀ i, repBufInit ≤ cap' i) (input : List UInt8) :
    zipBackEncode ringSize cap input = zipBackEncode ringSize cap' input := by
  obtain ⟨syms, hf, he⟩ := zipBackEncode_spec (show 0 < ringSize by decide) hcap input
  obtain ⟨syms', hf', he'⟩ := zipBackEncode_spec (show 0 < ringSize by decide) hcap' input
  rw [he, he', hf.unique hf']

/-- A window of 8 bytes that wraps around: literal run `1 2 3 4 5 6 7 8`, a copy of these 8 from 8 bytes
back, and a last literal. -/
example : bytesOf (zipBackEncode 8 (fun _ => 16) [1, 2, 3, 4, 5, 6, 7, 8, 1, 2, 3, 4, 5, 6, 7, 8, 9])
    = .ok [8, 0, 1, 2, 3, 4, 5, 6, 7, 8, 8, 128, 8, 0, 1, 0, 9] := by decide +kernel

/-- **C22**, when encoding completes: the input has a factorization into literal runs and copies, and
encoding writes it if every run has at most 32767 bytes and panics otherwise. -/
theorem C22_completes_iff (cap : Caps) (hcap : ∀ i, repBufInit ≤ cap i) (input : List UInt8) :
    ∃ syms, Factor ringSize [] [] input syms ∧
      ((∀ s ∈ syms, Fits s) →
        Emits Emits.errOnly (zipBackEncode ringSize cap input) (syms.flatMap symbolBytes) ()) ∧
      ((¬ ∀ s ∈ syms, Fits s) → bytesOf (zipBackEncode ringSize cap input) = .panic) := by
  obtain ⟨syms, hf, he⟩ := zipBackEncode_spec (show 0 < ringSize by decide) hcap input
  refine ⟨syms, hf, ?_, ?_⟩
  · intro h; rw [he]; exact emits_syms h
  · intro h
    rw [he]
    have := forEach_ser_panics h (Sink.mem []) (fun _ => rfl)
    unfold bytesOf
    generalize Proc.forEach Back.Symbol.ser syms (Sink.mem []) = r at *
    obtain ⟨r, k⟩ := r
    simp only at this
    subst this
    rfl

/-- **C22**, inputs of at most 32767 bytes can always be encoded. -/
theorem C22_short_inputs (cap : Caps) (hcap : ∀ i, repBufInit ≤ cap i) (input : List UInt8)
    (hl : input.length ≤ 32767) :
    ∃ bytes, Emits Emits.errOnly (zipBackEncode ringSize cap input) bytes () := by
  obtain ⟨syms, hf, he⟩ := zipBackEncode_spec (show 0 < ringSize by decide) hcap input
  exact ⟨_, by rw [he]; exact emits_syms (hf.fits (by decide) (by simpa using hl))⟩

/-- **C22**, the claim fails for every constant input of 65536 bytes or more: encoding panics. -/
theorem C22_fails_on_constant_inputs (cap : Caps) (hcap : ∀ i, repBufInit ≤ cap i) (b : UInt8)
    (n : Nat) (hn : 65536 ≤ n) :
    bytesOf (zipBackEncode ringSize cap (List.replicate n b)) = .panic := by
  obtain ⟨syms, hf, _, hp⟩ := C22_completes_iff cap hcap (List.replicate n b)
  apply hp
  intro h
  obtain ⟨back, hb⟩ := factor_const (by decide) hn hf
  exact absurd (h _ hb).1 (by decide)

/-- **C23.** The output is at most two bytes longer than the input. -/
theorem C23_expansion (cap : Caps) (hcap : ∀ i, repBufInit ≤ cap i) (input bytes : List UInt8)
    (h : bytesOf (zipBackEncode ringSize cap input) = .ok bytes) :
    bytes.length ≤ input.length + 2 := by
  obtain ⟨syms, hf, he⟩ := zipBackEncode_spec (show 0 < ringSize by decide) hcap input
  rw [he] at h
  obtain ⟨_, rfl⟩ := bytesOf_syms h
  simpa using hf.size

/-- The bound is reached. -/
example : bytesOf (zipBackEncode 8 (fun _ => 16) [1, 2, 3]) = .ok [3, 0, 1, 2, 3] := by decide +kernel

/-- **C24**, after writing `xs`, the history holds the last `min N n` of them: every retained position
can be read from (up to the newest), and no other position. -/
theorem C24_history_window {T : Type} (N : Nat) (hN : 0 < N) (d : T) (xs : List T) :
    let r := (RingBuffer.new N d).writeAll xs
    r.len = min N xs.length ∧ r.readPos = xs.length ∧
    r.asSlices.1 ++ r.asSlices.2 = retained N xs ∧
    ∀ p, r.iterStarting p =
      if xs.length - min N xs.length ≤ p ∧ p ≤ xs.length then some (xs.drop p) else none := by
  have hr : RingInv N ((RingBuffer.new N d).writeAll xs) xs := by
    simpa using (RingInv.new N d).writeAll hN xs
  refine ⟨hr.len, hr.readPos, hr.slices, fun p => ?_⟩
  rw [hr.iterStarting]
  have : xs.length - min N xs.length = xs.length - N := by omega
  rw [this]

/-- **C24**, the two sides agree: the distance the encoder computes for a retained position is mapped back
to this position, and `lookback_sequence` copies from there. -/
theorem C24_distances {T : Type} (N : Nat) (hN : 0 < N) (d : T) (xs : List T) (p : Nat)
    (h1 : xs.length - N ≤ p) (h2 : p < xs.length) :
    let r := (RingBuffer.new N d).writeAll xs
    ∃ back, r.lookbackValue p = some back ∧ back = xs.length - p ∧ 0 < back ∧ back ≤ N ∧
      r.lookbackPos back = some p ∧ ∀ len, r.lookbackSequence len back = some ((xs.drop p).take len) := by
  have hr : RingInv N ((RingBuffer.new N d).writeAll xs) xs := by
    simpa using (RingInv.new N d).writeAll hN xs
  refine ⟨xs.length - p, hr.lookbackValue p h1 (by omega), rfl, by omega, by omega, ?_, fun len => ?_⟩
  · rw [hr.lookbackPos, if_pos ⟨by omega, by omega⟩]; congr 1; omega
  · rw [hr.lookbackSequence, if_pos ⟨by omega, by omega⟩]; congr 3; omega

/-- A window of 3 that has wrapped around twice. -/
example : ((RingBuffer.new 3 0).writeAll [10, 11, 12, 13, 14, 15, 16, 17]).iterStarting 5 =
    some [15, 16, 17] ∧ (8 : Nat) - 3 ≤ 5 ∧ 5 < 8 := by decide

/-- **C25.** After any writes `xs`, the positions reported for a key are exactly the retained positions
where it occurs, each once. -/
theorem C25_index_exact (N : Nat) (hN : 0 < N) (xs key : List UInt8) (hk : key.length = 6) :
    let h := (IndexedHistory.new N).writeAll N xs
    (h.index.startIndicesFor key h.data).Nodup ∧
    ∀ p, p ∈ h.index.startIndicesFor key h.data ↔
      xs.length - N ≤ p ∧ p + 6 ≤ xs.length ∧ ∀ i, i < 6 → xs[p + i]? = key[i]? := by
  have hi : HistInv N ((IndexedHistory.new N).writeAll N xs) xs := by
    simpa using (HistInv.new N).writeAll hN xs
  simp only
  rw [hi.startIndices]
  refine ⟨nodup_occ _ _ _ _, fun p => ?_⟩
  rw [mem_occ]
  have e : (xs.drop p).take 6 = key ↔ p + 6 ≤ xs.length ∧ ∀ i, i < 6 → xs[p + i]? = key[i]? := by
    constructor
    · rintro rfl
      refine ⟨by simp at hk; omega, fun i hi => ?_⟩
      rw [List.getElem?_take_of_lt hi, List.getElem?_drop]
    · rintro ⟨h1, h2⟩
      have := take_eq_take_of_get (a := xs.drop p) (b := key) (k := 6)
        (fun i hi => by rw [List.getElem?_drop]; exact h2 i hi)
      rw [this, List.take_of_length_le (by omega)]
  rw [e]
  constructor
  · rintro ⟨h1, _, h2⟩; exact ⟨h1, h2⟩
  · rintro ⟨h1, h2⟩; exact ⟨h1, by omega, h2⟩

/-- 1 2 3 4 5 6 occurs at 0, 6, 12 and 18; a window of 16 bytes has lost the first two after 24 bytes. -/
example :
    let h := (IndexedHistory.new 16).writeAll 16
      ([1, 2, 3, 4, 5, 6] ++ [1, 2, 3, 4, 5, 6] ++ [1, 2, 3, 4, 5, 6] ++ [1, 2, 3, 4, 5, 6])
    h.index.startIndicesFor [1, 2, 3, 4, 5, 6] h.data = [12, 18] := by decide +kernel

/-- **C26.** The bytes written are symbols; every copy among them, at its place (`hist` being what the
symbols before it stand for, `rest` the remaining input), is a longest match of the remaining input
among all windows within the retained history, and the distance is at least the length, at most 65535.
Otherwise the output is a literal run only where no match of 6 bytes exists (`Factor`). -/
theorem C26_longest_match (cap : Caps) (hcap : ∀ i, repBufInit ≤ cap i) (input bytes : List UInt8)
    (h : bytesOf (zipBackEncode ringSize cap input) = .ok bytes) :
    ∃ syms, Factor ringSize [] [] input syms ∧ bytes = syms.flatMap symbolBytes ∧
      meaningFrom ringSize [] syms = some input ∧
      ∀ pre len back post, syms = pre ++ .lookBack len back :: post →
        ∃ hist rest, meaningFrom ringSize [] pre = some hist ∧ input = hist ++ rest ∧
          LongestCopy ringSize hist rest len back ∧ 6 ≤ len ∧ len ≤ back ∧ back ≤ 65535 := by
  obtain ⟨syms, hf, he⟩ := zipBackEncode_spec (show 0 < ringSize by decide) hcap input
  rw [he] at h
  obtain ⟨_, rfl⟩ := bytesOf_syms h
  refine ⟨syms, hf, rfl, by simpa using Factor.meaning hf [] rfl, ?_⟩
  intro pre len back post hs
  obtain ⟨x, r, h1, h2, h3⟩ := Factor.copies hf [] rfl pre len back post hs
  exact ⟨x, r, h1, by simpa using h2, by simpa using h3, h3.useful, h3.occurs.inside,
    h3.occurs.inWindow⟩

/-- A copy that exists: six bytes at distance 8 and at distance 16; the latter goes on longer. -/
example : bytesOf (zipBackEncode 64 (fun _ => 16)
      [1, 2, 3, 4, 5, 6, 7, 8, 1, 2, 3, 4, 5, 6, 9, 9, 1, 2, 3, 4, 5, 6, 7, 8])
    = .ok [8, 0, 1, 2, 3, 4, 5, 6, 7, 8, 6, 128, 8, 0, 2, 0, 9, 9, 8, 128, 16, 0] := by
  decide +kernel

/-- **C27**, a symbol that fits is written as `symbolBytes` and read back, consuming nothing more. -/
theorem C27_symbol_format (s : Back.Symbol) (h : Fits s) (rest : List UInt8) :
    Emits Emits.errOnly s.ser (symbolBytes s) () ∧
    Back.Symbol.de listNext (symbolBytes s ++ rest) = (.ok s, rest) ∧
    (symbolBytes s).length = (match s with | .explicit data => 2 + data.length | .lookBack _ _ => 4) := by
  refine ⟨emits_sym h, de_symbol h rest, ?_⟩
  cases s <;> simp [symbolBytes, le_two]; omega

example : Fits (.lookBack 32767 65535) ∧ Fits (.explicit [255, 255]) := by decide

/-- **C27**, the flag and the length do not disturb each other. -/
theorem C27_flag_and_length (len : Nat) (h : len ≤ 32767) :
    decompressLen (compressLen len 0) = (0, len) ∧ decompressLen (compressLen len 1) = (1, len) := by
  rw [decompressLen_spec, decompressLen_spec, compressLen0 h, compressLen1 h]
  rw [if_pos (by omega), if_neg (by omega)]
  refine ⟨by congr 1; omega, by congr 1; omega⟩

example : compressLen 32767 1 = 65535 := by decide

/-- **C27**, what does not fit is refused by a panic. -/
theorem C27_too_long_panics (s : Back.Symbol) (h : ¬ Fits s) : bytesOf s.ser = .panic := by
  have := ser_panics h (Sink.mem []) (fun _ => rfl)
  unfold bytesOf
  generalize s.ser (Sink.mem []) = r at *
  obtain ⟨r, k⟩ := r
  simp only at this
  subst this
  rfl

example : ¬ Fits (.lookBack 32768 40000) := by decide

/-- **C53.** Decoding arbitrary bytes: for every byte sequence there are an output and an ending, given
by `Reads`, and this is what the decoder does. -/
theorem C53_damaged_input (bytes : List UInt8) :
    ∃ out e, Reads ringSize [] bytes out e ∧
      (e = .none → EndsAfter Decoder.next (zipBackDecode ringSize bytes) out) ∧
      (e = .panic → PanicsAfter Decoder.next (zipBackDecode ringSize bytes) out) := by
  obtain ⟨out, e, hr⟩ := reads_total ringSize bytes.length [] bytes (Nat.le_refl _)
  refine ⟨out, e, hr, ?_⟩
  have := reads_outcome (show 0 < ringSize by decide) hr (DecInv.new ringSize bytes)
  simpa using this

/-- A copy from before the beginning. -/
example : Reads ringSize [] [2, 0, 7, 8, 1, 128, 3, 0] [7, 8] .panic :=
  .symbol (s := .explicit [7, 8]) (x := [7, 8]) (rest := [1, 128, 3, 0]) (by decide) rfl (by simp)
    (.dangling (s := .lookBack 1 3) (rest := []) (by decide) (by decide))
/-- An empty literal run hides the rest. -/
example : Reads ringSize [] [0, 0, 1, 0, 5] [] .none :=
  .empty (s := .explicit []) (rest := [1, 0, 5]) (by decide) rfl

end Cniic
