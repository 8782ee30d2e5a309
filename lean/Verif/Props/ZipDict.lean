import Verif.Proofs.ZipDict

/-! # Properties of the dictionary coder (C15 - C20) -/

namespace Cniic
open Spec

/-- **C15.** Every byte sequence can be encoded, and decoding gives it back exactly, then ends. -/
theorem C15_zip_dict_round_trip (input : List UInt8) :
    ∃ bytes, Emits Emits.errOnly (zipDictEncode input) bytes () ∧
      Yields DictDecoder.next (zipDictDecode bytes) input := by
  obtain ⟨syms, hp, he⟩ := zipDictEncode_spec input
  refine ⟨_, he, ?_⟩
  have h := zipDictDecode_outcome (symBytes syms)
  rw [hp.meaning goodDict_start.le] at h
  exact h

/-- **C16.** The output is the sequence of symbols of the greedy parse: every symbol stands for the
longest known sequence at that point (`Longest` inside `Parse`), and the dictionary learns the
concatenation of each pair. -/
theorem C16_longest_known_sequence (input : List UInt8) :
    ∃ syms, Emits Emits.errOnly (zipDictEncode input) (symBytes syms) () ∧
      Parse oneByteSeqs input syms := by
  obtain ⟨syms, hp, he⟩ := zipDictEncode_spec input
  exact ⟨syms, he, hp⟩

theorem longest_example : Longest oneByteSeqs [1, 2, 1, 2] 1 [1] [2, 1, 2] :=
  ⟨rfl, by simp, by decide +kernel, by decide +kernel⟩

/-- The parse of `1 2 1 2 1 2`: the pair `1 2` becomes symbol 256. -/
example : Parse oneByteSeqs [1, 2, 1, 2, 1, 2] [1, 2, 256, 256] :=
  .two (x1 := [1]) (i' := [2, 1, 2, 1, 2]) (x2 := [2]) (i'' := [1, 2, 1, 2])
    ⟨rfl, by simp, by decide +kernel, by decide +kernel⟩
    ⟨rfl, by simp, by decide +kernel, by decide +kernel⟩
    (.two (x1 := [1, 2]) (i' := [1, 2]) (x2 := [1, 2]) (i'' := [])
      ⟨rfl, by simp, by decide +kernel, by decide +kernel⟩
      ⟨rfl, by simp, by decide +kernel, by decide +kernel⟩
      .nil)

/-- **C17**, format: whole pairs; the end marker 65535 only as the last symbol of all. -/
theorem C17_symbol_format (input : List UInt8) :
    ∃ syms, Emits Emits.errOnly (zipDictEncode input) (symBytes syms) () ∧
      syms.length % 2 = 0 ∧ ∀ j, syms[j]? = some 65535 → j + 1 = syms.length := by
  obtain ⟨syms, hp, he⟩ := zipDictEncode_spec input
  refine ⟨syms, he, ?_⟩
  clear he
  have hle : oneByteSeqs.length ≤ 65535 := goodDict_start.le
  revert hle
  generalize oneByteSeqs = known at hp
  intro hle
  induction hp with
  | nil => simp
  | @one known i s x h =>
    refine ⟨by simp, ?_⟩
    intro j hj
    have := h.lt hle
    match j with
    | 0 =>
      simp at hj; subst hj; exact absurd this (by decide)
    | 1 => rfl
    | j + 2 => simp at hj
  | @two known i s1 x1 i' s2 x2 i'' syms h1 h2 _ ih =>
    obtain ⟨hl, hm⟩ := ih (learn_le hle _)
    refine ⟨by simp only [List.length_cons]; omega, ?_⟩
    intro j hj
    have l1 := h1.lt hle
    have l2 := h2.lt hle
    match j with
    | 0 => simp at hj; subst hj; exact absurd l1 (by decide)
    | 1 => simp at hj; subst hj; exact absurd l2 (by decide)
    | j + 2 =>
      simp at hj
      have := hm j hj
      simp only [List.length_cons]; omega

/-- **C17**, numbering: in every dictionary that arises during an encoding, each sequence occurs once
(its symbol is its index), the single bytes come first with their own value as symbol, the dictionary
never has more than 65535 entries (so the marker is never used up), and no entry is empty. -/
theorem C17_symbol_numbers (input : List UInt8) :
    ∃ syms, Emits Emits.errOnly (zipDictEncode input) (symBytes syms) () ∧
      Parse oneByteSeqs input syms ∧
      ∀ known i, During oneByteSeqs input syms known i →
        known.Nodup ∧ [] ∉ known ∧ known.length ≤ 65535 ∧
        (∀ b : UInt8, known[b.toNat]? = some [b]) ∧
        ∀ (s : UInt16) (b : UInt8), known[s.toNat]? = some [b] → s.toNat = b.toNat := by
  obtain ⟨syms, hp, he⟩ := zipDictEncode_spec input
  refine ⟨syms, he, hp, ?_⟩
  intro known i hd
  have hgood : GoodDict known := by
    have h0 := goodDict_start
    clear he hp
    revert h0
    generalize oneByteSeqs = k0 at hd
    intro h0
    induction hd with
    | here => exact h0
    | later h1 h2 _ ih => exact ih (h0.learn h1 h2)
  refine ⟨hgood.nodup, hgood.nonempty, hgood.le, ?_, fun s b => hgood.one⟩
  intro b
  obtain ⟨t, rfl⟩ := hgood.ones
  have hl : b.toNat < oneByteSeqs.length := by
    unfold oneByteSeqs; rw [List.length_map, List.length_range]; exact b.toNat_lt
  rw [List.getElem?_append_left hl]
  unfold oneByteSeqs
  rw [List.getElem?_map, List.getElem?_range b.toNat_lt]
  simp

/-- **C18.** With `n` symbols besides the marker (at most one per input byte, none exactly for the empty
input), the output has 2 bytes per symbol, rounded up to whole pairs. -/
theorem C18_output_size (input : List UInt8) :
    ∃ bytes n, Emits Emits.errOnly (zipDictEncode input) bytes () ∧
      n ≤ input.length ∧ (n = 0 ↔ input = []) ∧ bytes.length = 2 * (n + n % 2) := by
  obtain ⟨syms, hp, he⟩ := zipDictEncode_spec input
  refine ⟨_, (syms.filter (· ≠ 65535)).length, he, ?_⟩
  clear he
  have hsb : (symBytes syms).length = 2 * syms.length := by
    clear hp
    induction syms with
    | nil => rfl
    | cons s syms ih =>
      simp only [symBytes, List.flatMap_cons, List.length_append, List.length_cons,
        List.length_nil] at ih ⊢
      omega
  rw [hsb]
  have hle : oneByteSeqs.length ≤ 65535 := goodDict_start.le
  clear hsb
  revert hle
  generalize oneByteSeqs = known at hp
  intro hle
  induction hp with
  | nil => simp
  | @one known i s x h =>
    have hs : s ≠ 65535 := by
      have := h.lt hle
      rintro rfl; exact absurd this (by decide)
    have := List.length_pos_iff.2 h.nonempty
    have h2 := h.split
    rw [List.append_nil] at h2
    subst h2
    simp [hs, h.nonempty]
    omega
  | @two known i s1 x1 i' s2 x2 i'' syms h1 h2 _ ih =>
    obtain ⟨ha, hb, hc⟩ := ih (learn_le hle _)
    have hs1 : s1 ≠ 65535 := by
      have := h1.lt hle
      rintro rfl; exact absurd this (by decide)
    have hs2 : s2 ≠ 65535 := by
      have := h2.lt hle
      rintro rfl; exact absurd this (by decide)
    have p1 := List.length_pos_iff.2 h1.nonempty
    have p2 := List.length_pos_iff.2 h2.nonempty
    have e1 := h1.split
    have e2 := h2.split
    have hlen : i.length = x1.length + (x2.length + i''.length) := by
      rw [e1, e2]; simp
    rw [List.filter_cons_of_pos (by simpa using hs1), List.filter_cons_of_pos (by simpa using hs2)]
    simp only [List.length_cons]
    refine ⟨by omega, ⟨by omega, ?_⟩, by omega⟩
    rintro rfl
    simp at hlen; omega

/-- **C19.** After any history of insertions of non-empty keys, descending along a key finds the value
inserted last for exactly this key, and the next insertion succeeds and reports this value. -/
theorem C19_trie_is_a_map {T : Type} (hist : List (List UInt8 × T)) (hk : ∀ e ∈ hist, e.1 ≠ []) :
    ∃ n, insertHistory hist = some n ∧ (∀ key, descend n key = lastValue key hist) ∧
      ∀ key v, key ≠ [] → ∃ n', n.insert key v = some (n', lastValue key hist) := by
  have h : ∃ n, insertHistory hist = some n ∧ n.WF ∧ ∀ key, descend n key = lastValue key hist := by
    induction hist with
    | nil => exact ⟨.new, rfl, Node.wf_new, fun key => Node.descend_new key⟩
    | cons e hist ih =>
      obtain ⟨n, h1, h2, h3⟩ := ih (fun e he => hk e (by simp [he]))
      obtain ⟨n', h4, h5, h6⟩ := Node.insert_spec h2 (hk e (by simp)) e.2
      refine ⟨n', by simp only [insertHistory, h1, h4], h5, ?_⟩
      intro key
      rw [h6, h3, lastValue]
      by_cases hke : key = e.1
      · simp [hke]
      · simp [hke, Ne.symm hke]
  obtain ⟨n, h1, h2, h3⟩ := h
  refine ⟨n, h1, h3, ?_⟩
  intro key v hne
  obtain ⟨n', h4, _, _⟩ := Node.insert_spec h2 hne v
  exact ⟨n', by rw [h4, h3]⟩

example : ∀ e ∈ [([1, 2, 3], 'a'), ([1, 2], 'b'), ([1, 2, 3], 'c')], e.1 ≠ ([] : List UInt8) := by
  simp

/-- With 65 children values a node is in the full representation, with 64 it is not. -/
example : ((insertHistory ((List.range 65).map fun b => ([UInt8.ofNat b], b))).map fun n =>
      match n.values with | .full _ => true | .part _ _ => false) = some true ∧
    ((insertHistory ((List.range 64).map fun b => ([UInt8.ofNat b], b))).map fun n =>
      match n.values with | .full _ => true | .part _ _ => false) = some false := by
  decide +kernel

/-- **C20.** Decoding arbitrary bytes: `meaning` tells which bytes come out, and whether the decoder then
ends or panics. -/
theorem C20_damaged_input (encoded : List UInt8) :
    ((meaning oneByteSeqs encoded).2 = true →
      Yields DictDecoder.next (zipDictDecode encoded) (meaning oneByteSeqs encoded).1) ∧
    ((meaning oneByteSeqs encoded).2 = false →
      PanicsAfter DictDecoder.next (zipDictDecode encoded) (meaning oneByteSeqs encoded).1) := by
  have h := zipDictDecode_outcome encoded
  constructor
  · intro e; rw [e] at h; exact h
  · intro e; rw [e] at h; exact h

/-- An unknown symbol, after one good pair. -/
example : meaning oneByteSeqs [1, 0, 2, 0, 0, 1, 1, 1] = ([1, 2], false) := by decide +kernel
/-- An odd number of symbols. -/
example : meaning oneByteSeqs [1, 0, 2, 0, 3, 0] = ([1, 2], false) := by decide +kernel
/-- A stray last byte is ignored; the end marker may appear anywhere. -/
example : meaning oneByteSeqs [255, 255, 1, 0, 2, 0, 0, 1, 7] = ([1, 2, 1], true) := by
  decide +kernel

/-- **C20**, an odd number of symbols always panics (somewhere). -/
theorem C20_odd_symbols_panic (encoded : List UInt8) (h : encoded.length % 4 ≥ 2) :
    ∃ out, PanicsAfter DictDecoder.next (zipDictDecode encoded) out := by
  refine ⟨_, (C20_damaged_input encoded).2 ?_⟩
  generalize oneByteSeqs = known
  fun_induction meaning known encoded with
  | case1 known a b c d rest x y hx hy m ih =>
    simp only [List.length_cons] at h
    exact ih (by omega)
  | case2 => rfl
  | case3 known l hl =>
    match l, hl with
    | [], _ => simp at h
    | [a], _ => simp at h
    | [a, b], _ => rfl
    | [a, b, c], _ => rfl
    | a :: b :: c :: d :: rest, hl => exact absurd rfl (hl a b c d rest)

end Cniic
