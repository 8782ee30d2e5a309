import Verif.Proofs.BackSearch

/-!
# Where zip-back looks for repetitions (C101)
-/

namespace Cniic
open Spec Back

theorem probed_near (d : Nat) : ∃ e, Probed e ∧ d ≤ e ∧ e ≤ 2 * d := by
  cases d with
  | zero => exact ⟨0, .inl rfl, by omega, by omega⟩
  | succ d =>
    have : ∀ n, ∃ k, n + 1 ≤ 2 ^ (k + 1) ∧ 2 ^ k ≤ n + 1 := by
      intro n
      induction n with
      | zero => exact ⟨0, by decide, by decide⟩
      | succ n ih =>
        obtain ⟨k, h1, h2⟩ := ih
        by_cases h : n + 2 ≤ 2 ^ (k + 1)
        · exact ⟨k, h, by omega⟩
        · refine ⟨k + 1, ?_, by omega⟩
          have := Nat.two_pow_pos k
          rw [Nat.pow_succ 2 (k + 1)]
          rw [Nat.pow_succ] at h h1 ⊢
          omega
    obtain ⟨k, h1, h2⟩ := this d
    exact ⟨2 ^ (k + 1), .inr ⟨k, rfl⟩, h1, by rw [Nat.pow_succ]; omega⟩

/-- **C101.** The output is an alternation of literal runs and copies; a literal run that is followed by anything is followed by
a copy, and its length is a power of two, at most 16384. -/
theorem C101_runs (cap : Caps) (hcap : ∀ i, repBufInit ≤ cap i) (input bytes : List UInt8)
    (h : bytesOf (zipBackEncode ringSize cap input) = .ok bytes) :
    ∃ syms, bytes = syms.flatMap symbolBytes ∧ meaningFrom ringSize [] syms = some input ∧ Alternate syms ∧
      ∀ pre data s post, syms = pre ++ .explicit data :: s :: post →
        (∃ len back, s = .lookBack len back) ∧ ∃ k, k ≤ 13 ∧ data.length = 2 ^ (k + 1) := by
  obtain ⟨syms, hf, he⟩ := zipBackEncode_spec (show 0 < ringSize by decide) hcap input
  rw [he] at h
  obtain ⟨hfit, rfl⟩ := bytesOf_syms h
  have ha := Factor.alternate hf (.inl rfl)
  refine ⟨syms, rfl, by simpa using Factor.meaning hf [] rfl, ha, ?_⟩
  clear hf he h
  intro pre data s post e
  induction ha generalizing pre with
  | nil => simp at e
  | last d =>
    cases pre with
    | nil => simp at e
    | cons p pre => simp at e
  | copy _ ih =>
    cases pre with
    | nil => simp at e
    | cons p pre =>
      simp only [List.cons_append, List.cons.injEq] at e
      exact ih (fun s hs => hfit s (List.mem_cons_of_mem _ hs)) pre e.2
  | @both data' k len back syms hk _ ih =>
    cases pre with
    | nil =>
      simp only [List.nil_append, List.cons.injEq, Symbol.explicit.injEq] at e
      obtain ⟨rfl, rfl, rfl⟩ := e
      refine ⟨⟨_, _, rfl⟩, k, ?_, hk⟩
      have hle : data'.length ≤ 32767 := hfit (.explicit data') (by simp)
      rw [hk] at hle
      have : k + 1 < 15 := (Nat.pow_lt_pow_iff_right (a := 2) (by omega)).1 (by omega)
      omega
    | cons p pre =>
      simp only [List.cons_append, List.cons.injEq] at e
      cases pre with
      | nil =>
        simp only [List.nil_append, List.cons.injEq] at e
        exact absurd e.2.1 (by simp)
      | cons p' pre =>
        simp only [List.cons_append, List.cons.injEq] at e
        exact ih (fun s hs => hfit s (List.mem_cons_of_mem _ (List.mem_cons_of_mem _ hs))) pre e.2.2

/-- **C101**, what is found: suppose a repetition begins `d` bytes after a copy or the beginning of the input, and at the next
place probed, `e` bytes after it, at least 6 bytes of it are left.  Then a copy follows after at most `e` literal bytes.  For a
repetition of `d + 6` bytes this is always so, with at most `2 d` literal bytes. -/
theorem C101_found (cap : Caps) (hcap : ∀ i, repBufInit ≤ cap i) (input bytes : List UInt8)
    (h : bytesOf (zipBackEncode ringSize cap input) = .ok bytes) :
    ∃ syms, bytes = syms.flatMap symbolBytes ∧
      ∀ pre post, syms = pre ++ post → (pre = [] ∨ ∃ pre' l b, pre = pre' ++ [.lookBack l b]) →
        ∃ hist rest, meaningFrom ringSize [] pre = some hist ∧ input = hist ++ rest ∧
          ∀ d len back, Occurs ringSize (hist ++ rest.take d) (rest.drop d) len back →
            (∀ e, Probed e → d ≤ e → e - d + 6 ≤ len →
              ∃ run l b post', post = literal run ++ .lookBack l b :: post' ∧ run.length ≤ e) ∧
            (d + 6 ≤ len → ∃ run l b post', post = literal run ++ .lookBack l b :: post' ∧ run.length ≤ 2 * d) := by
  obtain ⟨syms, hf, he⟩ := zipBackEncode_spec (show 0 < ringSize by decide) hcap input
  rw [he] at h
  obtain ⟨hfit, rfl⟩ := bytesOf_syms h
  refine ⟨syms, rfl, ?_⟩
  intro pre post e hp
  have key : ∃ hist rest, meaningFrom ringSize [] pre = some hist ∧ input = hist ++ rest ∧ Factor ringSize hist [] rest post := by
    rcases hp with rfl | ⟨pre', l, b, rfl⟩
    · exact ⟨[], input, rfl, rfl, by rw [List.nil_append] at e; exact e ▸ hf⟩
    · rw [List.append_assoc, List.singleton_append] at e
      obtain ⟨x, r, h1, h2, h3⟩ := Factor.resumes hf [] rfl pre' l b post e
      exact ⟨x, r, h1, by simpa using h2, by simpa using h3⟩
  obtain ⟨hist, rest, h1, h2, h3⟩ := key
  refine ⟨hist, rest, h1, h2, fun d len back ho => ?_⟩
  have key : ∀ e, Probed e → d ≤ e → e - d + 6 ≤ len →
      ∃ run l b post', post = literal run ++ .lookBack l b :: post' ∧ run.length ≤ e := by
    intro e he hde hlen
    exact Factor.found h3 (.inl rfl) ho he (by simpa using hde) (by simpa using hlen)
  refine ⟨key, fun hlen => ?_⟩
  obtain ⟨e, he, h4, h5⟩ := probed_near d
  obtain ⟨run, l, b, post', h6, h7⟩ := key e he h4 (by omega)
  exact ⟨run, l, b, post', h6, by omega⟩

/-- **C101**, what is missed: an input of at most 32767 bytes in which no repetition begins at a power of two is stored as it is,
whatever else occurs twice in it. -/
theorem C101_missed (cap : Caps) (hcap : ∀ i, repBufInit ≤ cap i) {input : List UInt8} (hne : input ≠ [])
    (hl : input.length ≤ 32767)
    (h : ∀ k, 2 ^ (k + 1) ≤ input.length → NoCopy ringSize (input.take (2 ^ (k + 1))) (input.drop (2 ^ (k + 1)))) :
    Emits Emits.errOnly (zipBackEncode ringSize cap input) (le 2 input.length ++ input) () := by
  obtain ⟨syms, hf, he⟩ := zipBackEncode_spec (show 0 < ringSize by decide) hcap input
  have := hf.unique (factor_nothing h)
  subst this
  rw [he]
  have := emits_syms (syms := literal input) (by
    intro s hs
    rw [literal, if_neg hne, List.mem_singleton] at hs
    subst hs
    exact hl)
  rw [literal, if_neg hne] at this ⊢
  simpa [symbolBytes] using this

theorem noCopy_of_gram {N : Nat} {input : List UInt8} {e : Nat}
    (h : ∀ p, p + 6 ≤ e → (input.drop p).take 6 = (input.drop e).take 6 → (input.drop e).length < 6) :
    NoCopy N (input.take e) (input.drop e) := by
  intro len back ho
  apply Decidable.byContradiction
  intro hlen
  have h1 := ho.inHist
  have h2 := ho.inside
  have h3 := ho.avail
  have hle : (input.take e).length = e := by
    rw [List.length_take, Nat.min_eq_left]
    rw [List.length_drop] at h3
    omega
  have := h (e - back) (by omega) (by
    apply List.ext_getElem?
    intro i
    rw [List.getElem?_take, List.getElem?_take]
    split
    · rename_i hi
      have h4 := ho.same i (by omega)
      rw [hle, List.getElem?_take, if_pos (by omega)] at h4
      rw [List.getElem?_drop, h4]
    · rfl)
  omega

/-- **C101**, a copy of half the input is missed: for any `2 ^ j + 1` bytes without repetitions, written twice, the file has
two bytes more than the input.  The same symbols could say it in 6 bytes more than half of it, and the decoder would
understand. -/
theorem C101_doubled (cap : Caps) (hcap : ∀ i, repBufInit ≤ cap i) {j : Nat} {x : List UInt8} (hj : j ≤ 13)
    (hx : x.length = 2 ^ j + 1) (hn : NoRepetition x) :
    Emits Emits.errOnly (zipBackEncode ringSize cap (x ++ x)) (le 2 (2 * x.length) ++ (x ++ x)) () ∧
    Yields Decoder.next (zipBackDecode ringSize (le 2 x.length ++ x ++ le 2 (32768 + x.length) ++ le 2 x.length)) (x ++ x) ∧
    (le 2 (2 * x.length) ++ (x ++ x)).length = 2 * x.length + 2 ∧
    (le 2 x.length ++ x ++ le 2 (32768 + x.length) ++ le 2 x.length).length = x.length + 6 := by
  have hlen : x.length ≤ 8193 := by
    have := Nat.pow_le_pow_right (n := 2) (by omega) hj
    omega
  have hne : x ≠ [] := fun e => by rw [e] at hx; simp at hx
  have htwo : ∀ n, (le 2 n).length = 2 := fun n => by simp [le]
  refine ⟨?_, ?_, ?_, ?_⟩
  · have := C101_missed cap hcap (input := x ++ x) (by simpa using hne) (by rw [List.length_append]; omega) (by
      intro k hk
      rw [List.length_append] at hk
      apply noCopy_of_gram
      intro p hp heq
      have hkj : k + 1 ≤ j ∨ k + 1 = j + 1 ∨ j + 2 ≤ k + 1 := by omega
      rcases hkj with hkj | hkj | hkj
      · have := Nat.pow_le_pow_right (n := 2) (by omega) hkj
        exact absurd heq (hn p _ (by omega) (by omega))
      · rw [List.length_drop, List.length_append, hkj, Nat.pow_succ, hx]
        omega
      · have := Nat.pow_le_pow_right (n := 2) (by omega) hkj
        rw [Nat.pow_add 2 j 2] at this
        have h1 := Nat.two_pow_pos j
        rw [List.length_drop, List.length_append]
        omega)
    rwa [List.length_append, ← Nat.two_mul] at this
  · have hN : x.length ≤ ringSize := by unfold ringSize; omega
    have := yields_meaning (show 0 < ringSize by decide) [.explicit x, .lookBack x.length x.length] (by
      intro s hs
      simp only [List.mem_cons, List.not_mem_nil, or_false] at hs
      rcases hs with rfl | rfl
      · show x.length ≤ 32767
        omega
      · exact ⟨by omega, by omega⟩) (h := []) (out := x ++ x) (by
      simp only [meaningFrom, symbolMeaning, List.nil_append]
      rw [if_pos ⟨Nat.le_refl _, hN⟩]
      simp) (by
      intro s hs
      simp only [List.mem_cons, List.not_mem_nil, or_false] at hs
      rcases hs with rfl | rfl
      · refine ⟨fun h => hne ?_, fun _ _ h => Symbol.noConfusion h⟩
        cases h
        rfl
      · refine ⟨Symbol.noConfusion, fun l b h => ?_⟩
        cases h
        exact ⟨List.length_pos_iff.2 hne, List.length_pos_iff.2 hne⟩) (DecInv.new ringSize _)
    simpa [symbolBytes] using this
  · rw [List.length_append, List.length_append, htwo]
    omega
  · simp only [List.length_append, htwo]
    omega

/-! ## Examples -/

theorem noRepetition_of_nodup {x : List UInt8} (h : x.Nodup) : NoRepetition x := by
  intro p q hpq hq e
  have e0 := congrArg (fun l => l[0]?) e
  simp only [List.getElem?_take, List.getElem?_drop] at e0
  rw [if_pos (by omega), if_pos (by omega), List.getElem?_append_left (by omega), List.getElem?_append_left (by omega),
    List.getElem?_eq_getElem (by omega), List.getElem?_eq_getElem (by omega), Option.some.injEq] at e0
  exact List.pairwise_iff_getElem.1 h p q (by omega) hq hpq e0

/-- 129 different bytes. -/
def run129 : List UInt8 := (List.range 129).map UInt8.ofNat

theorem run129_ok : run129.length = 2 ^ 7 + 1 ∧ NoRepetition run129 := by
  refine ⟨by simp [run129], noRepetition_of_nodup ?_⟩
  unfold run129
  rw [List.Nodup, List.pairwise_map]
  refine List.Pairwise.imp_of_mem ?_ List.nodup_range
  intro a b ha hb hab h
  rw [List.mem_range] at ha hb
  have := congrArg UInt8.toNat h
  simp only [UInt8.toNat_ofNat'] at this
  omega

/-- Written twice: 260 bytes, where 135 would do. -/
example : ∃ bytes, bytesOf (zipBackEncode ringSize (fun _ => 16) (run129 ++ run129)) = .ok bytes ∧ bytes.length = 260 := by
  obtain ⟨h1, -, h3, -⟩ := C101_doubled (fun _ => 16) (fun _ => by decide) (j := 7) (by decide) run129_ok.1 run129_ok.2
  exact ⟨_, h1.bytesOf, by rw [h3, run129_ok.1]⟩

/-- Eight bytes written twice: the repetition begins where the encoder looks for it. -/
example : bytesOf (zipBackEncode 16 (fun _ => 16) [1, 2, 3, 4, 5, 6, 7, 8, 1, 2, 3, 4, 5, 6, 7, 8]) =
    .ok [8, 0, 1, 2, 3, 4, 5, 6, 7, 8, 8, 128, 8, 0] := by decide +kernel

/-- Nine bytes written twice: missed. -/
example : bytesOf (zipBackEncode 18 (fun _ => 16) [1, 2, 3, 4, 5, 6, 7, 8, 9, 1, 2, 3, 4, 5, 6, 7, 8, 9]) =
    .ok [18, 0, 1, 2, 3, 4, 5, 6, 7, 8, 9, 1, 2, 3, 4, 5, 6, 7, 8, 9] := by decide +kernel

/-- Thirteen bytes written twice: the repetition begins after 13 bytes, the encoder looks for it after 16. -/
example : Occurs ringSize ([] ++ [1, 2, 3, 4, 5, 6, 7, 8, 9, 10, 11, 12, 13, 1, 2, 3, 4, 5, 6, 7, 8, 9, 10, 11, 12, 13].take 13)
    ([1, 2, 3, 4, 5, 6, 7, 8, 9, 10, 11, 12, 13, 1, 2, 3, 4, 5, 6, 7, 8, 9, 10, 11, 12, 13].drop 13) 13 13 ∧
    Probed 16 ∧ 16 - 13 + 6 ≤ 13 := by
  refine ⟨⟨by decide, by decide, by decide, by decide, fun i hi => ?_⟩, .inr ⟨3, rfl⟩, by decide⟩
  simp

end Cniic
