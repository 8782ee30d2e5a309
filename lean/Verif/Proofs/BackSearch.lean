import Verif.Spec.BackSearch
import Verif.Props.ZipBack

/-! # Proofs: where zip-back looks for repetitions -/

namespace Cniic.Back

open Cniic.Spec

/-- After a copy the encoder starts again. -/
theorem Factor.resumes {N : Nat} {h run rest : List UInt8} {syms : List Symbol} (hf : Factor N h run rest syms) :
    ∀ h0, h = h0 ++ run → ∀ pre len back post, syms = pre ++ .lookBack len back :: post →
      ∃ x r, meaningFrom N h0 (pre ++ [.lookBack len back]) = some x ∧ run ++ rest = x ++ r ∧ Factor N (h0 ++ x) [] r post := by
  induction hf with
  | @copy h run rest len back syms hc hf ih =>
    rintro h0 rfl pre l b post he
    have after : ∀ pre', syms = pre' ++ .lookBack l b :: post → pre = literal run ++ .lookBack len back :: pre' →
        ∃ x r, meaningFrom N h0 (pre ++ [.lookBack l b]) = some x ∧ run ++ rest = x ++ r ∧ Factor N (h0 ++ x) [] r post := by
      intro pre' h1 h2
      obtain ⟨x, r, h3, h4, h5⟩ := ih (h0 ++ run ++ rest.take len) (by simp) pre' l b post h1
      refine ⟨run ++ (rest.take len ++ x), r, ?_, ?_, by simpa [List.append_assoc] using h5⟩
      · rw [h2, List.append_assoc, List.cons_append, meaningFrom_append, meaningFrom_literal]
        simp only [meaningFrom, hc.occurs.meaning, h3]
      · rw [List.nil_append] at h4
        rw [List.append_assoc, List.append_assoc, ← h4, List.take_append_drop]
    have here : pre = literal run → len = l → back = b → syms = post →
        ∃ x r, meaningFrom N h0 (pre ++ [.lookBack l b]) = some x ∧ run ++ rest = x ++ r ∧ Factor N (h0 ++ x) [] r post := by
      rintro rfl rfl rfl rfl
      refine ⟨run ++ rest.take len, rest.drop len, ?_, by simp, by simpa using hf⟩
      rw [meaningFrom_append, meaningFrom_literal]
      simp only [meaningFrom, hc.occurs.meaning, List.append_nil]
    unfold literal at he here after
    by_cases hr : run = []
    · simp only [hr, if_true, List.nil_append] at he here after
      cases pre with
      | nil =>
        simp only [List.nil_append, List.cons.injEq, Symbol.lookBack.injEq] at he
        subst hr
        simpa using here rfl he.1.1 he.1.2 he.2
      | cons p pre =>
        simp only [List.cons_append, List.cons.injEq] at he
        subst hr
        simpa using after pre he.2 (by rw [he.1])
    · simp only [hr, if_false] at he here after
      cases pre with
      | nil => simp at he
      | cons p pre =>
        simp only [List.cons_append, List.cons.injEq, List.nil_append] at he
        obtain ⟨rfl, he⟩ := he
        cases pre with
        | nil =>
          simp only [List.nil_append, List.cons.injEq, Symbol.lookBack.injEq] at he
          exact here rfl he.1.1 he.1.2 he.2
        | cons p pre =>
          simp only [List.cons_append, List.cons.injEq] at he
          exact after pre he.2 (by rw [he.1]; rfl)
  | @extend h run rest syms _ _ _ ih =>
    rintro h0 rfl pre l b post he
    obtain ⟨x, r, h3, h4, h5⟩ := ih h0 (by simp) pre l b post he
    refine ⟨x, r, h3, ?_, h5⟩
    rw [← h4, List.append_assoc, List.take_append_drop]
  | @last h run rest _ _ =>
    rintro h0 rfl pre l b post he
    unfold literal at he
    by_cases hr : run ++ rest = []
    · simp [hr] at he
    · simp only [hr, if_false] at he
      cases pre with
      | nil => simp at he
      | cons p pre => simp at he

/-- A later part of a repetition is a repetition from the same distance. -/
theorem _root_.Cniic.Spec.Occurs.later {N : Nat} {hist rest : List UInt8} {len back : Nat} (h : Occurs N hist rest len back)
    {t : Nat} (ht : t ≤ len) : Occurs N (hist ++ rest.take t) (rest.drop t) (len - t) back := by
  have h1 := h.inHist
  have h2 := h.avail
  have h3 := h.inside
  have hl : (hist ++ rest.take t).length = hist.length + t := by
    rw [List.length_append, List.length_take, Nat.min_eq_left (by omega)]
  refine ⟨by omega, h.inWindow, by omega, by rw [List.length_drop]; omega, fun i hi => ?_⟩
  rw [hl, List.getElem?_drop, ← h.same (t + i) (by omega)]
  have e : hist.length + t - back + i = hist.length - back + (t + i) := by omega
  rw [e]
  by_cases hb : hist.length - back + (t + i) < hist.length
  · rw [List.getElem?_append_left hb]
  · omega

theorem probed_next {r e : Nat} (hr : Probed r) (he : Probed e) (h : r < e) : r + max r 2 ≤ e ∧ Probed (r + max r 2) := by
  rcases he with rfl | ⟨k, rfl⟩
  · omega
  rcases hr with rfl | ⟨i, rfl⟩
  · have : 2 ^ 1 ≤ 2 ^ (k + 1) := Nat.pow_le_pow_right (by omega) (by omega)
    exact ⟨by simpa using this, .inr ⟨0, rfl⟩⟩
  · have hi : i + 1 < k + 1 := (Nat.pow_lt_pow_iff_right (a := 2) (by omega)).1 h
    have h1 : 2 ^ (i + 1 + 1) ≤ 2 ^ (k + 1) := Nat.pow_le_pow_right (by omega) (by omega)
    have h2 : 2 ^ (i + 1) + max (2 ^ (i + 1)) 2 = 2 ^ (i + 1 + 1) := by
      have := Nat.two_pow_pos i
      rw [Nat.pow_succ 2 (i + 1), Nat.pow_succ]
      omega
    exact ⟨by omega, .inr ⟨i + 1, h2⟩⟩

/-- A repetition that begins `d` bytes further on is found at the latest at the next place probed, if enough of it is left there. -/
theorem Factor.found {N : Nat} {hist run rest : List UInt8} {syms : List Symbol} (hf : Factor N hist run rest syms)
    (hrun : Probed run.length) {d e len back : Nat} (ho : Occurs N (hist ++ rest.take d) (rest.drop d) len back)
    (he : Probed e) (hle : run.length + d ≤ e) (hlen : e - (run.length + d) + 6 ≤ len) :
    ∃ run' l b post, syms = literal run' ++ .lookBack l b :: post ∧ run'.length ≤ e := by
  induction hf generalizing d len with
  | @copy hist run rest l b syms hc _ _ => exact ⟨run, l, b, syms, rfl, by omega⟩
  | @extend hist run rest syms hn hle' _ ih =>
    have hlt : run.length < e := by
      apply Decidable.byContradiction
      intro hge
      have : d = 0 := by omega
      subst this
      have := hn _ _ (by simpa using ho)
      omega
    obtain ⟨h1, h2⟩ := probed_next hrun he hlt
    have hrl : (run ++ rest.take (max run.length 2)).length = run.length + max run.length 2 := by
      rw [List.length_append, List.length_take, Nat.min_eq_left hle']
    have htake : ∀ a b, (rest.take a) ++ (rest.drop a).take b = rest.take (a + b) := fun a b => by
      rw [List.take_add]
    by_cases hdt : max run.length 2 ≤ d
    · have e : d = max run.length 2 + (d - max run.length 2) := by omega
      rw [e, ← htake, ← List.append_assoc, ← List.drop_drop] at ho
      exact ih (by rw [hrl]; exact h2) ho (by omega) (by omega)
    · have ho' := ho.later (t := max run.length 2 - d) (by omega)
      rw [List.append_assoc, htake, List.drop_drop, show d + (max run.length 2 - d) = max run.length 2 by omega] at ho'
      exact ih (by rw [hrl]; exact h2) (d := 0) (by simpa using ho') (by omega) (by omega)
  | @last hist run rest hn hlt' =>
    have hlt : run.length < e := by
      apply Decidable.byContradiction
      intro hge
      have : d = 0 := by omega
      subst this
      have := hn _ _ (by simpa using ho)
      omega
    have := (probed_next hrun he hlt).1
    have := ho.avail
    rw [List.length_drop] at this
    omega

theorem Factor.alternate {N : Nat} {hist run rest : List UInt8} {syms : List Symbol} (hf : Factor N hist run rest syms)
    (hrun : run = [] ∨ ∃ k, run.length = 2 ^ (k + 1)) : Alternate syms := by
  induction hf with
  | @copy hist run rest l b syms hc _ ih =>
    have h := ih (.inl rfl)
    rcases hrun with rfl | ⟨k, hk⟩
    · exact .copy h
    · have : run ≠ [] := fun e => by
        rw [e] at hk
        have := Nat.two_pow_pos (k + 1)
        simp at hk
        omega
      rw [literal, if_neg this]
      exact .both hk h
  | @extend hist run rest syms _ hle _ ih =>
    refine ih (.inr ?_)
    rw [List.length_append, List.length_take, Nat.min_eq_left hle]
    rcases hrun with rfl | ⟨k, hk⟩
    · exact ⟨0, rfl⟩
    · refine ⟨k + 1, ?_⟩
      have : 2 ^ (k + 1) = 2 ^ k * 2 := rfl
      have := Nat.two_pow_pos k
      rw [hk, Nat.pow_succ 2 (k + 1)]
      omega
  | @last hist run rest _ _ =>
    unfold literal
    split
    · exact .nil
    · exact .last _

/-- Nothing is found at the powers of two: everything is literal. -/
theorem factor_nothing {N : Nat} {input : List UInt8}
    (h : ∀ k, 2 ^ (k + 1) ≤ input.length → NoCopy N (input.take (2 ^ (k + 1))) (input.drop (2 ^ (k + 1)))) :
    Factor N [] [] input (literal input) := by
  have main : ∀ n k, input.length - 2 ^ (k + 1) ≤ n → 2 ^ (k + 1) ≤ input.length →
      Factor N (input.take (2 ^ (k + 1))) (input.take (2 ^ (k + 1))) (input.drop (2 ^ (k + 1))) (literal input) := by
    intro n
    induction n with
    | zero =>
      intro k hn hk
      have hm : (input.take (2 ^ (k + 1))).length = 2 ^ (k + 1) := by rw [List.length_take, Nat.min_eq_left hk]
      have := Factor.last (run := input.take (2 ^ (k + 1))) (h k hk) (by
        have := Nat.two_pow_pos (k + 1)
        rw [List.length_drop, hm]; omega)
      rwa [List.take_append_drop] at this
    | succ n ih =>
      intro k hn hk
      have hm : (input.take (2 ^ (k + 1))).length = 2 ^ (k + 1) := by rw [List.length_take, Nat.min_eq_left hk]
      have h2 : max (2 ^ (k + 1)) 2 = 2 ^ (k + 1) := by
        have := Nat.two_pow_pos k
        rw [Nat.pow_succ]; omega
      by_cases hl : 2 ^ (k + 1) ≤ input.length - 2 ^ (k + 1)
      · apply Factor.extend (h k hk) (by rw [hm, List.length_drop, h2]; exact hl)
        rw [hm, h2, ← List.take_add, List.drop_drop, ← Nat.mul_two, ← Nat.pow_succ]
        have := Nat.two_pow_pos (k + 1)
        exact ih (k + 1) (by rw [Nat.pow_succ 2 (k + 1)]; omega) (by rw [Nat.pow_succ 2 (k + 1)]; omega)
      · have := Factor.last (run := input.take (2 ^ (k + 1))) (h k hk) (by rw [hm, List.length_drop, h2]; omega)
        rwa [List.take_append_drop] at this
  have h0 : NoCopy N [] input := by
    intro len back ho
    have := ho.inHist
    have := ho.inside
    simp at *
    omega
  by_cases hl : 2 ≤ input.length
  · exact .extend h0 (by simpa using hl) (by simpa using main _ 0 (Nat.le_refl _) hl)
  · exact .last h0 (by simp; omega)

end Cniic.Back
