import Verif.Spec.Resync
import Verif.Proofs.Damage
import Verif.Proofs.CodeLengths

/-! # Proofs: reading symbols after damaged bits -/

namespace Cniic
open Spec SerSpec

variable {T : Type}

theorem reading_length {t : BinTrie T} {n : Nat} {bits rest : List Bool} {xs : List T}
    (h : reading t n bits = some (xs, rest)) : xs.length = n := by
  induction n generalizing bits xs with
  | zero => rw [reading] at h; cases h; rfl
  | succ n ih =>
    rw [reading] at h
    split at h
    · obtain ⟨r, hr, e⟩ := Option.map_eq_some_iff.1 h
      cases e
      rw [List.length_cons, ih (xs := r.1) hr]
    · cases h

theorem reading_spelled {t : BinTrie T} {n : Nat} {bits rest : List Bool} {xs : List T}
    (h : reading t n bits = some (xs, rest)) (k : Nat) : spelled t (n + k) bits = xs ++ spelled t k rest := by
  induction n generalizing bits xs with
  | zero => rw [reading] at h; cases h; rw [Nat.zero_add]; rfl
  | succ n ih =>
    rw [reading] at h
    split at h
    · next x b hf =>
      obtain ⟨r, hr, e⟩ := Option.map_eq_some_iff.1 h
      cases e
      rw [show n + 1 + k = n + k + 1 by omega, spelled, hf]
      dsimp only
      rw [ih (xs := r.1) hr, List.cons_append]
    · cases h

/-- Reading fewer symbols gives the first ones. -/
theorem spelled_of_le (t : BinTrie T) {a b : Nat} (h : a ≤ b) (bits : List Bool) :
    spelled t a bits = (spelled t b bits).take a := by
  rw [← spelled_take, Nat.min_eq_left h]

theorem spelled_getElem? (t : BinTrie T) {a b i : Nat} (ha : i < a) (hb : i < b) (bits : List Bool) :
    (spelled t a bits)[i]? = (spelled t b bits)[i]? := by
  rcases Nat.le_total a b with h | h
  · rw [spelled_of_le t h, List.getElem?_take_of_lt ha]
  · rw [spelled_of_le t h, List.getElem?_take_of_lt hb]

/-! ## Counting differences -/

section
variable [DecidableEq T]

theorem differences_append {a a' b b' : List T} (h : a.length = a'.length) :
    differences (a ++ b) (a' ++ b') = differences a a' + differences b b' := by
  unfold differences
  rw [List.length_append, List.length_append, ← h, Nat.max_self, Nat.add_max_add_left, List.range_add,
    List.countP_append, List.countP_map]
  congr 1
  · apply List.countP_congr
    intro i hi
    rw [List.mem_range] at hi
    rw [List.getElem?_append_left hi, List.getElem?_append_left (by omega)]
  · apply List.countP_congr
    intro i _
    simp only [Function.comp_apply]
    rw [List.getElem?_append_right (by omega), List.getElem?_append_right (by omega), ← h, Nat.add_sub_cancel_left]

theorem differences_self (a : List T) : differences a a = 0 := by
  simp [differences]

theorem differences_pos {a b : List T} (h : a ≠ b) : 1 ≤ differences a b := by
  apply Classical.byContradiction
  intro hn
  apply h
  have h0 : differences a b = 0 := by omega
  unfold differences at h0
  rw [List.countP_eq_zero] at h0
  apply List.ext_getElem?
  intro i
  by_cases hi : i < max a.length b.length
  · have := h0 i (List.mem_range.2 hi)
    simpa using this
  · rw [List.getElem?_eq_none (by omega), List.getElem?_eq_none (by omega)]

theorem differences_cons_le (x y : T) (a b : List T) : differences (x :: a) (y :: b) ≤ 1 + differences a b := by
  have := differences_append (a := [x]) (a' := [y]) (b := a) (b' := b) rfl
  rw [List.singleton_append, List.singleton_append] at this
  rw [this]
  have : differences [x] [y] ≤ 1 := by
    unfold differences
    exact Nat.le_trans List.countP_le_length (by simp)
  omega

theorem differences_cons_self (x : T) (a b : List T) : differences (x :: a) (x :: b) = differences a b := by
  have := differences_append (a := [x]) (a' := [x]) (b := a) (b' := b) rfl
  rw [List.singleton_append, List.singleton_append, differences_self] at this
  omega

/-! ## Codes of one length -/

theorem flat_leaf {t : BinTrie T} {L : Nat} (h : ∀ q ∈ leaves t, q.1.length = L) {bits : List Bool} (hb : bits.length = L) :
    ∃ x, (bits, x) ∈ leaves t := by
  induction t generalizing L bits with
  | leaf v =>
    have h0 : L = 0 := (h ([], v) (by simp [leaves])).symm
    subst h0
    rw [List.length_eq_zero_iff.1 hb]
    exact ⟨v, by simp [leaves]⟩
  | branch l r ihl ihr =>
    have hl : ∀ q ∈ leaves l, q.1.length = L - 1 := by
      intro q hq
      have := h (false :: q.1, q.2) (by simp [leaves]; exact hq)
      simp at this
      omega
    have hr : ∀ q ∈ leaves r, q.1.length = L - 1 := by
      intro q hq
      have := h (true :: q.1, q.2) (by simp [leaves]; exact hq)
      simp at this
      omega
    cases bits with
    | nil =>
      obtain ⟨q, hq⟩ := List.exists_mem_of_ne_nil _ (leaves_ne_nil l)
      have := h (false :: q.1, q.2) (by simp [leaves]; exact hq)
      simp at this hb
      omega
    | cons b bs =>
      simp at hb
      cases b with
      | false =>
        obtain ⟨x, hx⟩ := ihl hl (bits := bs) (by omega)
        exact ⟨x, by simp [leaves]; exact hx⟩
      | true =>
        obtain ⟨x, hx⟩ := ihr hr (bits := bs) (by omega)
        exact ⟨x, by simp [leaves]; exact hx⟩

/-- With codewords of one length every sequence of enough bits spells symbols, and each bit matters for one of them only. -/
theorem spelled_flat {t : BinTrie T} {L : Nat} (h : ∀ q ∈ leaves t, q.1.length = L) (n : Nat) {bits bits' : List Bool}
    (he : bits'.length = bits.length) (hn : n * L ≤ bits.length) :
    (spelled t n bits).length = n ∧ differences (spelled t n bits) (spelled t n bits') ≤ differences bits bits' := by
  induction n generalizing bits bits' with
  | zero => exact ⟨rfl, by simp [spelled, differences]⟩
  | succ n ih =>
    rw [Nat.add_mul, Nat.one_mul] at hn
    have hl : (bits.take L).length = L := by rw [List.length_take]; omega
    have hl' : (bits'.take L).length = L := by rw [List.length_take]; omega
    obtain ⟨x, hx⟩ := flat_leaf h hl
    obtain ⟨x', hx'⟩ := flat_leaf h hl'
    have e := firstSymbol_of hx (bits.drop L)
    have e' := firstSymbol_of hx' (bits'.drop L)
    rw [List.take_append_drop] at e e'
    rw [spelled, spelled, e, e']
    dsimp only
    obtain ⟨i1, i2⟩ := ih (bits := bits.drop L) (bits' := bits'.drop L) (by simp [he]) (by rw [List.length_drop]; omega)
    refine ⟨by rw [List.length_cons, i1], ?_⟩
    have hd := differences_append (a := bits.take L) (a' := bits'.take L) (b := bits.drop L) (b' := bits'.drop L) (hl.trans hl'.symm)
    rw [List.take_append_drop, List.take_append_drop] at hd
    rw [hd]
    by_cases hc : bits.take L = bits'.take L
    · have : x = x' := (leaves_prefix hx hx' (hc ▸ List.prefix_rfl)).2
      rw [this, differences_cons_self]
      omega
    · have h1 := differences_pos hc
      have h2 := differences_cons_le x x' (spelled t n (bits.drop L)) (spelled t n (bits'.drop L))
      omega

end

end Cniic
