import Verif.Spec.Entropy
import Verif.Proofs.Sizes
import Mathlib.Algebra.BigOperators.Group.Finset.Basic
import Mathlib.Algebra.Order.BigOperators.Group.Finset
import Mathlib.Analysis.SpecialFunctions.Log.Base
import Mathlib.Tactic.FieldSimp
import Mathlib.Tactic.Linarith
import Mathlib.Tactic.Positivity

/-!
# Optimal codes and entropy
-/

namespace Cniic
open Spec

variable {T : Type} [DecidableEq T]

/-- Sums over a sequence, gathered by members. -/
theorem sum_by_members (items : List T) (f : T → ℝ) :
    (items.map f).sum = (items.dedup.map fun x => (items.count x : ℝ) * f x).sum := by
  rw [Finset.sum_list_map_count, ← List.sum_toFinset _ (List.nodup_dedup items),
    show items.dedup.toFinset = items.toFinset by ext x; simp]
  simp [nsmul_eq_mul]

theorem kraft_real {lens : List Nat} (h : Kraft lens) : (lens.map fun l => ((2 : ℝ) ^ l)⁻¹).sum ≤ 1 := by
  obtain ⟨L, hL⟩ : ∃ L, ∀ l ∈ lens, l ≤ L := ⟨lens.sum, fun l hl => List.le_sum_of_mem hl⟩
  have h1 := h L hL
  have e : (kraft L lens : ℝ) = 2 ^ L * (lens.map fun l => ((2 : ℝ) ^ l)⁻¹).sum := by
    clear h h1
    induction lens with
    | nil => simp [kraft]
    | cons l lens ih =>
      rw [kraft_cons, Nat.cast_add, ih fun x hx => hL x (List.mem_cons_of_mem _ hx), List.map_cons, List.sum_cons, mul_add]
      congr 1
      rw [Nat.cast_pow, Nat.cast_ofNat, pow_sub₀ _ (by norm_num) (hL l List.mem_cons_self)]
  have h2 : (kraft L lens : ℝ) ≤ 2 ^ L := by exact_mod_cast h1
  rw [e] at h2
  have : (0 : ℝ) < 2 ^ L := by positivity
  nlinarith

theorem kraft_of_real {lens : List Nat} (h : (lens.map fun l => ((2 : ℝ) ^ l)⁻¹).sum ≤ 1) : Kraft lens := by
  intro L hL
  have e : (kraft L lens : ℝ) = 2 ^ L * (lens.map fun l => ((2 : ℝ) ^ l)⁻¹).sum := by
    clear h
    induction lens with
    | nil => simp [kraft]
    | cons l lens ih =>
      rw [kraft_cons, Nat.cast_add, ih fun x hx => hL x (List.mem_cons_of_mem _ hx), List.map_cons, List.sum_cons, mul_add]
      congr 1
      rw [Nat.cast_pow, Nat.cast_ofNat, pow_sub₀ _ (by norm_num) (hL l List.mem_cons_self)]
  have : (0 : ℝ) < 2 ^ L := by positivity
  have h2 : (kraft L lens : ℝ) ≤ 2 ^ L := by rw [e]; nlinarith
  exact_mod_cast h2

/-- Gibbs' inequality for codes. -/
theorem information_le (items : List T) (len : T → Nat) (hk : Kraft (items.dedup.map len)) :
    information items ≤ ((items.map len).sum : ℕ) := by
  have h2 : (0 : ℝ) < Real.log 2 := Real.log_pos (by norm_num)
  have key : ∀ x ∈ items, Real.logb 2 (items.length / items.count x) - len x ≤
      ((items.length : ℝ) * ((2 : ℝ) ^ len x)⁻¹ / items.count x - 1) / Real.log 2 := by
    intro x hx
    have hc : (0 : ℝ) < items.count x := by exact_mod_cast List.count_pos_iff.2 hx
    have hn : (0 : ℝ) < items.length := by exact_mod_cast List.length_pos_of_mem hx
    have hp : (0 : ℝ) < 2 ^ len x := by positivity
    have h1 := Real.log_le_sub_one_of_pos (x := (items.length : ℝ) * ((2 : ℝ) ^ len x)⁻¹ / items.count x) (by positivity)
    have e : Real.logb 2 (items.length / items.count x) - len x =
        Real.log ((items.length : ℝ) * ((2 : ℝ) ^ len x)⁻¹ / items.count x) / Real.log 2 := by
      rw [Real.logb, Real.log_div (by positivity) (by positivity), Real.log_div (by positivity) (by positivity),
        Real.log_mul (by positivity) (by positivity), Real.log_inv, Real.log_pow]
      field_simp
      ring
    rw [e]
    exact div_le_div_of_nonneg_right h1 h2.le
  have hs : (items.map fun x => Real.logb 2 (items.length / items.count x) - len x).sum ≤
      (items.map fun x => ((items.length : ℝ) * ((2 : ℝ) ^ len x)⁻¹ / items.count x - 1) / Real.log 2).sum :=
    List.sum_le_sum key
  have e1 : (items.map fun x => Real.logb 2 (items.length / items.count x) - len x).sum =
      information items - ((items.map len).sum : ℕ) := by
    have e0 : ∀ (l : List T) (f : T → ℝ), (l.map fun x => f x - len x).sum = (l.map f).sum - ((l.map len).sum : ℕ) := by
      intro l f
      induction l with
      | nil => simp
      | cons a l ih =>
        simp only [List.map_cons, List.sum_cons, ih, Nat.cast_add]
        ring
    exact e0 items _
  have e2 : (items.map fun x => ((items.length : ℝ) * ((2 : ℝ) ^ len x)⁻¹ / items.count x - 1) / Real.log 2).sum ≤ 0 := by
    rw [sum_by_members]
    have e3 : (items.dedup.map fun x => (items.count x : ℝ) *
        (((items.length : ℝ) * ((2 : ℝ) ^ len x)⁻¹ / items.count x - 1) / Real.log 2)) =
        items.dedup.map fun x => ((items.length : ℝ) * ((2 : ℝ) ^ len x)⁻¹ - items.count x) / Real.log 2 := by
      apply List.map_congr_left
      intro x hx
      have hc : (0 : ℝ) < items.count x := by exact_mod_cast List.count_pos_iff.2 (List.mem_dedup.1 hx)
      field_simp
    have e4 : (items.dedup.map fun x => ((items.length : ℝ) * ((2 : ℝ) ^ len x)⁻¹ - items.count x) / Real.log 2).sum =
        ((items.length : ℝ) * (items.dedup.map fun x => ((2 : ℝ) ^ len x)⁻¹).sum -
          (items.dedup.map fun x => (items.count x : ℝ)).sum) / Real.log 2 := by
      generalize items.dedup = l
      induction l with
      | nil => simp
      | cons a l ih =>
        simp only [List.map_cons, List.sum_cons, ih]
        field_simp
        ring
    have e5 : (items.dedup.map fun x => (items.count x : ℝ)).sum = items.length := by
      have := sum_by_members items fun _ => 1
      simp only [mul_one] at this
      rw [← this]
      simp
    rw [e3, e4, e5]
    have h3 := kraft_real hk
    rw [List.map_map] at h3
    have h4 : (items.dedup.map fun x => ((2 : ℝ) ^ len x)⁻¹).sum ≤ 1 := h3
    have h5 : (0 : ℝ) ≤ items.length := by positivity
    apply div_nonpos_of_nonpos_of_nonneg _ h2.le
    nlinarith
  linarith

/-- The least number of bits is at most that of any words whose lengths meet Kraft's inequality. -/
theorem FewestBits.le_lengths {items : List T} {B : Nat} (h : FewestBits items B) (hne : items ≠ []) (len : T → Nat)
    (hk : Kraft (items.dedup.map len)) : B ≤ (items.map len).sum := by
  obtain ⟨enc, dec, hb, hs, hget, hget', hopt⟩ := build_spec (listHeap T) (countFreqs items)
    (by
      intro h0
      obtain ⟨x, hx⟩ := List.exists_mem_of_ne_nil _ hne
      have := (mem_countFreqs items x).2 hx
      simp [h0] at this)
    (countFreqs_nodup items)
  have hmem : ∀ x, x ∈ symbols dec ↔ x ∈ items := fun x => by rw [hs.mem_iff, mem_countFreqs]
  have hperm : ((countFreqs items).map (·.1)).Perm items.dedup :=
    (List.perm_ext_iff_of_nodup (countFreqs_nodup items) (List.nodup_dedup items)).2 fun x => by
      rw [mem_countFreqs, List.mem_dedup]
  have h1 := hopt len (by
    have := hk.perm (hperm.map len).symm
    rwa [List.map_map] at this)
  rw [countFreqs_sum items fun x => (codeOf dec x).length, countFreqs_sum items len] at h1
  refine Nat.le_trans (h.2 (codeOf dec) ?_) h1
  intro x hx y hy hxy
  exact codeOf_prefixFree dec x ((hmem x).2 hx) y ((hmem y).2 hy) hxy

/-- With two different members, each takes at least one bit. -/
theorem FewestBits.one_bit {items : List T} {B : Nat} (h : FewestBits items B) {x y : T} (hx : x ∈ items) (hy : y ∈ items)
    (hxy : x ≠ y) : items.length ≤ B := by
  obtain ⟨⟨code, hp, rfl⟩, -⟩ := h
  have h1 : ∀ z ∈ items, 1 ≤ (code z).length := by
    intro z hz
    by_contra hn
    have h0 : code z = [] := List.length_eq_zero_iff.1 (by omega)
    have hzx := hp z hz x hx (by rw [h0]; exact List.nil_prefix)
    have hzy := hp z hz y hy (by rw [h0]; exact List.nil_prefix)
    exact hxy (hzx.symm.trans hzy)
  unfold payloadBits
  clear hp hx hy
  induction items with
  | nil => simp
  | cons a l ih =>
    have := ih fun z hz => h1 z (List.mem_cons_of_mem _ hz)
    have := h1 a List.mem_cons_self
    simp only [List.length_cons, List.map_cons, List.sum_cons]
    omega

theorem information_nonneg (items : List T) : 0 ≤ information items := by
  apply List.sum_nonneg
  intro r hr
  obtain ⟨x, hx, rfl⟩ := List.mem_map.1 hr
  apply Real.logb_nonneg (by norm_num)
  have hc : (0 : ℝ) < items.count x := by exact_mod_cast List.count_pos_iff.2 hx
  rw [le_div_iff₀ hc, one_mul]
  exact_mod_cast List.count_le_length

theorem information_lower {items : List T} {B : Nat} (h : FewestBits items B) : information items ≤ B := by
  obtain ⟨⟨code, hp, rfl⟩, -⟩ := h
  apply information_le items fun x => (code x).length
  apply Kraft.of_prefixFree (List.nodup_dedup items)
  intro x hx y hy
  exact hp x (List.mem_dedup.1 hx) y (List.mem_dedup.1 hy)

theorem information_upper {items : List T} {B : Nat} (h : FewestBits items B) (hne : items ≠ []) :
    (B : ℝ) < information items + items.length := by
  let len : T → Nat := fun x => ⌈Real.logb 2 (items.length / items.count x)⌉₊
  have hn : (0 : ℝ) < items.length := by exact_mod_cast List.length_pos_iff.2 hne
  have hc : ∀ x ∈ items, (0 : ℝ) < items.count x := fun x hx => by exact_mod_cast List.count_pos_iff.2 hx
  have hlog : ∀ x ∈ items, 0 ≤ Real.logb 2 (items.length / items.count x) := by
    intro x hx
    apply Real.logb_nonneg (by norm_num)
    rw [le_div_iff₀ (hc x hx), one_mul]
    exact_mod_cast List.count_le_length
  have hk : Kraft (items.dedup.map len) := by
    apply kraft_of_real
    rw [List.map_map]
    have e5 : (items.dedup.map fun x => (items.count x : ℝ)).sum = items.length := by
      have := sum_by_members items fun _ => 1
      simp only [mul_one] at this
      rw [← this]
      simp
    have h1 : (items.dedup.map ((fun l => ((2 : ℝ) ^ l)⁻¹) ∘ len)).sum ≤
        (items.dedup.map fun x => (items.count x : ℝ) / items.length).sum := by
      apply List.sum_le_sum
      intro x hx
      have hx := List.mem_dedup.1 hx
      have hcx := hc x hx
      show ((2 : ℝ) ^ len x)⁻¹ ≤ _
      rw [← inv_div]
      apply inv_anti₀ (by positivity)
      calc (items.length : ℝ) / items.count x = 2 ^ Real.logb 2 (items.length / items.count x) :=
            (Real.rpow_logb (by norm_num) (by norm_num) (by positivity)).symm
        _ ≤ (2 : ℝ) ^ ((len x : ℕ) : ℝ) := Real.rpow_le_rpow_of_exponent_le (by norm_num) (Nat.le_ceil _)
        _ = 2 ^ len x := Real.rpow_natCast _ _
    have h2 : (items.dedup.map fun x => (items.count x : ℝ) / items.length).sum = 1 := by
      have : (items.dedup.map fun x => (items.count x : ℝ) / items.length).sum =
          (items.dedup.map fun x => (items.count x : ℝ)).sum / items.length := by
        generalize items.dedup = l
        induction l with
        | nil => simp
        | cons a l ih => simp only [List.map_cons, List.sum_cons, ih, add_div]
      rw [this, e5, div_self hn.ne']
    linarith
  have h1 := FewestBits.le_lengths h hne len hk
  have h2 : (((items.map len).sum : ℕ) : ℝ) < information items + items.length := by
    rw [information, Nat.cast_list_sum, List.map_map]
    have h3 : (items.map ((Nat.cast : ℕ → ℝ) ∘ len)).sum <
        (items.map fun x => Real.logb 2 (items.length / items.count x) + 1).sum := by
      apply List.sum_lt_sum_of_ne_nil hne
      intro x hx
      exact Nat.ceil_lt_add_one (hlog x hx)
    rw [List.sum_map_add] at h3
    simpa using h3
  have h4 : (B : ℝ) ≤ ((items.map len).sum : ℕ) := by exact_mod_cast h1
  linarith

end Cniic
