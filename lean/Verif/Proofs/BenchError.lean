import Verif.Model.Bench
import Verif.Spec.Bench
import Verif.Proofs.Prune
import Mathlib.Algebra.Order.Ring.Pow

/-! # Proofs: the computed error -/

namespace Cniic
open Spec

variable {fl : FloatOps}

theorem sum_nonneg' {l : List Rat} (h : ∀ x ∈ l, 0 ≤ x) : 0 ≤ l.sum := by
  induction l with
  | nil => simp
  | cons a l ih =>
    rw [List.sum_cons]
    have := h a (by simp)
    have := ih fun x hx => h x (by simp [hx])
    linarith

/-- Each addition has a relative error of `ulp`. -/
theorem foldl_add_bounds (hfl : fl.Lawful) (ts : List Rat) (ht : ∀ t ∈ ts, 0 ≤ t) (acc : Rat) (ha : 0 ≤ acc) :
    (1 - ulp) ^ ts.length * (acc + ts.sum) ≤ ts.foldl fl.add acc ∧
      ts.foldl fl.add acc ≤ (1 + ulp) ^ ts.length * (acc + ts.sum) := by
  have hu : (0 : Rat) ≤ ulp := ulp_nonneg
  have hu1 : (0 : Rat) ≤ 1 - ulp := by norm_num [ulp]
  have hu2 : (1 : Rat) - ulp ≤ 1 := by linarith
  have hu3 : (0 : Rat) ≤ 1 + ulp := by linarith
  induction ts generalizing acc with
  | nil => simp
  | cons t ts ih =>
    have h0 : 0 ≤ t := ht t (by simp)
    have hs : 0 ≤ ts.sum := sum_nonneg' fun x hx => ht x (by simp [hx])
    have hb := rnd_nonneg_bounds hfl (x := acc + t) (by linarith)
    have hacc : 0 ≤ fl.add acc t := le_trans (mul_nonneg hu1 (by linarith)) hb.1
    obtain ⟨l, u⟩ := ih (fun x hx => ht x (by simp [hx])) (fl.add acc t) hacc
    have hb1 : (1 - ulp) * (acc + t) ≤ fl.add acc t := hb.1
    have hb2 : fl.add acc t ≤ (1 + ulp) * (acc + t) := hb.2
    rw [List.foldl_cons, List.sum_cons, List.length_cons, pow_succ, pow_succ]
    constructor
    · refine le_trans ?_ l
      rw [mul_assoc]
      apply mul_le_mul_of_nonneg_left _ (pow_nonneg hu1 _)
      nlinarith
    · refine le_trans u ?_
      rw [mul_assoc]
      apply mul_le_mul_of_nonneg_left _ (pow_nonneg hu3 _)
      nlinarith

/-- The square of a distance. -/
theorem powi2_dist (hfl : fl.Lawful) (a b : Rgb UInt8) :
    (1 - 1 / 2 ^ 49) * (colorSq a b : Rat) ≤ fl.powi2 (rgbDist fl a b) ∧
      fl.powi2 (rgbDist fl a b) ≤ (1 + 1 / 2 ^ 49) * (colorSq a b : Rat) := by
  rw [rgbDist_eq hfl]
  have h0 : (0 : Rat) ≤ colorSq a b := Nat.cast_nonneg _
  have hlo := hfl.sqrt_lo _ h0
  have hhi := hfl.sqrt_hi _ h0
  have he := abs_le.1 (hfl.powi2_err (fl.sqrt (colorSq a b)))
  set s := fl.sqrt (colorSq a b) with hs
  set d := ((colorSq a b : Nat) : Rat) with hd
  have u1 : (1 - 1 / 2 ^ 49 : Rat) ≤ (1 - 1 / 2 ^ 50) * (1 - ulp) ^ 2 := by norm_num [ulp]
  have u2 : ((1 + 1 / 2 ^ 50) * (1 + ulp) ^ 2 : Rat) ≤ 1 + 1 / 2 ^ 49 := by norm_num [ulp]
  have e1 : (1 - 1 / 2 ^ 50) * s ^ 2 ≤ fl.powi2 s := by linarith [he.1]
  have e2 : fl.powi2 s ≤ (1 + 1 / 2 ^ 50) * s ^ 2 := by linarith [he.2]
  constructor
  · calc (1 - 1 / 2 ^ 49) * d ≤ ((1 - 1 / 2 ^ 50) * (1 - ulp) ^ 2) * d := mul_le_mul_of_nonneg_right u1 h0
      _ = (1 - 1 / 2 ^ 50) * ((1 - ulp) ^ 2 * d) := by ring
      _ ≤ (1 - 1 / 2 ^ 50) * s ^ 2 := mul_le_mul_of_nonneg_left hlo (by norm_num)
      _ ≤ _ := e1
  · calc fl.powi2 s ≤ (1 + 1 / 2 ^ 50) * s ^ 2 := e2
      _ ≤ (1 + 1 / 2 ^ 50) * ((1 + ulp) ^ 2 * d) := mul_le_mul_of_nonneg_left hhi (by norm_num)
      _ = ((1 + 1 / 2 ^ 50) * (1 + ulp) ^ 2) * d := by ring
      _ ≤ _ := mul_le_mul_of_nonneg_right u2 h0

theorem sum_map_bounds {α : Type} {l : List α} {f : α → Rat} {g : α → Nat} {lo hi : Rat}
    (h : ∀ x, lo * (g x : Rat) ≤ f x ∧ f x ≤ hi * (g x : Rat)) :
    lo * (((l.map g).sum : Nat) : Rat) ≤ (l.map f).sum ∧ (l.map f).sum ≤ hi * (((l.map g).sum : Nat) : Rat) := by
  induction l with
  | nil => simp
  | cons a l ih =>
    simp only [List.map_cons, List.sum_cons, Nat.cast_add]
    have := h a
    constructor <;> nlinarith [ih.1, ih.2, this.1, this.2]

/-- The computed sum. -/
theorem total_bounds (hfl : fl.Lawful) (ps : List (Rgb UInt8 × Rgb UInt8)) :
    let tot := fl.sum (ps.map fun (px, py) => fl.powi2 (rgbDist fl px py))
    let exact : Rat := ((ps.map fun p => colorSq p.1 p.2).sum : Nat)
    (1 - ulp) ^ ps.length * ((1 - 1 / 2 ^ 49) * exact) ≤ tot ∧
      tot ≤ (1 + ulp) ^ ps.length * ((1 + 1 / 2 ^ 49) * exact) := by
  intro tot exact
  have hu1 : (0 : Rat) ≤ 1 - ulp := by norm_num [ulp]
  have hu3 : (0 : Rat) ≤ 1 + ulp := by norm_num [ulp]
  have h1 := foldl_add_bounds hfl (ps.map fun (px, py) => fl.powi2 (rgbDist fl px py)) (by
    intro t ht
    obtain ⟨p, -, rfl⟩ := List.mem_map.1 ht
    exact le_trans (mul_nonneg (by norm_num) (Nat.cast_nonneg _)) (powi2_dist hfl p.1 p.2).1) 0 le_rfl
  have h2 := sum_map_bounds (l := ps) (f := fun (px, py) => fl.powi2 (rgbDist fl px py))
    (g := fun p => colorSq p.1 p.2) fun p => powi2_dist hfl p.1 p.2
  rw [List.length_map, zero_add] at h1
  exact ⟨le_trans (mul_le_mul_of_nonneg_left h2.1 (pow_nonneg hu1 _)) h1.1,
    le_trans h1.2 (mul_le_mul_of_nonneg_left h2.2 (pow_nonneg hu3 _))⟩

theorem pow_bounds {k : Nat} (hk : k ≤ 2 ^ 32) :
    (1 - 1 / 2 ^ 20 : Rat) ≤ (1 - ulp) ^ k * (1 - 1 / 2 ^ 49) ∧
      (1 + ulp) ^ k * (1 + 1 / 2 ^ 49) ≤ (1 + 1 / 2 ^ 20 : Rat) := by
  have hk' : (k : Rat) ≤ 2 ^ 32 := by exact_mod_cast hk
  have hk0 : (0 : Rat) ≤ k := Nat.cast_nonneg _
  have hb : (1 - k * ulp : Rat) ≤ (1 - ulp) ^ k := by
    have := one_add_mul_le_pow (a := -ulp) (by norm_num [ulp]) k
    calc (1 - k * ulp : Rat) = 1 + k * (-ulp) := by ring
      _ ≤ (1 + -ulp) ^ k := this
      _ = _ := by ring
  have hx : (k * ulp : Rat) ≤ 1 / 2 ^ 21 := by
    calc (k * ulp : Rat) ≤ 2 ^ 32 * ulp := mul_le_mul_of_nonneg_right hk' ulp_nonneg
      _ = _ := by norm_num [ulp]
  have hlo : (1 - 1 / 2 ^ 21 : Rat) ≤ (1 - ulp) ^ k := by linarith
  constructor
  · calc (1 - 1 / 2 ^ 20 : Rat) ≤ (1 - 1 / 2 ^ 21) * (1 - 1 / 2 ^ 49) := by norm_num
      _ ≤ _ := mul_le_mul_of_nonneg_right hlo (by norm_num)
  · have hp : ((1 + ulp) ^ k * (1 - ulp) ^ k : Rat) ≤ 1 := by
      rw [← mul_pow]
      exact pow_le_one₀ (by norm_num [ulp]) (by norm_num [ulp])
    have hpos : (0 : Rat) ≤ (1 + ulp) ^ k := pow_nonneg (by norm_num [ulp]) _
    have h1 : ((1 + ulp) ^ k * (1 - 1 / 2 ^ 21) : Rat) ≤ 1 :=
      le_trans (mul_le_mul_of_nonneg_left hlo hpos) hp
    have h2 : ((1 + ulp) ^ k : Rat) ≤ 1 + 3 / 2 ^ 22 := by
      by_contra hc
      have hc := not_le.1 hc
      have : (1 + 3 / 2 ^ 22 : Rat) * (1 - 1 / 2 ^ 21) < (1 + ulp) ^ k * (1 - 1 / 2 ^ 21) :=
        mul_lt_mul_of_pos_right hc (by norm_num)
      have h3 : (1 : Rat) < (1 + 3 / 2 ^ 22) * (1 - 1 / 2 ^ 21) := by norm_num
      linarith
    calc ((1 + ulp) ^ k * (1 + 1 / 2 ^ 49) : Rat) ≤ (1 + 3 / 2 ^ 22) * (1 + 1 / 2 ^ 49) :=
          mul_le_mul_of_nonneg_right h2 (by norm_num)
      _ ≤ _ := by norm_num

/-- The computed quotient is close to the mean squared error. -/
theorem error_close (hfl : fl.Lawful) (ps : List (Rgb UInt8 × Rgb UInt8)) (hlen : ps.length < 2 ^ 32) :
    let q := fl.div (fl.sum (ps.map fun (px, py) => fl.powi2 (rgbDist fl px py))) ps.length
    let mse : Rat := (((ps.map fun p => colorSq p.1 p.2).sum : Nat) : Rat) / ps.length
    |q - mse| ≤ 1 / 2 ^ 20 * mse := by
  intro q mse
  obtain ⟨h1, h2⟩ := total_bounds hfl ps
  set tot := fl.sum (ps.map fun (px, py) => fl.powi2 (rgbDist fl px py)) with htot
  set ex := (((ps.map fun p => colorSq p.1 p.2).sum : Nat) : Rat) with hex
  have hex0 : 0 ≤ ex := Nat.cast_nonneg _
  have hn : (0 : Rat) ≤ ps.length := Nat.cast_nonneg _
  have hu1 : (0 : Rat) ≤ 1 - ulp := by norm_num [ulp]
  have hu3 : (0 : Rat) ≤ 1 + ulp := by norm_num [ulp]
  have hm : 0 ≤ mse := div_nonneg hex0 hn
  have htot0 : 0 ≤ tot := le_trans (mul_nonneg (pow_nonneg hu1 _) (mul_nonneg (by norm_num) hex0)) h1
  obtain ⟨b1, b2⟩ := rnd_nonneg_bounds hfl (x := tot / ps.length) (div_nonneg htot0 hn)
  obtain ⟨p1, p2⟩ := pow_bounds (k := ps.length + 1) (by omega)
  have e1 : (1 - ulp) ^ ps.length * (1 - 1 / 2 ^ 49) * mse ≤ tot / ps.length := by
    have := div_le_div_of_nonneg_right h1 hn
    calc (1 - ulp) ^ ps.length * (1 - 1 / 2 ^ 49) * mse = (1 - ulp) ^ ps.length * ((1 - 1 / 2 ^ 49) * ex) / ps.length := by
          show _ * (ex / _) = _; ring
      _ ≤ _ := this
  have e2 : tot / ps.length ≤ (1 + ulp) ^ ps.length * (1 + 1 / 2 ^ 49) * mse := by
    have := div_le_div_of_nonneg_right h2 hn
    calc tot / ps.length ≤ (1 + ulp) ^ ps.length * ((1 + 1 / 2 ^ 49) * ex) / ps.length := this
      _ = _ := by show _ = _ * (ex / _); ring
  have f1 : (1 - 1 / 2 ^ 20) * mse ≤ q := by
    calc (1 - 1 / 2 ^ 20) * mse ≤ ((1 - ulp) ^ (ps.length + 1) * (1 - 1 / 2 ^ 49)) * mse := mul_le_mul_of_nonneg_right p1 hm
      _ = (1 - ulp) * ((1 - ulp) ^ ps.length * (1 - 1 / 2 ^ 49) * mse) := by rw [pow_succ]; ring
      _ ≤ (1 - ulp) * (tot / ps.length) := mul_le_mul_of_nonneg_left e1 hu1
      _ ≤ q := b1
  have f2 : q ≤ (1 + 1 / 2 ^ 20) * mse := by
    calc q ≤ (1 + ulp) * (tot / ps.length) := b2
      _ ≤ (1 + ulp) * ((1 + ulp) ^ ps.length * (1 + 1 / 2 ^ 49) * mse) := mul_le_mul_of_nonneg_left e2 hu3
      _ = ((1 + ulp) ^ (ps.length + 1) * (1 + 1 / 2 ^ 49)) * mse := by rw [pow_succ]; ring
      _ ≤ _ := mul_le_mul_of_nonneg_right p2 hm
  rw [abs_le]
  constructor <;> linarith

/-! ## Zero -/

theorem colorSq_eq_zero {a b : Rgb UInt8} : colorSq a b = 0 ↔ a = b := by
  obtain ⟨r, g, b'⟩ := a
  obtain ⟨r', g', b''⟩ := b
  have key : ∀ x y : UInt8, gap x.toNat y.toNat = 0 ↔ x = y := by
    intro x y
    rw [← UInt8.toNat_inj]
    unfold gap
    omega
  unfold colorSq
  simp only [Nat.add_eq_zero_iff, Nat.pow_eq_zero, key, Rgb.mk.injEq]
  simp [and_assoc]

theorem squaredError_eq_zero {xs ys : List (Rgb UInt8)} (h : xs.length = ys.length) :
    squaredError xs ys = 0 ↔ xs = ys := by
  induction xs generalizing ys with
  | nil => cases ys with
    | nil => simp [squaredError]
    | cons y ys => simp at h
  | cons x xs ih => cases ys with
    | nil => simp at h
    | cons y ys =>
      have := ih (ys := ys) (by simpa using h)
      unfold squaredError at this ⊢
      rw [List.zip_cons_cons, List.map_cons, List.sum_cons, Nat.add_eq_zero_iff, this]
      simp [colorSq_eq_zero]

end Cniic
