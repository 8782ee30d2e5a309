import Verif.Core.FloatLaws
import Mathlib.Data.Int.Log
import Mathlib.Algebra.Order.Floor.Ring
import Mathlib.Data.Nat.Sqrt
import Mathlib.Data.Rat.Floor
import Mathlib.Algebra.Order.Field.Power

/-!
# Rounding to nearest even

A concrete instance of the arithmetic assumed in `FloatOps.Lawful`: IEEE 754 rounding to nearest, ties to
even, with 53 bits and unlimited exponents.
-/

namespace Cniic.Ieee

/-- The nearest integer; ties go to the even one. -/
def roundEven (q : Rat) : Int :=
  if q - ⌊q⌋ < 1 / 2 then ⌊q⌋
  else if 1 / 2 < q - ⌊q⌋ then ⌊q⌋ + 1
  else if ⌊q⌋ % 2 = 0 then ⌊q⌋ else ⌊q⌋ + 1

/-- The exponent of the last place of a positive number with 53 significant bits. -/
def expo (q : Rat) : Int := Int.log 2 q - 52

/-- Rounding of a positive number. -/
def rndPos (q : Rat) : Rat := roundEven (q / 2 ^ expo q) * 2 ^ expo q

def rnd (q : Rat) : Rat := if 0 < q then rndPos q else if q < 0 then - rndPos (-q) else 0

/-- Half of the logarithm to base 2, in other words to base 4. -/
def expo4 (q : Rat) : Int := Int.log 4 q - 52

/-- Square root of a number between `4^52` and `4^53`, to the nearest integer.  (No square root of a
number with 53 bits lies half-way between two integers.) -/
def sqrtInt (q : Rat) : Nat :=
  let m := Nat.sqrt ⌊q⌋₊
  if ((m : Rat) + 1 / 2) ^ 2 ≤ q then m + 1 else m

def sqrt (q : Rat) : Rat := if 0 < q then sqrtInt (q / 4 ^ expo4 q) * 2 ^ expo4 q else 0

/-- The arithmetic of `f64` without overflow and underflow. -/
def ops : FloatOps where
  rnd := rnd
  sqrt := sqrt
  powi2 x := rnd (x * x)

theorem roundEven_cases (q : Rat) : (roundEven q = ⌊q⌋ ∧ q - ⌊q⌋ ≤ 1 / 2) ∨
    (roundEven q = ⌊q⌋ + 1 ∧ 1 / 2 ≤ q - ⌊q⌋) := by
  unfold roundEven
  split_ifs with h1 h2 h3
  · exact .inl ⟨rfl, h1.le⟩
  · exact .inr ⟨rfl, h2.le⟩
  · exact .inl ⟨rfl, by linarith⟩
  · exact .inr ⟨rfl, by linarith⟩

theorem abs_roundEven_sub (q : Rat) : |(roundEven q : Rat) - q| ≤ 1 / 2 := by
  have h1 := Int.floor_le q
  have h2 := Int.lt_floor_add_one q
  rw [abs_le]
  rcases roundEven_cases q with ⟨h, h'⟩ | ⟨h, h'⟩ <;> rw [h] <;> push_cast <;> constructor <;> linarith

theorem roundEven_int (n : Int) : roundEven n = n := by
  simp [roundEven]

theorem roundEven_mono {p q : Rat} (h : p ≤ q) : roundEven p ≤ roundEven q := by
  have hf := Int.floor_mono h
  rcases lt_or_eq_of_le hf with hlt | heq
  · have h1 : roundEven p ≤ ⌊p⌋ + 1 := by
      rcases roundEven_cases p with ⟨h, _⟩ | ⟨h, _⟩ <;> omega
    have h2 : ⌊q⌋ ≤ roundEven q := by
      rcases roundEven_cases q with ⟨h, _⟩ | ⟨h, _⟩ <;> omega
    omega
  · unfold roundEven
    rw [← heq]
    have : (⌊p⌋ : Rat) = ⌊q⌋ := by rw [heq]
    split_ifs <;> first | omega | (exfalso; linarith)

theorem expo_spec {q : Rat} (h : 0 < q) :
    (2 : Rat) ^ 52 ≤ q / 2 ^ expo q ∧ q / 2 ^ expo q < 2 ^ 53 := by
  have h1 := Int.zpow_log_le_self (b := 2) (by norm_num) h
  have h2 := Int.lt_zpow_succ_log_self (b := 2) (by norm_num) q
  have hp : (0 : Rat) < 2 ^ expo q := by positivity
  have e1 : ((2 : Nat) : Rat) ^ Int.log 2 q = 2 ^ 52 * 2 ^ expo q := by
    rw [expo, zpow_sub₀ (by norm_num)]
    norm_num
    ring
  have e2 : ((2 : Nat) : Rat) ^ (Int.log 2 q + 1) = 2 ^ 53 * 2 ^ expo q := by
    rw [zpow_add₀ (by norm_num), e1]; norm_num; ring
  rw [e1] at h1
  rw [e2] at h2
  rw [le_div_iff₀ hp, div_lt_iff₀ hp]
  exact ⟨h1, h2⟩

theorem expo_mono {p q : Rat} (hp : 0 < p) (h : p ≤ q) : expo p ≤ expo q := by
  unfold expo
  have := Int.log_mono_right (b := 2) hp h
  omega

theorem rndPos_err {q : Rat} (h : 0 < q) : |rndPos q - q| ≤ ulp * q := by
  obtain ⟨h1, h2⟩ := expo_spec h
  have hp : (0 : Rat) < 2 ^ expo q := by positivity
  have h3 := abs_roundEven_sub (q / 2 ^ expo q)
  have e : rndPos q - q = (roundEven (q / 2 ^ expo q) - q / 2 ^ expo q) * 2 ^ expo q := by
    rw [rndPos, sub_mul, div_mul_cancel₀ _ hp.ne']
  rw [e, abs_mul, abs_of_pos hp]
  rw [le_div_iff₀ hp] at h1
  calc |(roundEven (q / 2 ^ expo q) : Rat) - q / 2 ^ expo q| * 2 ^ expo q
      ≤ 1 / 2 * 2 ^ expo q := by gcongr
    _ ≤ ulp * q := by unfold ulp; linarith

theorem rndPos_pos {q : Rat} (h : 0 < q) : 0 < rndPos q := by
  have h1 := abs_le.1 (rndPos_err h)
  have : ulp * q < q := by
    have : ulp < 1 := by norm_num [ulp]
    nlinarith
  linarith [h1.1]

theorem rndPos_mono {p q : Rat} (hp : 0 < p) (h : p ≤ q) : rndPos p ≤ rndPos q := by
  have hq : 0 < q := lt_of_lt_of_le hp h
  have hpos : (0 : Rat) < 2 ^ expo p := by positivity
  rcases lt_or_eq_of_le (expo_mono hp h) with hlt | heq
  · have h1 : roundEven (p / 2 ^ expo p) ≤ 2 ^ 53 := by
      have := roundEven_mono (expo_spec hp).2.le
      have e : ((2 : Rat) ^ 53) = ((2 ^ 53 : Int) : Rat) := by norm_num
      rw [e, roundEven_int] at this
      exact this
    have h2 : 2 ^ 52 ≤ roundEven (q / 2 ^ expo q) := by
      have := roundEven_mono (expo_spec hq).1
      have e : ((2 : Rat) ^ 52) = ((2 ^ 52 : Int) : Rat) := by norm_num
      rw [e, roundEven_int] at this
      exact this
    have h1' : (roundEven (p / 2 ^ expo p) : Rat) ≤ 2 ^ 53 := by exact_mod_cast h1
    have h2' : (2 : Rat) ^ 52 ≤ roundEven (q / 2 ^ expo q) := by exact_mod_cast h2
    have h3 : (2 : Rat) * 2 ^ expo p ≤ 2 ^ expo q := by
      rw [mul_comm, ← zpow_add_one₀ (by norm_num : (2 : Rat) ≠ 0)]
      exact zpow_le_zpow_right₀ (by norm_num) (by omega)
    unfold rndPos
    calc (roundEven (p / 2 ^ expo p) : Rat) * 2 ^ expo p ≤ 2 ^ 53 * 2 ^ expo p := by gcongr
      _ = 2 ^ 52 * (2 * 2 ^ expo p) := by ring
      _ ≤ 2 ^ 52 * 2 ^ expo q := by gcongr
      _ ≤ roundEven (q / 2 ^ expo q) * 2 ^ expo q := by gcongr
  · unfold rndPos
    rw [heq] at hpos ⊢
    have := roundEven_mono (div_le_div_of_nonneg_right h hpos.le)
    have : (roundEven (p / 2 ^ expo q) : Rat) ≤ roundEven (q / 2 ^ expo q) := by exact_mod_cast this
    gcongr

/-- A positive representable number is an integer in units of its last place. -/
theorem rndPos_exact {q : Rat} (h : 0 < q) (hr : Representable q) : rndPos q = q := by
  obtain ⟨m, e, hm, rfl⟩ := hr
  have hpe : (0 : Rat) < 2 ^ e := by positivity
  have hm0 : (0 : Rat) < m := by
    by_contra hc
    have := mul_nonpos_of_nonpos_of_nonneg (not_lt.1 hc) hpe.le
    linarith
  have hmi : 0 < m := by exact_mod_cast hm0
  rw [abs_of_pos hmi] at hm
  generalize hq : (m : Rat) * 2 ^ e = q at *
  obtain ⟨h1, h2⟩ := expo_spec h
  have hp : (0 : Rat) < 2 ^ expo q := by positivity
  rcases le_or_gt (expo q) e with hle | hgt
  · have : q / 2 ^ expo q = ((m * 2 ^ (e - expo q).toNat : Int) : Rat) := by
      rw [div_eq_iff hp.ne']
      push_cast
      rw [mul_assoc, ← zpow_natCast, Int.toNat_of_nonneg (by omega), ← zpow_add₀ (by norm_num)]
      rw [sub_add_cancel, hq]
    unfold rndPos
    rw [this, roundEven_int, ← this, div_mul_cancel₀ _ hp.ne']
  · -- then `m = 2^53` and the exponents differ by one
    have h3 : (2 : Rat) ^ 53 * 2 ^ e ≤ 2 ^ 52 * 2 ^ expo q := by
      have : (2 : Rat) * 2 ^ e ≤ 2 ^ expo q := by
        rw [mul_comm, ← zpow_add_one₀ (by norm_num : (2 : Rat) ≠ 0)]
        exact zpow_le_zpow_right₀ (by norm_num) (by omega)
      calc (2 : Rat) ^ 53 * 2 ^ e = 2 ^ 52 * (2 * 2 ^ e) := by ring
        _ ≤ _ := by gcongr
    have h4 : (m : Rat) * 2 ^ e ≤ 2 ^ 53 * 2 ^ e := by
      have : (m : Rat) ≤ 2 ^ 53 := by exact_mod_cast hm
      gcongr
    rw [le_div_iff₀ hp] at h1
    have h5 : q = 2 ^ 52 * 2 ^ expo q := by linarith
    have : q / 2 ^ expo q = ((2 ^ 52 : Int) : Rat) := by
      rw [div_eq_iff hp.ne']; push_cast; exact h5
    unfold rndPos
    rw [this, roundEven_int, ← this, div_mul_cancel₀ _ hp.ne']

theorem Representable.neg {x : Rat} (h : Representable x) : Representable (-x) := by
  obtain ⟨m, e, hm, rfl⟩ := h
  exact ⟨-m, e, by rwa [abs_neg], by push_cast; ring⟩

theorem rnd_err (x : Rat) : |rnd x - x| ≤ ulp * |x| := by
  unfold rnd
  split_ifs with h1 h2
  · rw [abs_of_pos h1]; exact rndPos_err h1
  · have := rndPos_err (neg_pos.2 h2)
    rw [abs_of_neg h2]
    rw [← abs_neg] at this
    convert this using 2
    ring
  · have : x = 0 := by linarith
    subst this
    simp

theorem rnd_exact (x : Rat) (h : Representable x) : rnd x = x := by
  unfold rnd
  split_ifs with h1 h2
  · exact rndPos_exact h1 h
  · rw [rndPos_exact (neg_pos.2 h2) (Representable.neg h)]; ring
  · linarith

theorem rnd_mono (x y : Rat) (h : x ≤ y) : rnd x ≤ rnd y := by
  unfold rnd
  split_ifs with h1 h2 h3 h4 h5 h6 h7 h8
  · exact rndPos_mono h1 h
  · linarith
  · linarith
  · have := rndPos_pos (neg_pos.2 h4); have := rndPos_pos h5; linarith
  · have := rndPos_mono (neg_pos.2 h6) (neg_le_neg h); linarith
  · have := rndPos_pos (neg_pos.2 h4); linarith
  · exact (rndPos_pos h7).le
  · linarith
  · exact le_refl _

theorem log4_eq {q : Rat} {k : Int} (h : 0 < q) (h1 : (4 : Rat) ^ k ≤ q) (h2 : q < 4 ^ (k + 1)) :
    Int.log 4 q = k := by
  have a := (Int.zpow_le_iff_le_log (b := 4) (by norm_num) h).1 (by exact_mod_cast h1)
  have b := (Int.lt_zpow_iff_log_lt (b := 4) (by norm_num) h).1 (by exact_mod_cast h2)
  omega

theorem expo4_spec {q : Rat} (h : 0 < q) :
    (4 : Rat) ^ 52 ≤ q / 4 ^ expo4 q ∧ q / 4 ^ expo4 q < 4 ^ 53 := by
  have h1 := Int.zpow_log_le_self (b := 4) (by norm_num) h
  have h2 := Int.lt_zpow_succ_log_self (b := 4) (by norm_num) q
  have hp : (0 : Rat) < 4 ^ expo4 q := by positivity
  have e1 : ((4 : Nat) : Rat) ^ Int.log 4 q = 4 ^ 52 * 4 ^ expo4 q := by
    rw [expo4, zpow_sub₀ (by norm_num)]
    norm_num
    ring
  have e2 : ((4 : Nat) : Rat) ^ (Int.log 4 q + 1) = 4 ^ 53 * 4 ^ expo4 q := by
    rw [zpow_add₀ (by norm_num), e1]; norm_num; ring
  rw [e1] at h1
  rw [e2] at h2
  rw [le_div_iff₀ hp, div_lt_iff₀ hp]
  exact ⟨h1, h2⟩

theorem expo4_mono {p q : Rat} (hp : 0 < p) (h : p ≤ q) : expo4 p ≤ expo4 q := by
  unfold expo4
  have := Int.log_mono_right (b := 4) hp h
  omega

/-- The integer square root brackets the square root. -/
theorem sqrtInt_cases {q : Rat} (h : 0 ≤ q) : let m := Nat.sqrt ⌊q⌋₊
    (m : Rat) ^ 2 ≤ q ∧ q < ((m : Rat) + 1) ^ 2 ∧
      ((sqrtInt q = m ∧ q < ((m : Rat) + 1 / 2) ^ 2) ∨ (sqrtInt q = m + 1 ∧ ((m : Rat) + 1 / 2) ^ 2 ≤ q)) := by
  intro m
  refine ⟨?_, ?_, ?_⟩
  · have h1 : m ^ 2 ≤ ⌊q⌋₊ := Nat.sqrt_le' _
    have h2 : ((m ^ 2 : Nat) : Rat) ≤ q := le_trans (Nat.cast_le.2 h1) (Nat.floor_le h)
    exact_mod_cast h2
  · have h1 : ⌊q⌋₊ + 1 ≤ (m + 1) ^ 2 := Nat.lt_succ_sqrt' _
    have h2 : q < ((m + 1) ^ 2 : Nat) := lt_of_lt_of_le (Nat.lt_floor_add_one q) (by exact_mod_cast h1)
    exact_mod_cast h2
  · unfold sqrtInt
    simp only
    split_ifs with hc
    · exact .inr ⟨rfl, hc⟩
    · exact .inl ⟨rfl, not_le.1 hc⟩

theorem sqrtInt_mono {p q : Rat} (h0 : 0 ≤ p) (h : p ≤ q) : sqrtInt p ≤ sqrtInt q := by
  have hm : Nat.sqrt ⌊p⌋₊ ≤ Nat.sqrt ⌊q⌋₊ := Nat.sqrt_le_sqrt (Nat.floor_mono h)
  obtain ⟨-, -, hp⟩ := sqrtInt_cases h0
  obtain ⟨-, -, hq⟩ := sqrtInt_cases (h0.trans h)
  rcases hp with ⟨hp, hp'⟩ | ⟨hp, hp'⟩ <;> rcases hq with ⟨hq, hq'⟩ | ⟨hq, hq'⟩ <;> rw [hp, hq]
  · exact hm
  · omega
  · rcases lt_or_eq_of_le hm with hlt | heq
    · omega
    · exfalso
      rw [heq] at hp'
      linarith
  · omega

theorem sqrtInt_sq (n : Nat) : sqrtInt ((n : Rat) ^ 2) = n := by
  have e : ((n : Rat) ^ 2) = ((n ^ 2 : Nat) : Rat) := by push_cast; rfl
  have hm : Nat.sqrt ⌊(n : Rat) ^ 2⌋₊ = n := by
    rw [e, Nat.floor_natCast, Nat.sqrt_eq']
  unfold sqrtInt
  simp only [hm]
  rw [if_neg]
  rw [not_le]
  have : (0 : Rat) ≤ n := by positivity
  nlinarith

theorem sqrtInt_ge {q : Rat} (h : (4 : Rat) ^ 52 ≤ q) : 2 ^ 52 ≤ Nat.sqrt ⌊q⌋₊ := by
  rw [Nat.le_sqrt', Nat.le_floor_iff (le_trans (by norm_num) h)]
  refine le_trans ?_ h
  norm_num

theorem sqrtInt_err {q : Rat} (h : (4 : Rat) ^ 52 ≤ q) :
    (1 - ulp) ^ 2 * q ≤ (sqrtInt q : Rat) ^ 2 ∧ (sqrtInt q : Rat) ^ 2 ≤ (1 + ulp) ^ 2 * q := by
  have h0 : (0 : Rat) ≤ q := le_trans (by norm_num) h
  have hu : 0 ≤ ulp := by norm_num [ulp]
  have hu1 : ulp ≤ 1 := by norm_num [ulp]
  obtain ⟨h1, h2, h3⟩ := sqrtInt_cases h0
  have hm : (2 : Rat) ^ 52 ≤ (Nat.sqrt ⌊q⌋₊ : Rat) := by exact_mod_cast sqrtInt_ge h
  generalize (Nat.sqrt ⌊q⌋₊) = m at *
  have hk : (1 : Rat) / 2 ≤ ulp * (m + 1 / 2) := by
    unfold ulp
    linarith
  rcases h3 with ⟨h3, h4⟩ | ⟨h3, h4⟩ <;> rw [h3]
  · constructor
    · calc (1 - ulp) ^ 2 * q ≤ (1 - ulp) ^ 2 * ((m : Rat) + 1 / 2) ^ 2 := by gcongr
        _ = ((1 - ulp) * (m + 1 / 2)) ^ 2 := by ring
        _ ≤ (m : Rat) ^ 2 := by
          have : 0 ≤ (1 - ulp) * ((m : Rat) + 1 / 2) := by
            apply mul_nonneg <;> [linarith; positivity]
          gcongr
          linarith
    · calc (m : Rat) ^ 2 ≤ q := h1
        _ ≤ (1 + ulp) ^ 2 * q := by
          have : (1 : Rat) ≤ (1 + ulp) ^ 2 := by nlinarith
          nlinarith
  · push_cast
    constructor
    · calc (1 - ulp) ^ 2 * q ≤ 1 * q := by
            gcongr
            nlinarith
        _ ≤ ((m : Rat) + 1) ^ 2 := by linarith
    · calc ((m : Rat) + 1) ^ 2 ≤ ((1 + ulp) * (m + 1 / 2)) ^ 2 := by
            gcongr
            linarith
        _ = (1 + ulp) ^ 2 * ((m : Rat) + 1 / 2) ^ 2 := by ring
        _ ≤ _ := by gcongr

theorem four_zpow (k : Int) : (4 : Rat) ^ k = (2 ^ k) ^ 2 := by
  rw [show (4 : Rat) = 2 * 2 by norm_num, mul_zpow]; ring

theorem sqrt_nonneg (x : Rat) : 0 ≤ sqrt x := by
  unfold sqrt
  split_ifs
  · positivity
  · exact le_refl _

theorem sqrt_err (x : Rat) (h : 0 ≤ x) :
    (1 - ulp) ^ 2 * x ≤ sqrt x ^ 2 ∧ sqrt x ^ 2 ≤ (1 + ulp) ^ 2 * x := by
  unfold sqrt
  split_ifs with h0
  · obtain ⟨h1, h2⟩ := sqrtInt_err (expo4_spec h0).1
    have hp : (0 : Rat) < 4 ^ expo4 x := by positivity
    rw [mul_pow, ← four_zpow]
    constructor
    · calc (1 - ulp) ^ 2 * x = (1 - ulp) ^ 2 * (x / 4 ^ expo4 x) * 4 ^ expo4 x := by
            rw [mul_assoc, div_mul_cancel₀ _ hp.ne']
        _ ≤ _ := by gcongr
    · calc _ ≤ (1 + ulp) ^ 2 * (x / 4 ^ expo4 x) * 4 ^ expo4 x := by gcongr
        _ = (1 + ulp) ^ 2 * x := by rw [mul_assoc, div_mul_cancel₀ _ hp.ne']
  · have : x = 0 := by linarith
    subst this
    simp

theorem sqrt_mono (x y : Rat) (hx : 0 ≤ x) (h : x ≤ y) : sqrt x ≤ sqrt y := by
  rcases lt_or_eq_of_le hx with h0 | h0
  · have hy : 0 < y := lt_of_lt_of_le h0 h
    unfold sqrt
    rw [if_pos h0, if_pos hy]
    have hpos : (0 : Rat) < 2 ^ expo4 x := by positivity
    have hpos4 : (0 : Rat) < 4 ^ expo4 x := by positivity
    rcases lt_or_eq_of_le (expo4_mono h0 h) with hlt | heq
    · have h1 : sqrtInt (x / 4 ^ expo4 x) ≤ 2 ^ 53 := by
        have := sqrtInt_mono (by positivity) (expo4_spec h0).2.le
        have e : ((4 : Rat) ^ 53) = ((2 ^ 53 : Nat) : Rat) ^ 2 := by norm_num
        rw [e, sqrtInt_sq] at this
        exact this
      have h2 : 2 ^ 52 ≤ sqrtInt (y / 4 ^ expo4 y) := by
        have := sqrtInt_mono (by positivity) (expo4_spec hy).1
        have e : ((4 : Rat) ^ 52) = ((2 ^ 52 : Nat) : Rat) ^ 2 := by norm_num
        rw [e, sqrtInt_sq] at this
        exact this
      have h1' : (sqrtInt (x / 4 ^ expo4 x) : Rat) ≤ 2 ^ 53 := by exact_mod_cast h1
      have h2' : (2 : Rat) ^ 52 ≤ sqrtInt (y / 4 ^ expo4 y) := by exact_mod_cast h2
      have h3 : (2 : Rat) * 2 ^ expo4 x ≤ 2 ^ expo4 y := by
        rw [mul_comm, ← zpow_add_one₀ (by norm_num : (2 : Rat) ≠ 0)]
        exact zpow_le_zpow_right₀ (by norm_num) (by omega)
      calc (sqrtInt (x / 4 ^ expo4 x) : Rat) * 2 ^ expo4 x ≤ 2 ^ 53 * 2 ^ expo4 x := by gcongr
        _ = 2 ^ 52 * (2 * 2 ^ expo4 x) := by ring
        _ ≤ 2 ^ 52 * 2 ^ expo4 y := by gcongr
        _ ≤ sqrtInt (y / 4 ^ expo4 y) * 2 ^ expo4 y := by gcongr
    · rw [heq] at hpos hpos4 ⊢
      have := sqrtInt_mono (div_nonneg hx hpos4.le) (div_le_div_of_nonneg_right h hpos4.le)
      have : (sqrtInt (x / 4 ^ expo4 y) : Rat) ≤ sqrtInt (y / 4 ^ expo4 y) := by exact_mod_cast this
      gcongr
  · subst h0
    rw [sqrt, if_neg (lt_irrefl _)]
    exact sqrt_nonneg y

theorem sqrt_four (x : Rat) (hx : 0 ≤ x) : sqrt (4 * x) = 2 * sqrt x := by
  rcases lt_or_eq_of_le hx with h0 | h0
  · have h4 : 0 < 4 * x := by positivity
    have e : expo4 (4 * x) = expo4 x + 1 := by
      have h1 := Int.zpow_log_le_self (b := 4) (by norm_num) h0
      have h2 := Int.lt_zpow_succ_log_self (b := 4) (by norm_num) x
      push_cast at h1 h2
      unfold expo4
      rw [log4_eq (k := Int.log 4 x + 1) h4]
      · omega
      · rw [zpow_add_one₀ (by norm_num)]; linarith
      · rw [zpow_add_one₀ (by norm_num)]; linarith
    unfold sqrt
    rw [if_pos h4, if_pos h0, e, zpow_add_one₀ (by norm_num), zpow_add_one₀ (by norm_num)]
    have : 4 * x / (4 ^ expo4 x * 4) = x / 4 ^ expo4 x := by
      rw [mul_comm (4 ^ expo4 x : Rat) 4, mul_div_mul_left _ _ (by norm_num)]
    rw [this]
    ring
  · subst h0
    simp [sqrt]

theorem sqrt_sq (x : Rat) (hx : 0 ≤ x) (hr : Representable x) : sqrt (x ^ 2) = x := by
  rcases lt_or_eq_of_le hx with h0 | h0
  · have h2 : 0 < x ^ 2 := by positivity
    have e : expo4 (x ^ 2) = expo x := by
      have h1 := Int.zpow_log_le_self (b := 2) (by norm_num) h0
      have h2' := Int.lt_zpow_succ_log_self (b := 2) (by norm_num) x
      push_cast at h1 h2'
      unfold expo4 expo
      rw [log4_eq (k := Int.log 2 x) h2]
      · rw [four_zpow]; gcongr
      · rw [four_zpow]; gcongr
    have hn : (roundEven (x / 2 ^ expo x) : Rat) * 2 ^ expo x = x := rndPos_exact h0 hr
    have hp : (0 : Rat) < 2 ^ expo x := by positivity
    have hn' : x / 2 ^ expo x = roundEven (x / 2 ^ expo x) := by
      rw [div_eq_iff hp.ne', hn]
    have hnn : (0 : Rat) ≤ roundEven (x / 2 ^ expo x) := by rw [← hn']; positivity
    have hnn' : 0 ≤ roundEven (x / 2 ^ expo x) := by exact_mod_cast hnn
    unfold sqrt
    rw [if_pos h2, e, four_zpow, ← div_pow]
    obtain ⟨n, hk⟩ := Int.eq_ofNat_of_zero_le hnn'
    rw [hk] at hn hn'
    rw [hn', Int.cast_natCast, sqrtInt_sq]
    exact_mod_cast hn
  · subst h0
    simp [sqrt]

/-- Rounding to nearest even satisfies the assumptions. -/
theorem lawful : ops.Lawful where
  rnd_err := rnd_err
  rnd_exact := rnd_exact
  rnd_mono := rnd_mono
  sqrt_nonneg := sqrt_nonneg
  sqrt_lo x h := (sqrt_err x h).1
  sqrt_hi x h := (sqrt_err x h).2
  sqrt_mono := sqrt_mono
  sqrt_four := sqrt_four
  sqrt_sq := sqrt_sq
  powi2_err x := by
    have h := rnd_err (x * x)
    have h0 : 0 ≤ x * x := mul_self_nonneg x
    rw [abs_of_nonneg h0] at h
    show |rnd (x * x) - x ^ 2| ≤ _
    rw [pow_two]
    refine h.trans ?_
    have : ulp ≤ 1 / 2 ^ 50 := by norm_num [ulp]
    gcongr

end Cniic.Ieee
