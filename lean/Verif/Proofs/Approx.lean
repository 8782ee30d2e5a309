import Verif.Core.Ieee
import Verif.Spec.Approx
import Verif.Proofs.Hilbertc
import Mathlib.Data.List.Forall2

/-! # Proofs: approximate runs -/

namespace Cniic
open Spec SerSpec

variable {fl : FloatOps}

/-! ## Means -/

theorem representable_int {n : Int} (h : |n| ≤ 2 ^ 53) : Representable (n : Rat) :=
  ⟨n, 0, h, by simp⟩

theorem representable_nat {n : Nat} (h : n ≤ 2 ^ 53) : Representable (n : Rat) := by
  have := representable_int (n := (n : Int)) (by rw [abs_of_nonneg (by omega)]; exact_mod_cast h)
  exact_mod_cast this

theorem representable_half {n : Int} (h : |n| ≤ 2 ^ 53) : Representable ((n : Rat) / 2) :=
  ⟨n, -1, h, by simp [div_eq_mul_inv]⟩

theorem roundedDiv_spec {s n : Nat} (hn : 0 < n) :
    (2 * roundedDiv s n : Int) * n ≤ 2 * s + n ∧ (2 * s + n : Int) < (2 * roundedDiv s n + 2) * n := by
  unfold roundedDiv
  have h1 := Nat.div_mul_le_self (2 * s + n) (2 * n)
  have h2 := Nat.lt_div_mul_add (a := 2 * s + n) (b := 2 * n) (by omega)
  generalize (2 * s + n) / (2 * n) = k at *
  constructor
  · have : k * (2 * n) = 2 * k * n := by ring
    zify at h1
    linarith
  · zify at h2
    linarith

theorem roundedDiv_le {s n : Nat} (hn : 0 < n) (hs : s ≤ 255 * n) : roundedDiv s n ≤ 255 := by
  unfold roundedDiv
  rw [← Nat.lt_succ_iff, Nat.div_lt_iff_lt_mul (by omega)]
  omega

/-- The mean computed in floating point is rounded to the same integer as the exact mean. -/
theorem safeConvert_div (hfl : fl.Lawful) {s n : Nat} (hn : 0 < n) (hn' : n ≤ 255) (hs : s ≤ 255 * n) :
    safeConvert (fl.div s n) = some (UInt8.ofNat (roundedDiv s n)) := by
  have hn0 : (0 : Rat) < n := by exact_mod_cast hn
  have hle : (s : Rat) / n ≤ 255 := by
    rw [div_le_iff₀ hn0]; exact_mod_cast hs
  have h255 : fl.div s n ≤ 255 := by
    have h := hfl.rnd_mono _ _ hle
    have e : fl.rnd 255 = 255 := by
      have := hfl.rnd_exact _ (representable_nat (n := 255) (by norm_num))
      exact_mod_cast this
    rw [e] at h
    exact h
  rw [safeConvert, if_pos h255, roundU8]
  obtain ⟨k1, k2⟩ := roundedDiv_spec (s := s) hn
  have kle := roundedDiv_le hn hs
  generalize roundedDiv s n = k at *
  -- lower bound
  have hlo : ((k : Int) : Rat) ≤ fl.div s n + 1 / 2 := by
    have h1 : ((2 * k - 1 : Int) : Rat) / 2 ≤ (s : Rat) / n := by
      rw [div_le_div_iff₀ (by norm_num) hn0]
      have : (2 * k - 1 : Int) * n ≤ s * 2 := by linarith
      exact_mod_cast this
    have h2 := hfl.rnd_mono _ _ h1
    rw [hfl.rnd_exact _ (representable_half (by rw [abs_le]; constructor <;> omega))] at h2
    have : fl.div s n = fl.rnd (s / n) := rfl
    rw [this]
    push_cast at h2 ⊢
    linarith
  -- upper bound
  have hhi : fl.div s n + 1 / 2 < ((k : Int) : Rat) + 1 := by
    have h1 : (s : Rat) / n ≤ k + 1 / 2 - 1 / (2 * n) := by
      have : (2 * s + n + 1 : Int) ≤ (2 * k + 2) * n := by omega
      have h' : (2 * s + n + 1 : Rat) ≤ (2 * k + 2) * n := by exact_mod_cast this
      rw [div_le_iff₀ hn0]
      have e : ((k : Rat) + 1 / 2 - 1 / (2 * n)) * n = k * n + n / 2 - 1 / 2 := by
        field_simp
      rw [e]
      linarith
    have h2 := abs_le.1 (hfl.rnd_err ((s : Rat) / n))
    have h0 : (0 : Rat) ≤ (s : Rat) / n := by positivity
    rw [abs_of_nonneg h0] at h2
    have h3 : (1 : Rat) / 510 ≤ 1 / (2 * n) := by
      apply one_div_le_one_div_of_le (by positivity)
      have : (n : Rat) ≤ 255 := by exact_mod_cast hn'
      linarith
    have h4 : ulp * ((s : Rat) / n) ≤ ulp * 255 := by
      have : (0 : Rat) ≤ ulp := by norm_num [ulp]
      gcongr
    have h5 : ulp * 255 < 1 / 510 := by norm_num [ulp]
    have : fl.div s n = fl.rnd (s / n) := rfl
    rw [this]
    push_cast
    linarith [h2.2]
  have hf : (fl.div s n + 1 / 2).floor = (k : Int) := by
    show ⌊fl.div s n + 1 / 2⌋ = (k : Int)
    rw [Int.floor_eq_iff]
    exact ⟨hlo, hhi⟩
  rw [hf]
  have : min 255 ((k : Int).toNat) = k := by simp; omega
  rw [this]

theorem chanSum_append (ch : Rgb UInt8 → UInt8) (g h : List (Rgb UInt8)) :
    chanSum ch (g ++ h) = chanSum ch g + chanSum ch h := by simp [chanSum]

theorem chanSum_singleton (ch : Rgb UInt8 → UInt8) (x : Rgb UInt8) :
    chanSum ch [x] = (ch x).toNat := by simp [chanSum]

theorem chanSum_le (ch : Rgb UInt8 → UInt8) (g : List (Rgb UInt8)) : chanSum ch g ≤ 255 * g.length := by
  induction g with
  | nil => simp [chanSum]
  | cons x g ih =>
    have := (ch x).toNat_lt
    simp only [chanSum, List.map_cons, List.sum_cons, List.length_cons] at ih ⊢
    omega

/-- The state of the running average after some pixels. -/
def avgOf (g : List (Rgb UInt8)) : RunningAvg :=
  { sum := ⟨chanSum (·.r) g, chanSum (·.g) g, chanSum (·.b) g⟩, count := g.length }

/-- Adding whole numbers is exact. -/
theorem add_nat (hfl : fl.Lawful) {a b : Nat} (h : a + b ≤ 2 ^ 53) : fl.add a b = ((a + b : Nat) : Rat) := by
  have := hfl.rnd_exact _ (representable_nat h)
  rw [← this, FloatOps.add]
  push_cast
  rfl

theorem add_avgOf (hfl : fl.Lawful) {g : List (Rgb UInt8)} (x : Rgb UInt8) (h : g.length < 255) :
    (avgOf g).add fl x = avgOf (g ++ [x]) := by
  have key : ∀ ch : Rgb UInt8 → UInt8, fl.add (chanSum ch g) (ch x).toNat = (chanSum ch (g ++ [x]) : Nat) := by
    intro ch
    have h1 := chanSum_le ch g
    have h2 := (ch x).toNat_lt
    rw [add_nat hfl (by omega), chanSum_append, chanSum_singleton]
  unfold RunningAvg.add avgOf
  rw [key (·.r), key (·.g), key (·.b), List.length_append]
  rfl

/-- The test that decides whether a pixel joins a group. -/
def joins (fl : FloatOps) (allow : F64) (g : List (Rgb UInt8)) (x : Rgb UInt8) : Prop :=
  allow.ge (distF64 fl ((avgOf g).avgF64 fl) (asF64 x)) = true

theorem avg_avgOf (hfl : fl.Lawful) {g : List (Rgb UInt8)} (hg : g ≠ []) (h : g.length ≤ 255) :
    (avgOf g).avg fl = some (meanColor g) := by
  have hpos := List.length_pos_iff.2 hg
  simp only [RunningAvg.avg, RunningAvg.avgF64, avgOf]
  rw [safeConvert_div hfl hpos h (chanSum_le _ g), safeConvert_div hfl hpos h (chanSum_le _ g),
    safeConvert_div hfl hpos h (chanSum_le _ g)]
  rfl

theorem approx_represents (hfl : fl.Lawful) (allow : F64) :
    Represents (Approx fl allow) (fun s g => s = some (avgOf g)) (joins fl allow) meanColor where
  start _ v := by
    simp [Approx, RunningAvg.new, avgOf, asF64, chanSum]
  accept s g x h hg hl := by
    subst h
    by_cases hj : joins fl allow g x
    · refine .inl ⟨hj, some (avgOf (g ++ [x])), ?_, rfl⟩
      unfold joins at hj
      simp only [Approx, hj, if_true]
      rw [add_avgOf hfl x hl]
    · refine .inr ⟨hj, some (avgOf g), ?_, rfl⟩
      unfold joins at hj
      simp only [Approx]
      rw [Bool.not_eq_true] at hj
      simp [hj]
  finish s g h hg hl := by
    subst h
    refine ⟨none, ?_⟩
    simp only [Approx, avg_avgOf hfl hg hl]

/-! ## Distances -/

theorem ulp_nonneg : 0 ≤ ulp := by norm_num [ulp]

theorem near_iff (a b : Rgb Rat) (d : Rat) :
    Near a b d ↔ (a.r - b.r) ^ 2 + (a.g - b.g) ^ 2 + (a.b - b.b) ^ 2 ≤ d ^ 2 := ⟨fun h => h.le, .mk⟩

theorem _root_.Cniic.Spec.Near.trans {a b c : Rgb Rat} {d e : Rat} (hd : 0 ≤ d) (he : 0 ≤ e) (h1 : Near a b d)
    (h2 : Near b c e) : Near a c (d + e) := by
  obtain ⟨h1⟩ := h1
  obtain ⟨h2⟩ := h2
  constructor
  generalize hx : a.r - b.r = x1 at *
  generalize hy : a.g - b.g = x2 at *
  generalize hz : a.b - b.b = x3 at *
  generalize hx' : b.r - c.r = y1 at *
  generalize hy' : b.g - c.g = y2 at *
  generalize hz' : b.b - c.b = y3 at *
  have e1 : a.r - c.r = x1 + y1 := by linarith
  have e2 : a.g - c.g = x2 + y2 := by linarith
  have e3 : a.b - c.b = x3 + y3 := by linarith
  rw [e1, e2, e3]
  have cs : (x1 * y1 + x2 * y2 + x3 * y3) ^ 2 ≤ (d * e) ^ 2 := by
    calc (x1 * y1 + x2 * y2 + x3 * y3) ^ 2
        ≤ (x1 ^ 2 + x2 ^ 2 + x3 ^ 2) * (y1 ^ 2 + y2 ^ 2 + y3 ^ 2) := by
          nlinarith [sq_nonneg (x1 * y2 - x2 * y1), sq_nonneg (x1 * y3 - x3 * y1),
            sq_nonneg (x2 * y3 - x3 * y2)]
      _ ≤ d ^ 2 * e ^ 2 := by gcongr
      _ = (d * e) ^ 2 := by ring
  have := le_of_abs_le (abs_le_of_sq_le_sq cs (by positivity))
  nlinarith

theorem _root_.Cniic.Spec.Near.mono {a b : Rgb Rat} {d e : Rat} (hd : 0 ≤ d) (hde : d ≤ e) (h : Near a b d) : Near a b e := by
  refine ⟨h.le.trans ?_⟩
  gcongr

theorem _root_.Cniic.Spec.Near.symm {a b : Rgb Rat} {d : Rat} (h : Near a b d) : Near b a d := by
  obtain ⟨h⟩ := h
  constructor
  linarith

/-- Channel-wise close colours are near. -/
theorem near_of_chan {a b : Rgb Rat} {η : Rat} (h1 : |a.r - b.r| ≤ η) (h2 : |a.g - b.g| ≤ η)
    (h3 : |a.b - b.b| ≤ η) {d : Rat} (hd : 3 * η ^ 2 ≤ d ^ 2) : Near a b d := by
  constructor
  have := sq_le_sq' (by linarith [abs_le.1 h1]) (abs_le.1 h1).2
  have := sq_le_sq' (by linarith [abs_le.1 h2]) (abs_le.1 h2).2
  have := sq_le_sq' (by linarith [abs_le.1 h3]) (abs_le.1 h3).2
  linarith

/-- Relative error of one rounding of a non-negative number. -/
theorem rnd_nonneg_bounds (hfl : fl.Lawful) {x : Rat} (h : 0 ≤ x) :
    (1 - ulp) * x ≤ fl.rnd x ∧ fl.rnd x ≤ (1 + ulp) * x := by
  have := abs_le.1 (hfl.rnd_err x)
  rw [abs_of_nonneg h] at this
  constructor <;> linarith [this.1, this.2]

/-- What the computed distance says about the rounded differences. -/
theorem distF64_bounds (hfl : fl.Lawful) (a b : Rgb Rat) :
    let S := fl.sub a.r b.r ^ 2 + fl.sub a.g b.g ^ 2 + fl.sub a.b b.b ^ 2
    0 ≤ distF64 fl a b ∧ (1 - 1 / 2 ^ 48) * S ≤ distF64 fl a b ^ 2 ∧
      distF64 fl a b ^ 2 ≤ (1 + 1 / 2 ^ 48) * S := by
  intro S
  have sq := fun x : Rat => abs_le.1 (hfl.powi2_err x)
  unfold distF64
  simp only [FloatOps.add]
  have hx := sq (fl.sub a.r b.r)
  have hy := sq (fl.sub a.g b.g)
  have hz := sq (fl.sub a.b b.b)
  have hS : S = fl.sub a.r b.r ^ 2 + fl.sub a.g b.g ^ 2 + fl.sub a.b b.b ^ 2 := rfl
  have nx := sq_nonneg (fl.sub a.r b.r)
  have ny := sq_nonneg (fl.sub a.g b.g)
  have nz := sq_nonneg (fl.sub a.b b.b)
  generalize fl.powi2 (fl.sub a.r b.r) = px at *
  generalize fl.powi2 (fl.sub a.g b.g) = py at *
  generalize fl.powi2 (fl.sub a.b b.b) = pz at *
  generalize fl.sub a.r b.r ^ 2 = X at *
  generalize fl.sub a.g b.g ^ 2 = Y at *
  generalize fl.sub a.b b.b ^ 2 = Z at *
  have hpx : 0 ≤ px := by linarith [hx.1]
  have hpy : 0 ≤ py := by linarith [hy.1]
  have hpz : 0 ≤ pz := by linarith [hz.1]
  have hu := ulp_nonneg
  obtain ⟨l1, u1⟩ := rnd_nonneg_bounds hfl (x := 0 + px) (by linarith)
  have n1 : 0 ≤ fl.rnd (0 + px) := le_trans (mul_nonneg (by norm_num [ulp]) (by linarith)) l1
  obtain ⟨l2, u2⟩ := rnd_nonneg_bounds hfl (x := fl.rnd (0 + px) + py) (by linarith)
  have n2 : 0 ≤ fl.rnd (fl.rnd (0 + px) + py) :=
    le_trans (mul_nonneg (by norm_num [ulp]) (by linarith)) l2
  obtain ⟨l3, u3⟩ := rnd_nonneg_bounds hfl (x := fl.rnd (fl.rnd (0 + px) + py) + pz) (by linarith)
  have n3 : 0 ≤ fl.rnd (fl.rnd (fl.rnd (0 + px) + py) + pz) :=
    le_trans (mul_nonneg (by norm_num [ulp]) (by linarith)) l3
  generalize fl.rnd (0 + px) = s1 at *
  generalize fl.rnd (s1 + py) = s2 at *
  generalize fl.rnd (s2 + pz) = s3 at *
  have h4 := hfl.sqrt_lo s3 n3
  have h5 := hfl.sqrt_hi s3 n3
  refine ⟨hfl.sqrt_nonneg _, ?_, ?_⟩
  · rw [hS]
    refine le_trans ?_ h4
    unfold ulp at *
    norm_num at *
    linarith
  · rw [hS]
    refine h5.trans ?_
    unfold ulp at *
    norm_num at *
    linarith

/-- The rounded differences are close to the exact ones. -/
theorem chanDiff_err (hfl : fl.Lawful) {ch : Rgb UInt8 → UInt8} {g : List (Rgb UInt8)} (x : Rgb UInt8)
    (hg : g ≠ []) :
    |fl.sub (fl.div (chanSum ch g) g.length) (ch x).toNat - (chanMean ch g - (ch x).toNat)| ≤ 1 / 2 ^ 44 := by
  have hpos := List.length_pos_iff.2 hg
  have hn0 : (0 : Rat) < g.length := by exact_mod_cast hpos
  have hm0 : 0 ≤ chanMean ch g := by unfold chanMean; positivity
  have hm1 : chanMean ch g ≤ 255 := by
    unfold chanMean
    rw [div_le_iff₀ hn0]
    exact_mod_cast chanSum_le ch g
  have hx0 : (0 : Rat) ≤ (ch x).toNat := by positivity
  have hx1 : ((ch x).toNat : Rat) ≤ 255 := by
    have : (ch x).toNat ≤ 255 := by have := (ch x).toNat_lt; omega
    exact_mod_cast this
  have e1 := hfl.rnd_err (chanMean ch g)
  have : fl.div (chanSum ch g) g.length = fl.rnd (chanMean ch g) := rfl
  rw [this]
  rw [abs_of_nonneg hm0] at e1
  have e2 := hfl.rnd_err (fl.rnd (chanMean ch g) - (ch x).toNat)
  have e1' := abs_le.1 e1
  have e3 : |fl.rnd (chanMean ch g) - ((ch x).toNat : Rat)| ≤ 256 := by
    rw [abs_le]
    unfold ulp at e1'
    obtain ⟨a1, a2⟩ := e1'
    constructor <;> norm_num at a1 a2 ⊢ <;> linarith
  have e2' := abs_le.1 (e2.trans (mul_le_mul_of_nonneg_left e3 ulp_nonneg))
  show |fl.rnd (fl.rnd (chanMean ch g) - (ch x).toNat) - _| ≤ _
  rw [abs_le]
  unfold ulp at e1' e2'
  obtain ⟨a1, a2⟩ := e1'
  obtain ⟨b1, b2⟩ := e2'
  constructor <;> norm_num at a1 a2 b1 b2 ⊢ <;> linarith

/-- The rounded differences as a colour. -/
def diffHat (fl : FloatOps) (g : List (Rgb UInt8)) (x : Rgb UInt8) : Rgb Rat :=
  ⟨fl.sub (fl.div (chanSum (·.r) g) g.length) x.r.toNat, fl.sub (fl.div (chanSum (·.g) g) g.length) x.g.toNat,
    fl.sub (fl.div (chanSum (·.b) g) g.length) x.b.toNat⟩

/-- The exact differences as a colour. -/
def diffExact (g : List (Rgb UInt8)) (x : Rgb UInt8) : Rgb Rat :=
  ⟨chanMean (·.r) g - x.r.toNat, chanMean (·.g) g - x.g.toNat, chanMean (·.b) g - x.b.toNat⟩

def zeroColor : Rgb Rat := ⟨0, 0, 0⟩

theorem near_diff (g : List (Rgb UInt8)) (x : Rgb UInt8) (d : Rat) :
    Near (diffExact g x) zeroColor d ↔ Near (meanExact g) (exactColor x) d := by
  simp [near_iff, diffExact, zeroColor, meanExact, exactColor]

theorem diffHat_near (hfl : fl.Lawful) {g : List (Rgb UInt8)} (x : Rgb UInt8) (hg : g ≠ []) :
    Near (diffHat fl g x) (diffExact g x) (1 / 2 ^ 43) := by
  have h1 := chanDiff_err hfl (ch := (·.r)) x hg
  have h2 := chanDiff_err hfl (ch := (·.g)) x hg
  have h3 := chanDiff_err hfl (ch := (·.b)) x hg
  have hd : (3 : Rat) * (1 / 2 ^ 44) ^ 2 ≤ (1 / 2 ^ 43) ^ 2 := by norm_num
  generalize (1 : Rat) / 2 ^ 44 = η at h1 h2 h3 hd
  generalize (1 : Rat) / 2 ^ 43 = d at hd ⊢
  apply near_of_chan (a := diffHat fl g x) (b := diffExact g x) (η := η) (d := d)
  · exact h1
  · exact h2
  · exact h3
  · exact hd

theorem diffHat_zero (fl : FloatOps) (g : List (Rgb UInt8)) (x : Rgb UInt8) (d : Rat) :
    Near (diffHat fl g x) zeroColor d ↔
      fl.sub (fl.div (chanSum (·.r) g) g.length) x.r.toNat ^ 2 +
      fl.sub (fl.div (chanSum (·.g) g) g.length) x.g.toNat ^ 2 +
      fl.sub (fl.div (chanSum (·.b) g) g.length) x.b.toNat ^ 2 ≤ d ^ 2 := by
  simp [near_iff, diffHat, zeroColor]

/-- A pixel that joins a group is within the allowance of the mean, up to rounding. -/
theorem joins_near (hfl : fl.Lawful) {g : List (Rgb UInt8)} {x : Rgb UInt8} (hg : g ≠ []) {d : Rat}
    (h : joins fl (.fin d) g x) :
    0 ≤ d ∧ Near (meanExact g) (exactColor x) (d * (1 + 1 / 2 ^ 40) + 1 / 2 ^ 40) := by
  unfold joins at h
  simp only [F64.ge, decide_eq_true_eq] at h
  obtain ⟨h0, h1, _⟩ := distF64_bounds hfl ((avgOf g).avgF64 fl) (asF64 x)
  have hd : 0 ≤ d := h0.trans h
  refine ⟨hd, ?_⟩
  have h2 : distF64 fl ((avgOf g).avgF64 fl) (asF64 x) ^ 2 ≤ d ^ 2 := by gcongr
  have h3 : Near (diffHat fl g x) zeroColor (d * (1 + 1 / 2 ^ 40)) := by
    rw [diffHat_zero]
    have := h1.trans h2
    simp only [RunningAvg.avgF64, avgOf, asF64] at this
    have hd2 : 0 ≤ d ^ 2 := by positivity
    have e : (d * (1 + 1 / 2 ^ 40)) ^ 2 = (1 + 1 / 2 ^ 40) ^ 2 * d ^ 2 := by ring
    rw [e]
    norm_num at this ⊢
    linarith
  rw [← near_diff]
  refine ((diffHat_near hfl x hg).symm.trans (by norm_num) (by positivity) h3).mono (by positivity) ?_
  norm_num
  linarith

/-- A pixel clearly within the allowance of the mean joins the group. -/
theorem near_joins (hfl : fl.Lawful) {g : List (Rgb UInt8)} {x : Rgb UInt8} (hg : g ≠ []) {d e : Rat}
    (he : 0 ≤ e) (hed : e * (1 + 1 / 2 ^ 40) + 1 / 2 ^ 40 ≤ d)
    (h : Near (meanExact g) (exactColor x) e) : joins fl (.fin d) g x := by
  unfold joins
  simp only [F64.ge, decide_eq_true_eq]
  obtain ⟨h0, _, h1⟩ := distF64_bounds hfl ((avgOf g).avgF64 fl) (asF64 x)
  rw [← near_diff] at h
  have h3 := (diffHat_near hfl x hg).trans (by norm_num) he h
  rw [diffHat_zero] at h3
  have hd : 0 ≤ d := le_trans (by positivity) hed
  apply le_of_sq_le_sq _ hd
  refine h1.trans ?_
  simp only [RunningAvg.avgF64, avgOf, asF64]
  calc _ ≤ (1 + 1 / 2 ^ 48) * (1 / 2 ^ 43 + e) ^ 2 := by gcongr
    _ ≤ (1 + 1 / 2 ^ 48) ^ 2 * (1 / 2 ^ 43 + e) ^ 2 := by
      gcongr
      norm_num
    _ = ((1 + 1 / 2 ^ 48) * (1 / 2 ^ 43 + e)) ^ 2 := by ring
    _ ≤ d ^ 2 := by
      gcongr
      refine le_trans ?_ hed
      norm_num
      linarith

/-! ## Drift -/

theorem chanMean_append (ch : Rgb UInt8 → UInt8) {g : List (Rgb UInt8)} (hg : g ≠ []) (x : Rgb UInt8) :
    chanMean ch (g ++ [x]) = chanMean ch g + ((ch x).toNat - chanMean ch g) / (g.length + 1) := by
  have hn0 : (0 : Rat) < g.length := by exact_mod_cast List.length_pos_iff.2 hg
  unfold chanMean
  rw [chanSum_append, chanSum_singleton, List.length_append, List.length_singleton]
  push_cast
  field_simp
  ring

theorem mean_moves {g : List (Rgb UInt8)} (hg : g ≠ []) {x : Rgb UInt8} {D : Rat}
    (h : Near (meanExact g) (exactColor x) D) :
    Near (meanExact (g ++ [x])) (meanExact g) (1 / (g.length + 1) * D) ∧
    Near (meanExact (g ++ [x])) (exactColor x) (g.length / (g.length + 1) * D) := by
  have hn0 : (0 : Rat) < g.length := by exact_mod_cast List.length_pos_iff.2 hg
  obtain ⟨h⟩ := h
  simp only [meanExact, exactColor] at h
  constructor
  · constructor
    simp only [meanExact]
    rw [chanMean_append _ hg, chanMean_append _ hg, chanMean_append _ hg]
    generalize chanMean (·.r) g = a at *
    generalize chanMean (·.g) g = b at *
    generalize chanMean (·.b) g = c at *
    calc _ = (1 / ((g.length : Rat) + 1)) ^ 2 * ((a - x.r.toNat) ^ 2 + (b - x.g.toNat) ^ 2 + (c - x.b.toNat) ^ 2) := by
          field_simp
          ring
      _ ≤ (1 / ((g.length : Rat) + 1)) ^ 2 * D ^ 2 := by gcongr
      _ = _ := by ring
  · constructor
    simp only [meanExact, exactColor]
    rw [chanMean_append _ hg, chanMean_append _ hg, chanMean_append _ hg]
    generalize chanMean (·.r) g = a at *
    generalize chanMean (·.g) g = b at *
    generalize chanMean (·.b) g = c at *
    calc _ = ((g.length : Rat) / ((g.length : Rat) + 1)) ^ 2 * ((a - x.r.toNat) ^ 2 + (b - x.g.toNat) ^ 2 + (c - x.b.toNat) ^ 2) := by
          field_simp
          ring
      _ ≤ ((g.length : Rat) / ((g.length : Rat) + 1)) ^ 2 * D ^ 2 := by gcongr
      _ = _ := by ring

theorem harm_succ {n : Nat} (h : 0 < n) : harm (n + 1) = harm n + 1 / ((n : Rat) + 1) := by
  obtain ⟨n, rfl⟩ : ∃ k, n = k + 1 := ⟨n - 1, by omega⟩
  rw [harm]
  push_cast
  ring

theorem harm_nonneg (n : Nat) : 0 ≤ harm n := by
  induction n with
  | zero => exact le_refl _
  | succ n ih =>
    rcases Nat.eq_zero_or_pos n with rfl | h
    · exact le_refl _
    · rw [harm_succ h]; positivity

theorem harm_ge {n : Nat} (h : 0 < n) : 1 - 2 / ((n : Rat) + 1) ≤ harm n := by
  induction n with
  | zero => omega
  | succ n ih =>
    rcases Nat.eq_zero_or_pos n with rfl | h0
    · norm_num [harm]
    · rw [harm_succ h0]
      have := ih h0
      have e : (2 : Rat) / (n + 1) - 2 / (n + 1 + 1) ≤ 1 / (n + 1) := by
        have h1 : (0 : Rat) < n := by exact_mod_cast h0
        rw [div_sub_div _ _ (by positivity) (by positivity), div_le_div_iff₀ (by positivity) (by positivity)]
        nlinarith
      push_cast
      linarith

theorem harm_mono {m n : Nat} (h : m ≤ n) : harm m ≤ harm n := by
  induction n with
  | zero => obtain rfl : m = 0 := by omega
            exact le_refl _
  | succ n ih =>
    rcases Nat.lt_or_ge n m with h1 | h1
    · obtain rfl : m = n + 1 := by omega
      exact le_refl _
    · refine (ih h1).trans ?_
      rcases Nat.eq_zero_or_pos n with rfl | h0
      · exact le_refl _
      · rw [harm_succ h0]
        have : (0 : Rat) ≤ 1 / ((n : Rat) + 1) := by positivity
        linarith

theorem harm_255 : harm 255 ≤ 5.1216 := by
  have : harm 255 ≤ 51216 / 10000 := by decide +kernel
  norm_num at this ⊢
  exact this

theorem meanExact_singleton (x : Rgb UInt8) : meanExact [x] = exactColor x := by
  simp [meanExact, exactColor, chanMean, chanSum]

/-- How far the mean of a group can be from its pixels. -/
theorem drift {D : Rat} (hD : 0 ≤ D) (g : List (Rgb UInt8))
    (h : ∀ p x q, g = p ++ x :: q → p ≠ [] → Near (meanExact p) (exactColor x) D) :
    ∀ x ∈ g, Near (meanExact g) (exactColor x) (harm g.length * D) := by
  induction g using List.reverseRecOn with
  | nil => simp
  | append_singleton g y ih =>
    intro x hx
    by_cases hg : g = []
    · subst hg
      simp only [List.nil_append, List.mem_singleton] at hx
      subst hx
      rw [List.nil_append, meanExact_singleton]
      constructor
      simp [harm]
    · have hpos := List.length_pos_iff.2 hg
      have hn0 : (0 : Rat) < g.length := by exact_mod_cast hpos
      obtain ⟨h1, h2⟩ := mean_moves hg (h g y [] rfl hg)
      rw [List.length_append, List.length_singleton, harm_succ hpos]
      rcases List.mem_append.1 hx with hx | hx
      · have h3 := ih (fun p z q e hp => h p z (q ++ [y]) (by rw [e]; simp) hp) x hx
        refine (h1.trans (by positivity) (mul_nonneg (harm_nonneg _) hD) h3).mono
          (add_nonneg (by positivity) (mul_nonneg (harm_nonneg _) hD)) ?_
        linarith
      · obtain rfl := List.mem_singleton.1 hx
        refine h2.mono (by positivity) ?_
        apply mul_le_mul_of_nonneg_right _ hD
        have := harm_ge hpos
        have e : (g.length : Rat) / (g.length + 1) = 1 - 2 / (g.length + 1) + 1 / (g.length + 1) := by
          field_simp
          ring
        rw [e]
        linarith

/-- Rounding the mean. -/
theorem meanColor_near {g : List (Rgb UInt8)} (hg : g ≠ []) :
    Near (exactColor (meanColor g)) (meanExact g) 0.8661 := by
  have hpos := List.length_pos_iff.2 hg
  have hn0 : (0 : Rat) < g.length := by exact_mod_cast hpos
  have key : ∀ ch : Rgb UInt8 → UInt8,
      |((UInt8.ofNat (roundedDiv (chanSum ch g) g.length)).toNat : Rat) - chanMean ch g| ≤ 1 / 2 := by
    intro ch
    rw [u8_ofNat_toNat (roundedDiv_le hpos (chanSum_le ch g))]
    obtain ⟨k1, k2⟩ := roundedDiv_spec (s := chanSum ch g) hpos
    have k1' : (2 * roundedDiv (chanSum ch g) g.length : Rat) * g.length ≤ 2 * chanSum ch g + g.length := by
      exact_mod_cast k1
    have k2' : (2 * chanSum ch g + g.length : Rat) < (2 * roundedDiv (chanSum ch g) g.length + 2) * g.length := by
      exact_mod_cast k2
    generalize (roundedDiv (chanSum ch g) g.length : Rat) = k at *
    unfold chanMean
    generalize (chanSum ch g : Rat) = s at *
    have e1 : s / g.length ≤ k + 1 / 2 := by
      rw [div_le_iff₀ hn0]; linarith
    have e2 : k - 1 / 2 ≤ s / g.length := by
      rw [le_div_iff₀ hn0]; linarith
    rw [abs_le]
    constructor <;> linarith
  have h1 := key (·.r)
  have h2 := key (·.g)
  have h3 := key (·.b)
  apply near_of_chan (a := exactColor (meanColor g)) (b := meanExact g) (η := 1 / 2)
  · exact h1
  · exact h2
  · exact h3
  · norm_num

/-- The error of approximate runs. -/
theorem averaged_near (hfl : fl.Lawful) {d : Rat} (hd : 0 ≤ d) {g : List (Rgb UInt8)} (hg : g ≠ [])
    (hl : g.length ≤ 255) (h : ∀ p x q, g = p ++ x :: q → p ≠ [] → joins fl (.fin d) p x) :
    ∀ x ∈ g, Near (exactColor (meanColor g)) (exactColor x) (5.13 * d + 0.87) := by
  intro x hx
  have hD : (0 : Rat) ≤ d * (1 + 1 / 2 ^ 40) + 1 / 2 ^ 40 := by positivity
  have h1 := drift hD g (fun p x q e hp => (joins_near hfl hp (h p x q e hp)).2) x hx
  have hh : harm g.length ≤ 5.1216 := (harm_mono hl).trans harm_255
  have hh0 := harm_nonneg g.length
  refine ((meanColor_near hg).trans (by norm_num) (mul_nonneg hh0 hD) h1).mono
    (add_nonneg (by norm_num) (mul_nonneg hh0 hD)) ?_
  have : harm g.length * (d * (1 + 1 / 2 ^ 40) + 1 / 2 ^ 40) ≤ 5.1216 * (d * (1 + 1 / 2 ^ 40) + 1 / 2 ^ 40) := by
    gcongr
  refine le_trans (add_le_add_right this _) ?_
  norm_num
  linarith

/-! ## Images -/

theorem exists_map {α β : Type} [DecidableEq α] {l : List α} (hn : l.Nodup) {m : List β}
    (h : l.length = m.length) (d : β) : ∃ f, l.map f = m := by
  induction l generalizing m with
  | nil =>
    refine ⟨fun _ => d, ?_⟩
    cases m with
    | nil => rfl
    | cons _ _ => simp at h
  | cons a l ih =>
    cases m with
    | nil => simp at h
    | cons b m =>
      obtain ⟨ha, hl⟩ := List.nodup_cons.1 hn
      obtain ⟨f, hf⟩ := ih hl (by simpa using h)
      refine ⟨fun x => if x = a then b else f x, ?_⟩
      rw [List.map_cons, if_pos rfl, ← hf]
      congr 1
      apply List.map_congr_left
      intro x hx
      rw [if_neg]
      rintro rfl
      exact ha hx

theorem visits_nodup {scan : Scan} {w h : Nat} (hs : VisitsOnce scan w h) : (scan w h).Nodup :=
  hs.nodup_iff.2 (cells_nodup w h)

/-- Painting any colours along a traversal. -/
theorem paint_colors {σ : Type} {next : Rd σ (Rgb UInt8)} {scan : Scan} {img : Img}
    (hs : VisitsOnce scan img.width.toNat img.height.toNat) {colors : List (Rgb UInt8)}
    (hl : colors.length = (scan img.width.toNat img.height.toNat).length) (s : σ)
    (h : Supplies next s colors) :
    ∃ out, (paint next (scan img.width.toNat img.height.toNat)
      { width := img.width, height := img.height
        pixels := List.replicate (img.width.toNat * img.height.toNat) black } s).1 = .ok out ∧
      out.width = img.width ∧ out.height = img.height ∧
      out.pixels.length = img.width.toNat * img.height.toNat ∧
      (scan img.width.toNat img.height.toNat).map (pixelAt out) = colors.map some := by
  obtain ⟨f, hf⟩ := exists_map (visits_nodup hs) hl.symm black
  rw [← hf] at h
  have hin : ∀ c ∈ scan img.width.toNat img.height.toNat, c.1 < img.width.toNat ∧ c.2 < img.height.toNat :=
    fun c hc => mem_cells'.1 (hs.mem_iff.1 hc)
  refine ⟨_, paint_supplies f _ _ hin s h, rfl, rfl, by simp [paintWith_length], ?_⟩
  rw [← hf, List.map_map]
  apply List.map_congr_left
  intro c hc
  simp only [pixelAt, Function.comp]
  rw [paintWith_get (h := img.height.toNat) f _ (fun c hc => (hin c hc).1) _ (by simp) (fun _ => black)
    (fun x y hx hy => by simp [index_lt hx hy]) c.1 c.2 (hin c hc).1 (hin c hc).2, if_pos hc]

theorem hilbertEncode_approx {scan : Scan} {img : Img} (hfl : fl.Lawful)
    (hs : VisitsOnce scan img.width.toNat img.height.toNat) {d : F64} (hd : d.isZero = false) :
    ∃ groups, Greedy (joins fl d) (colorsAlong scan img) groups ∧
      Emits Emits.errOnly (hilbertEncode scan fl (.rle d) img)
        (bytes (img.width, img.height) ++ (groups.map (runOf meanColor)).flatMap runBytes) () := by
  obtain ⟨ps, h1, h2⟩ := linearize_eq hs
  obtain ⟨groups, hg, hy⟩ := rle_groups (approx_represents hfl d) (colorsAlong scan img) none
  refine ⟨groups, hg, ?_⟩
  unfold hilbertEncode
  apply Emits.bind (emits_dims img)
  rw [h1]
  simp only [orPanic, pure_bind, hd, h2]
  exact forIter_yields hy (by
    rw [List.length_map]
    exact Nat.lt_succ_of_le hg.length_le) fun r _ => emits_run r

theorem averaged_runs {groups : List (List (Rgb UInt8))} (h : ∀ g ∈ groups, g ≠ [] ∧ g.length ≤ 255) :
    expandRuns (groups.map (runOf meanColor)) = averaged groups ∧
    ∀ r ∈ groups.map (runOf meanColor), 1 ≤ r.1.toNat := by
  constructor
  · unfold expandRuns averaged
    rw [List.flatMap_map]
    apply List.flatMap_congr
    intro g hg
    simp only [runOf]
    rw [u8_ofNat_toNat (h g hg).2]
  · intro r hr
    obtain ⟨g, hg, rfl⟩ := List.mem_map.1 hr
    simp only [runOf]
    rw [u8_ofNat_toNat (h g hg).2]
    exact List.length_pos_iff.2 (h g hg).1

theorem averaged_length (groups : List (List (Rgb UInt8))) :
    (averaged groups).length = groups.flatten.length := by
  induction groups with
  | nil => rfl
  | cons g groups ih => simp [averaged] at ih ⊢

/-- Pixel by pixel: the groups and their averages. -/
theorem averaged_forall₂ {R : Rgb UInt8 → Rgb UInt8 → Prop} {groups : List (List (Rgb UInt8))}
    (h : ∀ g ∈ groups, ∀ x ∈ g, R (meanColor g) x) :
    List.Forall₂ R (averaged groups) groups.flatten := by
  induction groups with
  | nil => exact .nil
  | cons g groups ih =>
    simp only [averaged, List.flatMap_cons, List.flatten_cons]
    apply List.rel_append
    · have : ∀ l : List (Rgb UInt8), (∀ x ∈ l, R (meanColor g) x) →
          List.Forall₂ R (List.replicate l.length (meanColor g)) l := by
        intro l hl
        induction l with
        | nil => exact .nil
        | cons x l ih => exact .cons (hl x (by simp)) (ih fun y hy => hl y (by simp [hy]))
      exact this g (h g (by simp))
    · exact ih fun g' hg' => h g' (by simp [hg'])

/-! ## Allowances that accept nothing -/

theorem greedy_singletons {T : Type} {ok : List T → T → Prop} (h : ∀ g x, ¬ ok g x) (xs : List T) :
    Greedy ok xs (xs.map fun x => [x]) := by
  induction xs with
  | nil => exact .nil
  | cons x xs ih =>
    refine .group (g := [x]) (by simp) (by simp) ?_ (.inr fun y _ => h _ y) ih
    intro p y q e hp
    rcases p with _ | ⟨a, p⟩
    · exact absurd rfl hp
    · simp at e

theorem meanColor_singleton (x : Rgb UInt8) : meanColor [x] = x := by
  have : ∀ n, roundedDiv n 1 = n := by intro n; unfold roundedDiv; omega
  simp [meanColor, chanSum, this]

theorem averaged_singletons (xs : List (Rgb UInt8)) : averaged (xs.map fun x => [x]) = xs := by
  induction xs with
  | nil => rfl
  | cons x xs ih =>
    simp only [averaged, List.map_cons, List.flatMap_cons] at ih ⊢
    rw [ih, meanColor_singleton]
    rfl

theorem not_joins (hfl : fl.Lawful) {d : F64} (hd : d = .nan ∨ d = .negInf ∨ ∃ q < 0, d = .fin q)
    (g : List (Rgb UInt8)) (x : Rgb UInt8) : ¬ joins fl d g x := by
  unfold joins
  rcases hd with rfl | rfl | ⟨q, hq, rfl⟩
  · simp [F64.ge]
  · simp [F64.ge]
  · simp only [F64.ge, decide_eq_true_eq]
    have := (distF64_bounds hfl ((avgOf g).avgF64 fl) (asF64 x)).1
    linarith

end Cniic
