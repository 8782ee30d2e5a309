import Verif.Core.Float
import Mathlib.Algebra.Order.Field.Basic
import Mathlib.Algebra.Order.AbsoluteValue.Basic
import Mathlib.Data.Rat.Cast.Order
import Mathlib.Tactic.Linarith
import Mathlib.Tactic.Ring
import Mathlib.Tactic.Positivity
import Mathlib.Tactic.FieldSimp
import Mathlib.Tactic.NormNum

/-!
# The assumptions about `f64`

See `Core/Float.lean`.
-/

namespace Cniic

/-- The number has a significand of at most 53 bits (the exponent is not limited). -/
def Representable (x : Rat) : Prop := ∃ m e : Int, |m| ≤ 2 ^ 53 ∧ x = m * (2 : Rat) ^ e

/-- The unit roundoff of `f64`. -/
def ulp : Rat := 1 / 2 ^ 53

/-- The assumptions about the arithmetic of `f64`. -/
structure FloatOps.Lawful (fl : FloatOps) : Prop where
  rnd_err   : ∀ x, |fl.rnd x - x| ≤ ulp * |x|
  rnd_exact : ∀ x, Representable x → fl.rnd x = x
  rnd_mono  : ∀ x y, x ≤ y → fl.rnd x ≤ fl.rnd y
  sqrt_nonneg : ∀ x, 0 ≤ fl.sqrt x
  sqrt_lo   : ∀ x, 0 ≤ x → (1 - ulp) ^ 2 * x ≤ fl.sqrt x ^ 2
  sqrt_hi   : ∀ x, 0 ≤ x → fl.sqrt x ^ 2 ≤ (1 + ulp) ^ 2 * x
  sqrt_mono : ∀ x y, 0 ≤ x → x ≤ y → fl.sqrt x ≤ fl.sqrt y
  /-- doubling is exact -/
  sqrt_four : ∀ x, 0 ≤ x → fl.sqrt (4 * x) = 2 * fl.sqrt x
  sqrt_sq   : ∀ x, 0 ≤ x → Representable x → fl.sqrt (x ^ 2) = x
  powi2_err : ∀ x, |fl.powi2 x - x ^ 2| ≤ 1 / 2 ^ 50 * x ^ 2

end Cniic
