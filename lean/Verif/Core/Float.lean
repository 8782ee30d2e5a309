/-!
# `f64`

The values the program computes with are finite; they are represented by the rational numbers they
denote (`-0.0` and `0.0` are the same here; the program never distinguishes them).  A value that comes
from outside may also be infinite or NaN.

How results are rounded is a parameter: `FloatOps` holds the rounding function, `FloatOps.Lawful`
(`Core/FloatLaws.lean`) says what is assumed about it: the IEEE 754 rules for rounding to nearest (with 53 bits), as long as there is
no overflow and no underflow.  The values that occur are 0 or between 2^-64 and 2^100 in magnitude, far
from the limits of `f64`.  `powi` is documented to have unspecified precision; it is allowed a relative
error of 2^-50.  `Core/Ieee.lean` defines rounding to nearest even and shows that it satisfies these laws.
-/

namespace Cniic

/-- An arbitrary `f64`. -/
inductive F64 where
  | nan
  | negInf
  | posInf
  | fin (q : Rat)
  deriving DecidableEq

/-- `x == 0.0`. -/
def F64.isZero : F64 → Bool
  | .fin q => q == 0
  | _ => false

/-- `x <= d` for a finite `x`. -/
def F64.ge : F64 → Rat → Bool
  | .nan, _ => false
  | .negInf, _ => false
  | .posInf, _ => true
  | .fin q, x => x ≤ q

/-- The arithmetic of `f64`. -/
structure FloatOps where
  /-- rounds the exact result of `+`, `-`, `*`, `/` -/
  rnd : Rat → Rat
  /-- `x.sqrt()` for `x ≥ 0` -/
  sqrt : Rat → Rat
  /-- `x.powi(2)` -/
  powi2 : Rat → Rat

namespace FloatOps

/-- `a + b` on `f64`. -/
def add (fl : FloatOps) (a b : Rat) : Rat := fl.rnd (a + b)
/-- `a - b` on `f64`. -/
def sub (fl : FloatOps) (a b : Rat) : Rat := fl.rnd (a - b)
/-- `a * b` on `f64`. -/
def mul (fl : FloatOps) (a b : Rat) : Rat := fl.rnd (a * b)
/-- `a / b` on `f64` for `b ≠ 0`. -/
def div (fl : FloatOps) (a b : Rat) : Rat := fl.rnd (a / b)

end FloatOps

/-- `x.round() as u8` for `x ≥ 0`: half-way cases go up; the conversion saturates. -/
def roundU8 (x : Rat) : UInt8 := UInt8.ofNat (min 255 (x + 1 / 2).floor.toNat)

end Cniic
