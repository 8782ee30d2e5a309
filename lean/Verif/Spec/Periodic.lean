import Verif.Spec.ZipDict

/-!
# Specification: periodic data
-/

namespace Cniic.Spec

/-- From `p` bytes on, every byte is the one `p` places before. -/
def HasPeriod (p : Nat) (l : List UInt8) : Prop := ∀ i, i + p < l.length → l[i + p]? = l[i]?

/-- The sum of `2p + j + 2` for `j` from 1 to `k`. -/
def levels (p : Nat) : Nat → Nat
  | 0 => 0
  | k + 1 => levels p k + (2 * p + k + 3)

/-- How many pairs of symbols suffice for less than `2 ^ k` bytes of period `p`. -/
def periodicPairs (p k : Nat) : Nat := (p + 1) * (p * (p - 2)) + levels p k + p

end Cniic.Spec
