import Verif.Spec.DictStats

/-! # Specification: wide places of a set of sequences -/

namespace Cniic.Spec

/-- A sequence that has the property with at least 65 different bytes appended. -/
def Wide (P : List UInt8 → Prop) (p : List UInt8) : Prop :=
  ∃ bs : List UInt8, bs.Nodup ∧ 65 ≤ bs.length ∧ ∀ b ∈ bs, P (p ++ [b])

end Cniic.Spec
