import Verif.Spec.Huf

/-!
# Specification: sizes of files
-/

namespace Cniic.Spec

/-- `S` lists the different members of `items`, each once. -/
def Distinct {T : Type} (S items : List T) : Prop := S.Nodup ∧ ∀ x, x ∈ S ↔ x ∈ items

/-- `B` is the least number of bits in which any prefix code spells `items`. -/
def FewestBits {T : Type} (items : List T) (B : Nat) : Prop :=
  (∃ code, PrefixFree items code ∧ payloadBits code items = B) ∧
  ∀ code, PrefixFree items code → B ≤ payloadBits code items

end Cniic.Spec
