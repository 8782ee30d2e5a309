import Verif.Spec.ZipDict

/-! # Specification: the nodes of a trie -/

namespace Cniic.Spec

/-- A set of sequences needs a node for the beginning, and one for each sequence that some of them properly extends. -/
def Inner (keys : List (List UInt8)) (p : List UInt8) : Prop := p = [] ∨ ∃ k ∈ keys, p <+: k ∧ p ≠ k

/-- The number of things with a property. -/
def Counts {α : Type} (P : α → Prop) (n : Nat) : Prop := ∃ l : List α, l.Nodup ∧ (∀ a, a ∈ l ↔ P a) ∧ l.length = n

/-- `After known i k`: when all of `i` is written, starting with dictionary `known`, the dictionary is `k`. -/
inductive After : List (List UInt8) → List UInt8 → List (List UInt8) → Prop
  | nil {known} : After known [] known
  | one {known i s x} : Longest known i s x [] → After known i known
  | two {known i s1 x1 i' s2 x2 i'' k} : Longest known i s1 x1 i' → Longest known i' s2 x2 i'' →
      After (learn known (x1 ++ x2)) i'' k → After known i k

end Cniic.Spec
