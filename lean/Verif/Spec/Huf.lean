import Verif.Model.Huf

/-!
# Specification: prefix codes and code trees
-/

namespace Cniic.Spec

/-- The leaves of a code tree from left to right, each with the path leading to it (`false` = left). -/
def leaves {T : Type} : BinTrie T → List (List Bool × T)
  | .leaf v => [([], v)]
  | .branch l r =>
    (leaves l).map (fun p => (false :: p.1, p.2)) ++ (leaves r).map (fun p => (true :: p.1, p.2))

/-- `code` restricted to the symbols `S` is a prefix code: no codeword is a prefix of the codeword of
another symbol. -/
def PrefixFree {T : Type} (S : List T) (code : T → List Bool) : Prop :=
  ∀ x ∈ S, ∀ y ∈ S, code x <+: code y → x = y

/-- Kraft sum of codeword lengths scaled by `2^L`. -/
def kraft (L : Nat) (lens : List Nat) : Nat := (lens.map fun l => 2 ^ (L - l)).sum

/-- Total number of bits needed to spell `items` with `code`. -/
def payloadBits {T : Type} (code : T → List Bool) (items : List T) : Nat :=
  (items.map fun x => (code x).length).sum

/-- Any order of iterating over a hash map: a permutation of its entries. -/
def IsOrder {α : Type} (ho : List α → List α) : Prop := ∀ l, (ho l).Perm l

end Cniic.Spec
