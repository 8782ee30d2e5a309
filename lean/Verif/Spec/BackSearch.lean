import Verif.Spec.ZipBack

/-!
# Specification: where zip-back looks for repetitions
-/

namespace Cniic.Spec

open Cniic.Back (Symbol)

/-- Literal runs before a copy have a power of two as their length, and no literal run follows another one. -/
inductive Alternate : List Symbol → Prop
  | nil : Alternate []
  | last (data : List UInt8) : Alternate [.explicit data]
  | copy {len back syms} : Alternate syms → Alternate (.lookBack len back :: syms)
  | both {data k len back syms} : data.length = 2 ^ (k + 1) → Alternate syms → Alternate (.explicit data :: .lookBack len back :: syms)

/-- How many bytes after a copy (or the beginning) the encoder looks for a repetition. -/
def Probed (e : Nat) : Prop := e = 0 ∨ ∃ k, e = 2 ^ (k + 1)

/-- No six bytes in a row occur twice, when the end is followed by the beginning. -/
def NoRepetition (x : List UInt8) : Prop :=
  ∀ p q, p < q → q < x.length → ((x ++ x).drop p).take 6 ≠ ((x ++ x).drop q).take 6

end Cniic.Spec
