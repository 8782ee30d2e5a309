import Verif.Spec.ZipBack

/-!
# Specification: copies written out
-/

namespace Cniic.Spec
open Cniic.Back (Symbol)

/-- `Spelled N hist syms out`: the symbols `out` are `syms` with some of the copies, whichever, replaced by what they stand
for. -/
inductive Spelled (N : Nat) : List UInt8 → List Symbol → List Symbol → Prop
  | nil {hist} : Spelled N hist [] []
  | keep {hist s x syms out} : symbolMeaning N hist s = some x → Spelled N (hist ++ x) syms out →
      Spelled N hist (s :: syms) (s :: out)
  | spell {hist len back x syms out} : symbolMeaning N hist (.lookBack len back) = some x → Spelled N (hist ++ x) syms out →
      Spelled N hist (.lookBack len back :: syms) (.explicit x :: out)

/-- Put a literal run in front of symbols; it is joined with a literal run they begin with. -/
def joinFirst (a : List UInt8) : List Symbol → List Symbol
  | .explicit b :: syms => .explicit (a ++ b) :: syms
  | syms                => .explicit a :: syms

/-- Join neighbouring literal runs. -/
def joinRuns : List Symbol → List Symbol
  | []                       => []
  | .explicit a :: syms      => joinFirst a (joinRuns syms)
  | .lookBack len back :: syms => .lookBack len back :: joinRuns syms

/-- The size of symbols in bytes. -/
def symbolsSize (syms : List Symbol) : Nat := (syms.flatMap symbolBytes).length

end Cniic.Spec
