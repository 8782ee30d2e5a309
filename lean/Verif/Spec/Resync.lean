import Verif.Spec.Damage

/-! # Specification: reading symbols one after the other -/

namespace Cniic.Spec

/-- Reading exactly `n` symbols: the symbols and the bits after them. -/
def reading {T : Type} (t : BinTrie T) : Nat → List Bool → Option (List T × List Bool)
  | 0, bits => some ([], bits)
  | n + 1, bits =>
    match firstSymbol t bits with
    | some (x, bits) => (reading t n bits).map fun r => (x :: r.1, r.2)
    | none => none

example : reading (.branch (.leaf 7) (.branch (.leaf 8) (.leaf 9))) 2 [true, false, false, true] = some ([8, 7], [true]) := by
  decide

end Cniic.Spec
