import Verif.Spec.ZipDict
import Verif.Spec.ZipBack

/-! # Specification: the beginning of compressed data -/

namespace Cniic.Spec

/-- The dictionary after these bytes have been read. -/
def learned : List (List UInt8) → List UInt8 → List (List UInt8)
  | known, a :: b :: c :: d :: rest =>
    match expand known (a.toNat + 256 * b.toNat), expand known (c.toNat + 256 * d.toNat) with
    | some x, some y => learned (learn known (x ++ y)) rest
    | _, _ => known
  | known, _ => known

/-- How many bytes a symbol of zip-back stands for. -/
def symbolLength : Back.Symbol → Nat
  | .explicit data  => data.length
  | .lookBack len _ => len

/-- How many bytes symbols of zip-back stand for. -/
def standFor (syms : List Back.Symbol) : Nat := (syms.map symbolLength).sum

end Cniic.Spec
