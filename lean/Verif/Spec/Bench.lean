import Verif.Spec.Clusterc

/-! # Specification: mean squared error -/

namespace Cniic.Spec
open Cniic

/-- The sum of the squared distances between corresponding pixels. -/
def squaredError (xs ys : List (Rgb UInt8)) : Nat := ((xs.zip ys).map fun p => colorSq p.1 p.2).sum

/-- The mean squared error of two lists of the same length. -/
def meanSquaredError (xs ys : List (Rgb UInt8)) : Rat := (squaredError xs ys : Rat) / xs.length

end Cniic.Spec
