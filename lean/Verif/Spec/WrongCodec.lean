import Verif.Spec.Decode
import Verif.Spec.Ser
import Verif.Spec.ZipDict
import Verif.Model.AnyCodec

/-!
# Specification: the formats of files
-/

namespace Cniic

/-- The formats in which the codecs write.  The parameters of a codec are not part of its format. -/
inductive Format where
  /-- the size, a code tree of colours, bits -/
  | colors
  /-- the size, a code tree of differences, bits -/
  | differences
  /-- the size, runs -/
  | runs
  /-- the size, compressed colours -/
  | packed
  /-- the size, a number and so many coloured points -/
  | points
  /-- size and colours compressed together -/
  | zipDict
  /-- size and colours compressed together -/
  | zipBack
  deriving DecidableEq

/-- The format of a codec. -/
def AnyCodec.format : AnyCodec → Format
  | .clusterColors _ => .colors
  | .hufman => .colors
  | .delta => .differences
  | .hilbert (.rle _) => .runs
  | .hilbert .zip => .packed
  | .voronoi _ => .points
  | .zip .dict => .zipDict
  | .zip .back => .zipBack

/-- The formats that begin with the size of the picture. -/
def Format.sized : Format → Bool
  | .zipDict => false
  | .zipBack => false
  | _ => true

/-- How a file written in the first format is refused by the decoder for the second, if it always is: `some false` is `None`,
`some true` is a panic. -/
def Format.refuses : Format → Format → Option Bool
  | .colors, .runs => some true
  | .differences, .runs => some true
  | .points, .runs => some true
  | .packed, .runs => some true
  | .runs, .colors => some false
  | .packed, .colors => some false
  | .runs, .differences => some true
  | .packed, .differences => some true
  | .runs, .packed => some true
  | .runs, .points => some false
  | .packed, .points => some false
  | _, _ => none

namespace Spec

/-- The result of a refusal. -/
def refusal (panics : Bool) : Ret Unit RgbImage := if panics then .panic else .err ()

/-- Red growing by 3 from pixel to pixel. -/
def redRamp (n : Nat) : List (Rgb UInt8) := (List.range n).map fun i => ⟨UInt8.ofNat (3 * (i + 1)), 0, 0⟩

end Spec
end Cniic
