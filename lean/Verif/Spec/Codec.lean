import Verif.Model.Codec
import Verif.Spec.Prs

/-!
# Specification: the strings that select a codec
-/

namespace Cniic.Spec

/-- The decimal digits. -/
def Decimal (ds : List Char) : Prop := ds ≠ [] ∧ ∀ c ∈ ds, c.isDigit = true

/-- The names of the codec that clusters the colours: `ccol`, `cluster-colors` and all in between. -/
def clusterNames : List (List Char) :=
  ["ccol", "ccolors", "c-col", "c-colors", "clustercol", "clustercolors", "cluster-col", "cluster-colors"].map
    String.toList

/-- The text `name(digits)`. -/
def applied (name ds : List Char) : List Char := name ++ '(' :: (ds ++ [')'])

/-- `s` has a part `name(ds)` where `name` is one of `names` and the characters of `ds` are digits. -/
def Mentions (digit : Char → Bool) (names : List (List Char)) (s : List Char) : Prop :=
  ∃ pre post name ds, s = pre ++ (applied name ds ++ post) ∧ name ∈ names ∧ ds ≠ [] ∧ ∀ c ∈ ds, digit c = true

/-- The codec strings besides the two clustering codecs. -/
inductive Selects (parseF64 : List Char → Option F64) : List Char → AnyCodec → Prop
  | delta : Selects parseF64 "delta".toList .delta
  | hufman {s} : s.map Char.toLower = "hufman".toList → Selects parseF64 s .hufman
  | zipDict : Selects parseF64 "zip(dict)".toList (.zip .dict)
  | zipBack : Selects parseF64 "zip(back)".toList (.zip .back)
  | rle {h} : (h = 'H' ∨ h = 'h') → Selects parseF64 (h :: "ilbert(rle)".toList) (.hilbert (.rle (.fin 0)))
  | rleApprox {h d v} : (h = 'H' ∨ h = 'h') → d ≠ [] → ArgText d → parseF64 d = some v →
      Selects parseF64 (h :: ("ilbert(rle(".toList ++ (d ++ "))".toList))) (.hilbert (.rle v))
  | hilbertZip {h} : (h = 'H' ∨ h = 'h') → Selects parseF64 (h :: "ilbert(zip)".toList) (.hilbert .zip)

end Cniic.Spec
