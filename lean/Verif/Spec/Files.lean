import Verif.Model.AnyCodec
import Verif.Spec.Codec

/-!
# Specification: the files of a codec
-/

namespace Cniic.Spec

/-- None of the words is the beginning of another one, and none occurs twice. -/
def NoneBegins (words : List (List UInt8)) : Prop := words.Pairwise fun a b => ¬ a <+: b ∧ ¬ b <+: a

/-- All colours. -/
def allColors : List (Rgb UInt8) :=
  (List.range (2 ^ 24)).map fun i => ⟨UInt8.ofNat (i / 65536), UInt8.ofNat (i / 256), UInt8.ofNat i⟩

/-- All sequences of `n` colours. -/
def allPixels : Nat → List (List (Rgb UInt8))
  | 0 => [[]]
  | n + 1 => allColors.flatMap fun c => (allPixels n).map (c :: ·)

end Cniic.Spec
