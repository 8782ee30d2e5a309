import Verif.Model.ZipBack

/-!
# The positions kept by the index of zip-back
-/

namespace Cniic.Spec
open Back

/-- All positions in one of the two maps. -/
def positions (m : PosMap) : List Nat := m.flatMap fun e => e.2

/-- After `q` clean-ups the positions below this one have left the newer map: four positions before a multiple of `N`, because a
position is entered when the sixth byte arrives. -/
def cut (N q : Nat) : Nat := q * N - 4

/-- How many clean-ups there have been after `n` bytes. -/
def cleanups (N n : Nat) : Nat := (n - 1) / N

/-- The states between the calls of `next_symbols` while `input` is encoded. -/
inductive Encoding (N : Nat) (cap : Caps) (input : List UInt8) : Encoder → Prop where
  | start : Encoding N cap input (.new N input)
  | step {e syms e'} : Encoding N cap input e → e.nextSymbols N cap = some (syms, e') → Encoding N cap input e'

end Cniic.Spec
