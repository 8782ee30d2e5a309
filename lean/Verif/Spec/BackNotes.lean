import Verif.Spec.ZipBack
import Verif.Model.BackNotes

/-!
# Specification: the console output of zip-back
-/

namespace Cniic.Spec

open Cniic.Back (Symbol Note)

/-- In how many places within the last `N` bytes of `hist` the next six bytes of `rest` occur. -/
def places (N : Nat) (hist rest : List UInt8) : Nat :=
  ((List.range hist.length).filter fun p =>
    hist.length ≤ p + N ∧ p + 6 ≤ hist.length ∧ (hist.drop p).take 6 = rest.take 6).length

/-- `Looks N hist rest c l notes`: what is printed while a repetition is looked for, when `l` bytes of `rest` have been read
ahead and `c` more can be read at once.  If fewer than six bytes are left nothing is printed.  Otherwise the number of
places is printed, and again whenever all that was read is a repetition, until more is read than what is repeated. -/
inductive Looks (N : Nat) (hist rest : List UInt8) : Nat → Nat → List Note → Prop
  | short {c l} : rest.length < 6 → Looks N hist rest c l []
  | differs {c l} : 6 ≤ rest.length → (∀ len back, Occurs N hist rest len back → len < l) →
      Looks N hist rest c l [.asked (places N hist rest)]
  | ends {c l c' back} : 6 ≤ rest.length → Occurs N hist rest l back → l = rest.length → 16 ≤ c' →
      Looks N hist rest c l [.asked (places N hist rest), .more l c']
  | on {c l c' back notes} : 6 ≤ rest.length → Occurs N hist rest l back → l < rest.length → 16 ≤ c' →
      Looks N hist rest c' (min (l + c) rest.length) notes →
      Looks N hist rest c l (.asked (places N hist rest) :: .more l c' :: notes)

/-- What is printed when one repetition is looked for. -/
def Look (N : Nat) (hist rest : List UInt8) (notes : List Note) : Prop :=
  ∃ c c', 16 ≤ c ∧ 16 ≤ c' ∧ Looks N hist rest c' (min c rest.length) notes

/-- `Says N hist run rest syms notes`: the same as `Factor N hist run rest syms` with what is printed meanwhile. -/
inductive Says (N : Nat) : List UInt8 → List UInt8 → List UInt8 → List Symbol → List Note → Prop
  | copy {hist run rest len back syms look notes} : LongestCopy N hist rest len back → Look N hist rest look →
      Says N (hist ++ rest.take len) [] (rest.drop len) syms notes →
      Says N hist run rest (literal run ++ .lookBack len back :: syms)
        (look ++ (literal run).map Symbol.note ++ .copy len :: notes)
  | extend {hist run rest syms look notes} : NoCopy N hist rest → max run.length 2 ≤ rest.length → Look N hist rest look →
      Says N (hist ++ rest.take (max run.length 2)) (run ++ rest.take (max run.length 2))
        (rest.drop (max run.length 2)) syms notes →
      Says N hist run rest syms (look ++ notes)
  | last {hist run rest look} : NoCopy N hist rest → rest.length < max run.length 2 → Look N hist rest look →
      Says N hist run rest (literal (run ++ rest)) (look ++ (literal (run ++ rest)).map Symbol.note)

/-- The note of something too long for the format. -/
def TooLong : Note → Prop
  | .literal n => 32767 < n
  | .copy n => 32767 < n
  | _ => False

instance (n : Note) : Decidable (TooLong n) := by
  cases n <;> unfold TooLong <;> exact inferInstance

/-- The notes up to the first one of something too long. -/
def upToTooLong : List Note → List Note
  | [] => []
  | n :: ns => if TooLong n then [n] else n :: upToTooLong ns

/-- How many bytes of input a note stands for. -/
def noteLen : Note → Nat
  | .literal n => n
  | .copy n => n
  | _ => 0

/-- How many bytes of the file a note stands for. -/
def noteSize : Note → Nat
  | .literal n => n + 2
  | .copy _ => 4
  | _ => 0

/-- Apart from looking on with the same number of places, the next thing printed is a copy, perhaps after a literal run. -/
def CopyNext (k : Nat) (notes : List Note) : Prop :=
  ∃ mid lit n post, notes = mid ++ (lit ++ .copy n :: post) ∧ (∀ x ∈ mid, x = .asked k ∨ ∃ a b, x = .more a b) ∧
    (lit = [] ∨ ∃ m, lit = [.literal m])

end Cniic.Spec
