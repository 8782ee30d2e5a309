import Verif.Model.ZipBack
import Verif.Spec.Ser

/-!
# Specification: the lookback format

`hist` is everything written so far, `rest` the input that is left; `N` is how many bytes of history
may be referred to.
-/

namespace Cniic.Spec

open Cniic.Back (Symbol)

/-- The bytes that a history of `N` bytes retains. -/
def retained {T : Type} (N : Nat) (hist : List T) : List T := hist.drop (hist.length - N)

/-- The input `rest` starts with `len` bytes that are found in `hist` at distance `back` from its end;
the occurrence lies within the last `N` bytes of `hist`. -/
structure Occurs (N : Nat) (hist rest : List UInt8) (len back : Nat) : Prop where
  inHist   : back ≤ hist.length
  inWindow : back ≤ N
  inside   : len ≤ back
  avail    : len ≤ rest.length
  same     : ∀ i, i < len → hist[hist.length - back + i]? = rest[i]?

/-- An occurrence of at least 6 bytes than which there is no longer one; among the longest ones it is
the one farthest back. -/
structure LongestCopy (N : Nat) (hist rest : List UInt8) (len back : Nat) : Prop where
  occurs  : Occurs N hist rest len back
  useful  : 6 ≤ len
  longest : ∀ len' back', Occurs N hist rest len' back' → len' ≤ len
  farthest : ∀ back', Occurs N hist rest len back' → back' ≤ back

/-- There is no occurrence of 6 bytes or more. -/
def NoCopy (N : Nat) (hist rest : List UInt8) : Prop :=
  ∀ len back, Occurs N hist rest len back → len < 6

/-- A run of literal bytes, if there are any. -/
def literal (run : List UInt8) : List Symbol := if run = [] then [] else [.explicit run]

/-- `Factor N hist run rest syms`: with history `hist`, of which `run` is pending as a literal run, the
input `rest` is written as `syms`.  A copy is emitted as soon as one is found; otherwise the literal
run doubles (starting with two bytes). -/
inductive Factor (N : Nat) : List UInt8 → List UInt8 → List UInt8 → List Symbol → Prop
  | copy {hist run rest len back syms} : LongestCopy N hist rest len back →
      Factor N (hist ++ rest.take len) [] (rest.drop len) syms →
      Factor N hist run rest (literal run ++ .lookBack len back :: syms)
  | extend {hist run rest syms} : NoCopy N hist rest → max run.length 2 ≤ rest.length →
      Factor N (hist ++ rest.take (max run.length 2)) (run ++ rest.take (max run.length 2))
        (rest.drop (max run.length 2)) syms →
      Factor N hist run rest syms
  | last {hist run rest} : NoCopy N hist rest → rest.length < max run.length 2 →
      Factor N hist run rest (literal (run ++ rest))

/-- The format of a symbol: two bytes holding the length and, in the highest bit, the kind; then the
literal bytes, or two bytes holding the distance. -/
def symbolBytes : Symbol → List UInt8
  | .explicit data      => le 2 data.length ++ data
  | .lookBack len back  => le 2 (32768 + len) ++ le 2 back

/-- The fields of the symbol fit in the format. -/
def Fits : Symbol → Prop
  | .explicit data     => data.length ≤ 32767
  | .lookBack len back => len ≤ 32767 ∧ back ≤ 65535

/-- What a symbol stands for after `hist`, when only the last `N` bytes can be referred to; `none` if
it refers to something that is not there. -/
def symbolMeaning (N : Nat) (hist : List UInt8) : Symbol → Option (List UInt8)
  | .explicit data     => some data
  | .lookBack len back =>
    if back ≤ hist.length ∧ back ≤ N then some ((hist.drop (hist.length - back)).take len) else none

/-- The bytes a sequence of symbols stands for after `hist`. -/
def meaningFrom (N : Nat) (hist : List UInt8) : List Symbol → Option (List UInt8)
  | [] => some []
  | s :: syms =>
    match symbolMeaning N hist s with
    | none => none
    | some x =>
      match meaningFrom N (hist ++ x) syms with
      | none => none
      | some y => some (x ++ y)

/-- How reading an arbitrary byte sequence ends: with `None` or with a panic. -/
inductive Ending where
  | none
  | panic
  deriving Repr, DecidableEq

/-- `Reads N hist bytes out e`: with history `hist`, the decoder that is given `bytes` produces `out` and
then ends as `e` says. -/
inductive Reads (N : Nat) : List UInt8 → List UInt8 → List UInt8 → Ending → Prop
  /-- fewer than two bytes are ignored -/
  | stop {hist bytes} : bytes.length < 2 → Reads N hist bytes [] .none
  /-- a copy without its distance is ignored -/
  | shortCopy {hist len tail} : len ≤ 32767 → tail.length < 2 →
      Reads N hist (le 2 (32768 + len) ++ tail) [] .none
  /-- a literal run must be complete -/
  | shortLiteral {hist len tail} : len ≤ 32767 → tail.length < len →
      Reads N hist (le 2 len ++ tail) [] .panic
  /-- a copy must refer to the retained history -/
  | dangling {hist s rest} : Fits s → symbolMeaning N hist s = Option.none →
      Reads N hist (symbolBytes s ++ rest) [] .panic
  /-- a symbol standing for nothing looks like the end, whatever follows -/
  | empty {hist s rest} : Fits s → symbolMeaning N hist s = some [] →
      Reads N hist (symbolBytes s ++ rest) [] .none
  | symbol {hist s x rest out e} : Fits s → symbolMeaning N hist s = some x → x ≠ [] →
      Reads N (hist ++ x) rest out e → Reads N hist (symbolBytes s ++ rest) (x ++ out) e

end Cniic.Spec
