import Verif.Model.ZipBack

/-!
# Model of the console output of `src/zip/back.rs`

The encoder prints while it works (back.rs:67,78,236,312).  The functions here say what is printed, in order, next to the
functions of `Model/ZipBack.lean`, which say what is written.  It is assumed that printing succeeds and that the writer
accepts everything.
-/

namespace Cniic.Back

/-- A piece of console output. -/
inductive Note where
  /-- back.rs:312: how many places are going to be compared -/
  | asked (n : Nat)
  /-- back.rs:236: the read-ahead buffer is extended; its length before, its capacity after -/
  | more (len cap : Nat)
  /-- back.rs:67: a literal run -/
  | literal (n : Nat)
  /-- back.rs:78: a copy -/
  | copy (n : Nat)
  deriving Repr, DecidableEq

/-- The text (the format strings of back.rs:67,78,236,312). -/
def Note.text : Note → String
  | .asked n => "?" ++ toString n ++ " "
  | .more len cap => "Buffered extra data from " ++ toString len ++ " to " ++ toString cap ++ "\n"
  | .literal n => "\n-" ++ toString n ++ " "
  | .copy n => "+" ++ toString n ++ " "

/-- What `buffered_repetition` (back.rs:253-277) prints: `subseqs_starting` is called once (back.rs:263,307-312). -/
def Encoder.askNotes (e : Encoder) : List Note :=
  if e.repBuf.length < minRep then []
  else [.asked (e.history.index.startIndicesFor (e.repBuf.take minRep) e.history.data).length]

/-- What the loop of `next_repetition` (back.rs:226-250) prints.  The capacity printed in line 236 is the answer that the next
query will get, because nothing happens to the buffer in between (`clear` in line 221 keeps the capacity). -/
def Encoder.repLoopNotes (cap : Caps) : Nat → Encoder → List Note
  | 0, _ => []
  | fuel + 1, e =>
    e.askNotes ++
    match e.bufferedRepetition with
    | some (some (len, _)) =>
      if len = e.repBuf.length then
        match e.moreData cap with
        | none => []
        | some e' =>
          .more e.repBuf.length (cap e'.queries) ::
            if e'.repBuf.length = e.repBuf.length then [] else repLoopNotes cap fuel e'
      else []
    | _ => []

/-- What `next_repetition` (back.rs:214-251) prints. -/
def Encoder.nextRepetitionNotes (cap : Caps) (e : Encoder) : List Note :=
  match { e with repBuf := [] }.moreData cap with
  | none => []
  | some e => e.repLoopNotes cap (e.input.iter.length + e.input.saved.length + 1)

/-- What the loop of `next_symbols` (back.rs:188-211) prints. -/
def Encoder.symbolLoopNotes (N : Nat) (cap : Caps) : Nat → Encoder → List UInt8 → List Note
  | 0, _, _ => []
  | fuel + 1, e, cur =>
    e.nextRepetitionNotes cap ++
    match e.nextRepetition cap with
    | none => []
    | some (rep, e) =>
      match rep.filter fun lb => lb.1 ≥ minRep with
      | some _ => []
      | none =>
        match e.extendExplicit N cur with
        | none => []
        | some (mustReturn, cur, e) => if mustReturn then [] else symbolLoopNotes N cap fuel e cur

/-- What `next_symbols` (back.rs:148-212) prints. -/
def Encoder.nextSymbolsNotes (N : Nat) (cap : Caps) (e : Encoder) : List Note :=
  e.symbolLoopNotes N cap (e.input.iter.length + e.input.saved.length + 1) []

/-- What `Serialize for Symbol` (back.rs:63-88) prints, before the assertions. -/
def Symbol.note : Symbol → Note
  | .explicit data => .literal data.length
  | .lookBack len _ => .copy len

/-- The assertions of back.rs:45 and 82 hold. -/
def Symbol.passes : Symbol → Bool
  | .explicit data => data.length ≤ 32767
  | .lookBack len back => len ≤ 32767 && back ≤ 65535

/-- What writing the symbols of the channel (back.rs:10-12) prints, and whether no assertion failed. -/
def serNotes : List Symbol → List Note × Bool
  | [] => ([], true)
  | s :: ss => if s.passes then (s.note :: (serNotes ss).1, (serNotes ss).2) else ([s.note], false)

/-- What the loop of `zip_back_encode` (back.rs:8-14) prints. -/
def encodeLoopNotes (N : Nat) (cap : Caps) : Nat → Encoder → List Note
  | 0, _ => []
  | fuel + 1, e =>
    e.nextSymbolsNotes N cap ++
    match e.nextSymbols N cap with
    | none => []
    | some (channel, e) =>
      if channel.isEmpty then []
      else
        (serNotes channel).1 ++ if (serNotes channel).2 then encodeLoopNotes N cap fuel e else []

/-- What `zip_back_encode` (back.rs:5-16) prints. -/
def zipBackNotes (N : Nat) (cap : Caps) (input : List UInt8) : List Note :=
  encodeLoopNotes N cap (input.length + 1) (.new N input)

end Cniic.Back
