import Verif.Model.Ser

/-!
# Model of `src/zip/back.rs`

Not modelled here: the `print!`/`println!` calls (back.rs:67,78,236,312) and the `.count()` only used by the
one at line 312; see `Model/BackNotes.lean`.

* The encoder's input iterator is represented by the list of bytes it is going to produce.
* The size of the history is a parameter `N`; the program uses `ringSize`.
* `Vec::capacity` of the read-ahead buffer depends on the allocation policy of the standard library.
  The model takes an arbitrary sequence `cap` of answers to the successive queries.
* `usize` arithmetic that would underflow is a panic.  (Without overflow checks, back.rs:411 and 466
  wrap around to a huge offset and the slice operation of back.rs:419 panics instead; the other
  subtractions are shown never to underflow.)
-/

namespace Cniic.Back

/-- `MIN_REP` (back.rs:143). -/
def minRep : Nat := 6

/-- `REP_BUF_INIT` (back.rs:145): the capacity of the read-ahead buffer is at least this
(back.rs:122, `Vec::with_capacity`; `clear` and `extend` never shrink it). -/
def repBufInit : Nat := 16

/-- `MAX_RING_BUFFER_SIZE = Back::MAX` (back.rs:291). -/
def ringSize : Nat := 65535

/-- `enum Symbol` and `struct LookBack` (back.rs:23-31). -/
inductive Symbol where
  | explicit (data : List UInt8)
  | lookBack (len back : Nat)
  deriving Repr, DecidableEq

/-- `u16::rotate_right(1)` (used in back.rs:41). -/
def rotateRight1 (x : UInt16) : UInt16 := (x >>> 1) ||| (x <<< 15)

/-- `u16::rotate_left(1)` (used in back.rs:53). -/
def rotateLeft1 (x : UInt16) : UInt16 := (x <<< 1) ||| (x >>> 15)

/-- `Symbol::mask` (back.rs:40-42). -/
def mask (msb : UInt8) : UInt16 := rotateRight1 msb.toUInt16

/-- `Symbol::compress_len` (back.rs:44-49) after the assertion of line 45. -/
def compressLen (len : Nat) (enumDecider : UInt8) : UInt16 := UInt16.ofNat len ||| mask enumDecider

/-- `Symbol::decompress_len` (back.rs:51-59). -/
def decompressLen (c : UInt16) : UInt8 × Nat :=
  ((rotateLeft1 (c &&& mask 1)).toUInt8, (c &&& ~~~(mask 1)).toNat)

/-- `Serialize for Symbol` (back.rs:63-88). -/
def Symbol.ser : Symbol → W Unit
  | .explicit data => do
    Proc.assert (data.length ≤ 32767)
    Cniic.ser (compressLen data.length 0)
    Proc.forEach Cniic.ser data
  | .lookBack len back => do
    Proc.assert (len ≤ 32767)
    Cniic.ser (compressLen len 1)
    Proc.assert (back ≤ 65535)
    Cniic.ser (UInt16.ofNat back)

/-- `stream.take(n).collect()` (back.rs:96 and 171-173): at most `n` items, stopping at the first
`None`. -/
def takeCollect {σ α : Type} (next : Rd σ α) : Nat → Rd σ (List α)
  | 0, s => (.ok [], s)
  | k + 1, s =>
    match next s with
    | (.ok a, s') =>
      match takeCollect next k s' with
      | (.ok as, s'') => (.ok (a :: as), s'')
      | (.err e, s'') => (.err e, s'')
      | (.panic, s'') => (.panic, s'')
    | (.err _, s') => (.ok [], s')
    | (.panic, s') => (.panic, s')

/-- `Deserialize for Symbol` (back.rs:90-107). -/
def Symbol.de {σ : Type} (next : Rd σ UInt8) : Rd σ Symbol := do
  let c : UInt16 ← Cniic.de next
  let (enumDecider, len) := decompressLen c
  if enumDecider = 0 then do
    let data ← takeCollect next len
    Proc.assert (data.length == len)
    pure (.explicit data)
  else if enumDecider = 1 then do
    let back : UInt16 ← Cniic.de next
    pure (.lookBack len back.toNat)
  else Proc.panic

/-! ## RingBuffer -/

/-- `struct RingBuffer` (back.rs:349-354); `data` has length `N`. -/
structure RingBuffer (T : Type) where
  data     : List T
  start    : Nat
  writePos : Nat
  deriving Repr

namespace RingBuffer

variable {T : Type}

/-- `Default for RingBuffer` (back.rs:356-364) with `default_array` (utils.rs:18-24); `d` is the default
value of the elements. -/
def new (N : Nat) (d : T) : RingBuffer T := { data := List.replicate N d, start := 0, writePos := 0 }

/-- `wrapped_around` (back.rs:376-378). -/
def wrappedAround (r : RingBuffer T) : Bool := r.start > 0

/-- `contains` (back.rs:367-374). -/
def contains (r : RingBuffer T) (pos : Nat) : Bool :=
  if r.wrappedAround then pos ≥ r.start else pos < r.writePos

/-- `valid_slice` (back.rs:386-393). -/
def validSlice (r : RingBuffer T) : List T :=
  if r.wrappedAround then r.data else r.data.take r.writePos

/-- `len` (back.rs:398-405); the constant `N` is the length of `data`. -/
def len (r : RingBuffer T) : Nat := if r.wrappedAround then r.data.length else r.writePos

/-- `as_slices` (back.rs:426-440). -/
def asSlices (r : RingBuffer T) : List T × List T :=
  if r.wrappedAround then (r.data.drop r.writePos, r.data.take r.writePos)
  else (r.validSlice, [])

/-- `iter_starting` (back.rs:407-424); `none` = panic. -/
def iterStarting (r : RingBuffer T) (iterStart : Nat) : Option (List T) :=
  let (left, right) := r.asSlices
  if iterStart < r.start then none
  else
    let relStart := iterStart - r.start
    if left.length ≥ relStart then some (left.drop relStart ++ right)
    else
      let rightSkip := relStart - left.length
      if rightSkip ≤ right.length then some ([] ++ right.drop rightSkip) else none

/-- `write` (back.rs:442-457).  (For `N = 0` line 454 would panic; here nothing is stored.) -/
def write (r : RingBuffer T) (x : T) : RingBuffer T :=
  let firstWrap := r.writePos == r.data.length && r.start == 0
  let writePos := if r.writePos == r.data.length then 0 else r.writePos
  let start := if r.start > 0 || firstWrap then r.start + 1 else r.start
  { data := r.data.set writePos x, start := start, writePos := writePos + 1 }

/-- `lookback_value` (back.rs:459-462); `none` = panic. -/
def lookbackValue (r : RingBuffer T) (pos : Nat) : Option Nat :=
  if pos < r.start then none
  else
    let relPos := pos - r.start
    if relPos ≤ r.len then some (r.len - relPos) else none

/-- `lookback_pos` (back.rs:465-467); `none` = panic. -/
def lookbackPos (r : RingBuffer T) (pos : Nat) : Option Nat :=
  if pos ≤ r.len then some (r.len - pos + r.start) else none

/-- `read_pos` (back.rs:469-471). -/
def readPos (r : RingBuffer T) : Nat := r.start + r.len

/-- `lookback_sequence` (back.rs:473-478); `none` = panic. -/
def lookbackSequence (r : RingBuffer T) (len back : Nat) : Option (List T) :=
  match r.lookbackPos back with
  | none => none
  | some p =>
    match r.iterStarting p with
    | none => none
    | some l => some (l.take len)

/-- `write_all` (back.rs:482-486). -/
def writeAll (r : RingBuffer T) (xs : List T) : RingBuffer T := xs.foldl write r

end RingBuffer

/-! ## Index -/

/-- `HashMap<Key, Vec<usize>>` (back.rs:502-503), as a list of entries.  A `Key = [u8; MIN_REP]`
(back.rs:507) is a list of bytes. -/
abbrev PosMap := List (List UInt8 × List Nat)

/-- `m.get(key)` or nothing (back.rs:520-522). -/
def PosMap.get (m : PosMap) (key : List UInt8) : List Nat :=
  match m with
  | [] => []
  | (k, ps) :: m => if k = key then ps else PosMap.get m key

/-- `entry(key).and_modify(|v| v.push(pos)).or_insert(vec![pos])` (back.rs:544-547). -/
def PosMap.push (m : PosMap) (key : List UInt8) (pos : Nat) : PosMap :=
  match m with
  | [] => [(key, [pos])]
  | (k, ps) :: m => if k = key then (k, ps ++ [pos]) :: m else (k, ps) :: PosMap.push m key pos

/-- `struct Index` (back.rs:501-505). -/
structure Index where
  old        : PosMap
  new        : PosMap
  incomplete : List (Nat × List UInt8)

/-- `Index::new` (back.rs:510-516). -/
def Index.empty : Index := { old := [], new := [], incomplete := [] }

/-- `start_indices_for` (back.rs:518-535). -/
def Index.startIndicesFor (ix : Index) (key : List UInt8) (rbuf : RingBuffer UInt8) : List Nat :=
  (ix.old.get key).filter rbuf.contains ++ (ix.new.get key).filter rbuf.contains

/-- `update_incomplete_keys` (back.rs:562-579).  The conversion of line 572 succeeds because the length
has just been compared. -/
def Index.updateIncompleteKeys (ix : Index) (latestByte : UInt8) (latestPos : Nat) :
    Index × Option (Nat × List UInt8) :=
  let inc := (ix.incomplete ++ [(latestPos, [])]).map fun (e : Nat × List UInt8) => (e.1, e.2 ++ [latestByte])
  match inc with
  | [] => ({ ix with incomplete := inc }, none)
  | front :: rest =>
    if front.2.length = minRep then ({ ix with incomplete := rest }, some front)
    else ({ ix with incomplete := inc }, none)

/-- `Index::update` (back.rs:538-560). -/
def Index.update (N : Nat) (ix : Index) (latestByte : UInt8) (latestPos : Nat) : Index :=
  let (ix, newKey) := ix.updateIncompleteKeys latestByte latestPos
  let ix := match newKey with
    | some (pos, key) => { ix with new := ix.new.push key pos }
    | none => ix
  if latestPos % N = 0 ∧ ix.new ≠ [] then { ix with old := ix.new, new := [] } else ix

/-- `struct IndexedHistory` (back.rs:294-297). -/
structure IndexedHistory where
  data  : RingBuffer UInt8
  index : Index

/-- `IndexedHistory::new` (back.rs:300-305). -/
def IndexedHistory.new (N : Nat) : IndexedHistory := { data := .new N 0, index := .empty }

/-- `IndexedHistory::write` (back.rs:331-339). -/
def IndexedHistory.write (N : Nat) (h : IndexedHistory) (b : UInt8) : IndexedHistory :=
  let pos := h.data.readPos
  { data := h.data.write b, index := h.index.update N b pos }

/-- `IndexedHistory::write_all` (back.rs:341-345). -/
def IndexedHistory.writeAll (N : Nat) (h : IndexedHistory) (bs : List UInt8) : IndexedHistory :=
  bs.foldl (IndexedHistory.write N) h

/-- The body of the closure of `subseqs_starting` (back.rs:324-328); `none` = panic. -/
def IndexedHistory.subseq (h : IndexedHistory) (startingIndex : Nat) : Option (Nat × List UInt8) :=
  match h.data.iterStarting startingIndex, h.data.lookbackValue startingIndex with
  | some s, some l => some (l, s)
  | _, _ => none

/-! ## Buffered -/

/-- `struct Buffered` (back.rs:584-588). -/
structure Buffered where
  iter    : List UInt8
  saved   : List UInt8
  readPos : Nat
  deriving Repr

namespace Buffered

/-- `Buffered::new` (back.rs:591-597). -/
def new (iter : List UInt8) : Buffered := { iter := iter, saved := [], readPos := 0 }

/-- `restore` (back.rs:599-601). -/
def restore (b : Buffered) : Buffered := { b with readPos := 0 }

/-- `accept` (back.rs:603-609); `none` = panic. -/
def accept (b : Buffered) (n : Nat) : Option Buffered :=
  if b.saved.length ≥ n ∧ n ≤ b.readPos then
    some { b with saved := b.saved.drop n, readPos := b.readPos - n }
  else none

/-- `next` (back.rs:636-642) with `can_read_saved`, `next_saved` (back.rs:611-621) and `read_and_save`
(back.rs:625-630). -/
def next : Rd Buffered UInt8 := fun b =>
  let b :=
    if b.readPos < b.saved.length then b
    else
      match b.iter with
      | x :: xs => { b with iter := xs, saved := b.saved ++ [x] }
      | [] => b
  let readPos := b.readPos
  let b := if readPos < b.saved.length then { b with readPos := readPos + 1 } else b
  match b.saved[readPos]? with
  | some x => (.ok x, b)
  | none => (.err (), b)

end Buffered

/-! ## Encoder -/

/-- `struct Encoder` (back.rs:111-115).  `queries` counts the calls of `rep_buf.capacity()`. -/
structure Encoder where
  history : IndexedHistory
  input   : Buffered
  repBuf  : List UInt8
  queries : Nat

/-- `Encoder::new` (back.rs:118-124). -/
def Encoder.new (N : Nat) (input : List UInt8) : Encoder :=
  { history := .new N, input := .new input, repBuf := [], queries := 0 }

/-- What the encoder is told by its environment: the answers of `rep_buf.capacity()`. -/
abbrev Caps := Nat → Nat

/-- `max_rep_len`, `max_rep_back` after the loop of `buffered_repetition` (back.rs:262-275) over the
given candidate positions; `none` = panic. -/
def bestOf (h : IndexedHistory) (repBuf : List UInt8) :
    List Nat → Nat → Nat → Option (Nat × Nat)
  | [], maxLen, maxBack => some (maxLen, maxBack)
  | i :: is, maxLen, maxBack =>
    match h.subseq i with
    | none => none
    | some (lookback, subseq) =>
      let repLen := ((repBuf.zip subseq).takeWhile fun p => p.1 == p.2).length
      if repLen > maxLen then bestOf h repBuf is repLen lookback
      else bestOf h repBuf is maxLen maxBack

/-- `buffered_repetition` (back.rs:253-277); the inner `None` is "too few bytes", the outer one a
panic. -/
def Encoder.bufferedRepetition (e : Encoder) : Option (Option (Nat × Nat)) :=
  if e.repBuf.length < minRep then some none
  else
    let key := e.repBuf.take minRep
    match bestOf e.history e.repBuf (e.history.index.startIndicesFor key e.history.data) 0 0 with
    | none => none
    | some r => some (some r)

/-- The closure `more_data` (back.rs:215-217); `none` = panic. -/
def Encoder.moreData (cap : Caps) (e : Encoder) : Option Encoder :=
  match takeCollect Buffered.next (cap e.queries) e.input with
  | (.ok bs, input) =>
    some { e with repBuf := e.repBuf ++ bs, input := input, queries := e.queries + 1 }
  | _ => none

/-- The loop of `next_repetition` (back.rs:226-250).  `fuel` bounds the number of iterations; running
out of it is reported as a panic (and shown not to happen). -/
def Encoder.repLoop (cap : Caps) : Nat → Encoder → Option (Option (Nat × Nat) × Encoder)
  | 0, _ => none
  | fuel + 1, e =>
    match e.bufferedRepetition with
    | none => none
    | some (some (len, back)) =>
      if len = e.repBuf.length then
        match e.moreData cap with
        | none => none
        | some e' =>
          if e'.repBuf.length = e.repBuf.length then some (some (len, back), e')
          else repLoop cap fuel e'
      else some (some (len, back), e)
    | some none => some (none, e)

/-- `next_repetition` (back.rs:214-251); outer `none` = panic. -/
def Encoder.nextRepetition (cap : Caps) (e : Encoder) : Option (Option (Nat × Nat) × Encoder) :=
  match { e with repBuf := [] }.moreData cap with
  | none => none
  | some e => e.repLoop cap (e.input.iter.length + e.input.saved.length + 1)

/-- `push_explicit` (back.rs:151-155): the symbols pushed. -/
def pushExplicit (cur : List UInt8) : List Symbol := if cur.isEmpty then [] else [.explicit cur]

/-- Loop of `commit_bytes` (back.rs:281-284); `none` = panic. -/
def Encoder.commitLoop (N : Nat) : Nat → Encoder → Option Encoder
  | 0, e => some e
  | k + 1, e =>
    match e.input.next with
    | (.ok b, input) => commitLoop N k { e with input := input, history := e.history.write N b }
    | _ => none

/-- `commit_bytes` (back.rs:279-286); `none` = panic. -/
def Encoder.commitBytes (N : Nat) (e : Encoder) (nbytes : Nat) : Option Encoder :=
  match commitLoop N nbytes { e with input := e.input.restore } with
  | none => none
  | some e =>
    match e.input.accept nbytes with
    | none => none
    | some input => some { e with input := input }

/-- `extend_explicit` (back.rs:163-186): whether the input is depleted, the extended run, the encoder;
`none` = panic. -/
def Encoder.extendExplicit (N : Nat) (e : Encoder) (cur : List UInt8) :
    Option (Bool × List UInt8 × Encoder) :=
  let input := e.input.restore
  let tryToGet := max cur.length 2
  match takeCollect Buffered.next tryToGet input with
  | (.ok newBytes, input) =>
    match input.accept newBytes.length with
    | none => none
    | some input =>
      some (newBytes.length < tryToGet, cur ++ newBytes,
        { e with input := input, history := e.history.writeAll N newBytes })
  | _ => none

/-- The loop of `next_symbols` (back.rs:188-211): the symbols pushed on the channel.  `fuel` bounds the
number of iterations; running out of it is reported as a panic (and shown not to happen). -/
def Encoder.symbolLoop (N : Nat) (cap : Caps) :
    Nat → Encoder → List UInt8 → Option (List Symbol × Encoder)
  | 0, _, _ => none
  | fuel + 1, e, cur =>
    match e.nextRepetition cap with
    | none => none
    | some (rep, e) =>
      -- the guard of the first arm (back.rs:190-191)
      match rep.filter fun lb => lb.1 ≥ minRep with
      | some (len, back) =>
        match e.commitBytes N len with
        | none => none
        | some e => some (pushExplicit cur ++ [.lookBack len back], e)
      | none =>
        match e.extendExplicit N cur with
        | none => none
        | some (mustReturn, cur, e) =>
          if mustReturn then some (pushExplicit cur, e) else symbolLoop N cap fuel e cur

/-- `next_symbols` (back.rs:148-212) on an empty channel; `none` = panic. -/
def Encoder.nextSymbols (N : Nat) (cap : Caps) (e : Encoder) : Option (List Symbol × Encoder) :=
  e.symbolLoop N cap (e.input.iter.length + e.input.saved.length + 1) []

/-- The loop of `zip_back_encode` (back.rs:8-14).  `fuel` bounds the number of iterations; running out
of it is reported as a panic (and shown not to happen). -/
def encodeLoop (N : Nat) (cap : Caps) : Nat → Encoder → W Unit
  | 0, _ => Proc.panic
  | fuel + 1, e =>
    match e.nextSymbols N cap with
    | none => Proc.panic
    | some (channel, e) =>
      if channel.isEmpty then pure ()
      else do
        Proc.forEach Symbol.ser channel
        encodeLoop N cap fuel e

/-- `zip_back_encode` (back.rs:5-16). -/
def zipBackEncode (N : Nat) (cap : Caps) (input : List UInt8) : W Unit :=
  encodeLoop N cap (input.length + 1) (.new N input)

/-! ## Decoder -/

/-- `struct Decoder` (back.rs:648-652). -/
structure Decoder where
  iter    : List UInt8
  history : RingBuffer UInt8
  decoded : List UInt8

/-- `Decoder::new` (back.rs:668-674) and `zip_back_decode` (back.rs:19-21). -/
def zipBackDecode (N : Nat) (input : List UInt8) : Decoder :=
  { iter := input, history := .new N 0, decoded := [] }

/-- `decode_next` (back.rs:678-693) with `duplicate` (back.rs:697-705); `none` = panic. -/
def Decoder.decodeNext (d : Decoder) : Option Decoder :=
  match Symbol.de listNext d.iter with
  | (.ok (.explicit data), iter) =>
    some { iter := iter, history := d.history.writeAll data, decoded := d.decoded ++ data }
  | (.ok (.lookBack len back), iter) =>
    match d.history.lookbackSequence len back with
    | none => none
    | some bytes =>
      some { iter := iter, history := d.history.writeAll bytes, decoded := d.decoded ++ bytes }
  | (.err _, iter) => some { d with iter := iter }
  | (.panic, _) => none

/-- `Decoder::next` (back.rs:657-664). -/
def Decoder.next : Rd Decoder UInt8 := fun d =>
  match d.decoded with
  | b :: rest => (.ok b, { d with decoded := rest })
  | [] =>
    match d.decodeNext with
    | none => (.panic, d)
    | some d =>
      match d.decoded with
      | b :: rest => (.ok b, { d with decoded := rest })
      | [] => (.err (), d)

end Cniic.Back
