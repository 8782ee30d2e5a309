import Verif.Model.Ser

/-!
# Model of `src/zip/dict.rs`

Left out here: `TrieMap::print_stats` (dict.rs:325-399), which is in `Model/DictStats.lean` and whose counter can overflow in
debug builds (C86), `Drop for TrieMap` (dict.rs:402-437), which is in `Model/DictDrop.lean` (C88), and the `println!` of
`to_full` (dict.rs:537), which is counted in `Model/DictNotes.lean` (C117).

The encoder's input iterator is represented by the list of bytes it is going to produce; the decoder's
input by the list of encoded bytes.
-/

namespace Cniic

/-- `type Symbol = u16` (dict.rs:33). -/
abbrev Symbol := UInt16

/-- `ZIP_SPECIAL_EOF = Symbol::MAX` (dict.rs:6). -/
def zipEof : Symbol := 65535

/-- `enum Content` (dict.rs:452-460).  The boxed `[Option<T>; 256]`, always indexed by a `u8`, is a
function. -/
inductive Content (T : Type) where
  | part (keys : List UInt8) (values : List T)
  | full (data : UInt8 → Option T)

namespace Content

variable {T : Type}

/-- `Content::new` (dict.rs:463-468). -/
def new : Content T := .part [] []

/-- `Content::find` (dict.rs:470-475). -/
def find (keys : List UInt8) (byte : UInt8) : Option Nat := keys.findIdx? (· == byte)

/-- `Content::get` (dict.rs:477-487). -/
def get (c : Content T) (byte : UInt8) : Option T :=
  match c with
  | .part keys values =>
    match find keys byte with
    | none => none
    | some idx => values[idx]?
  | .full data => data byte

/-- Writing through the reference returned by `Content::get_mut` (dict.rs:489-499). -/
def put (c : Content T) (byte : UInt8) (v : T) : Content T :=
  match c with
  | .part keys values =>
    match find keys byte with
    | none => .part keys values
    | some idx => .part keys (values.set idx v)
  | .full data => .full fun b => if b = byte ∧ (data b).isSome then some v else data b

/-- `Content::THRESHOLD` (dict.rs:502). -/
def threshold : Nat := 64

/-- `full_data[byte as usize] = Some(value)` (dict.rs:548), and the replacement of dict.rs:531. -/
def setFull (data : UInt8 → Option T) (byte : UInt8) (v : T) : UInt8 → Option T :=
  fun b => if b = byte then some v else data b

/-- `Content::to_full` (dict.rs:536-552) on a `Partial`: the array of dict.rs:545-549. -/
def toFull (keys : List UInt8) (values : List T) : UInt8 → Option T :=
  (keys.zip values).foldl (fun data kv => setFull data kv.1 kv.2) fun _ => none

/-- `Content::upsert` (dict.rs:504-534): the new content and the previous value.  `none` = panic (the
`unwrap` of line 510).  The recursive call of line 525 is on a `Full` and is unfolded. -/
def upsert (c : Content T) (byte : UInt8) (v : T) : Option (Content T × Option T) :=
  match c with
  | .part keys values =>
    match find keys byte with
    | some idx =>
      match values[idx]? with
      | none => none
      | some prev => some (.part keys (values.set idx v), some prev)
    | none =>
      if keys.length < threshold then
        some (.part (keys ++ [byte]) (values ++ [v]), none)
      else
        let data := toFull keys values
        some (.full (setFull data byte v), data byte)
  | .full data => some (.full (setFull data byte v), data byte)

end Content

/-- `struct Node` (dict.rs:442-445). -/
inductive Node (T : Type) where
  | mk (children : Content (Node T)) (values : Content T)

namespace Node

variable {T : Type}

/-- Field `children`. -/
def children : Node T → Content (Node T)
  | mk c _ => c

/-- Field `values`. -/
def values : Node T → Content T
  | mk _ v => v

/-- `Node::new` (dict.rs:574-579), also `TrieMap::new` (dict.rs:299-301). -/
def new : Node T := .mk .new .new

/-- The step of the loop of `TrieMap::insert` that makes sure the child exists (dict.rs:313-316):
`has_child`, `add_child` and the assertion; `none` = panic. -/
def ensureChild (n : Node T) (byte : UInt8) : Option (Node T) :=
  match n.children.get byte with
  | some _ => some n
  | none =>
    match n.children.upsert byte new with
    | none => none
    | some (c, prev) => if prev.isNone then some (.mk c n.values) else none

/-- `TrieMap::insert` (dict.rs:308-323): the new trie and the previous value; `none` = panic. -/
def insert : Node T → List UInt8 → T → Option (Node T × Option T)
  | _, [], _ => none
  | n, [b], v =>
    match n.values.upsert b v with
    | none => none
    | some (vs, prev) => some (.mk n.children vs, prev)
  | n, b :: b' :: rest, v =>
    match n.ensureChild b with
    | none => none
    | some n =>
      match n.children.get b with
      | none => none
      | some child =>
        match insert child (b' :: rest) v with
        | none => none
        | some (child', prev) => some (.mk (n.children.put b child') n.values, prev)

/-- `Descent::down` (dict.rs:604-608), with `value_of` (587-589) and `child` (560-564). -/
def down (n : Node T) (byte : UInt8) : Option T × Option (Node T) :=
  (n.values.get byte, n.children.get byte)

end Node

/-- `struct Abbrev` with `Abbrev::next` (dict.rs:263-291): the symbol and the next counter. -/
def abbrevNext (counter : Symbol) : Option Symbol × Symbol :=
  if counter = zipEof then (none, counter) else (some counter, counter + 1)

/-- `struct Input` (dict.rs:140-143).  `leftOver` is kept with the last element first. -/
structure Input where
  leftOver : List UInt8
  input    : List UInt8
  deriving Repr, DecidableEq

/-- `Input::next` (dict.rs:148-152). -/
def Input.next : Rd Input UInt8 := fun i =>
  match i.leftOver with
  | b :: l => (.ok b, { i with leftOver := l })
  | [] =>
    match i.input with
    | b :: l => (.ok b, { i with input := l })
    | [] => (.err (), i)

/-- `Input::save_unused` (dict.rs:166-169): `unused.reverse()` appended at the end of `left_over`, which
here is the front. -/
def Input.saveUnused (i : Input) (unused : List UInt8) : Input :=
  { i with leftOver := unused ++ i.leftOver }

/-- `struct DictEncoder` (dict.rs:27-31). -/
structure DictEncoder where
  input  : Input
  trie   : Node Symbol
  abbrev_ : Symbol

/-- The loop of `find_symbol` (dict.rs:103-130) with its local variables, then dict.rs:134-135.
Recursion on the number of bytes left. -/
def findLoop (descent : Node Symbol) (inp : Input) (sym : Option Symbol) (seq extra : List UInt8) :
    (Option Symbol × List UInt8) × Input :=
  match _h : inp.next with
  | (.ok byte, inp') =>
    match descent.down byte with
    | (some s, some d) => findLoop d inp' (some s) (seq ++ extra ++ [byte]) []
    | (none, some d)   => findLoop d inp' sym seq (extra ++ [byte])
    | (some s, none)   => ((some s, seq ++ extra ++ [byte]), inp'.saveUnused [])
    | (none, none)     => ((sym, seq), inp'.saveUnused (extra ++ [byte]))
  | (_, inp') => ((sym, seq), inp'.saveUnused extra)
termination_by inp.leftOver.length + inp.input.length
decreasing_by all_goals
  obtain ⟨l, i⟩ := inp
  cases l <;> cases i <;> simp [Input.next] at _h <;> obtain ⟨_, rfl⟩ := _h <;> simp_all

/-- `DictEncoder::find_symbol` (dict.rs:96-136). -/
def DictEncoder.findSymbol (e : DictEncoder) : (Option Symbol × List UInt8) × DictEncoder :=
  let (r, inp) := findLoop e.trie e.input none [] []
  (r, { e with input := inp })

/-- `DictEncoder::create_symbol` (dict.rs:52-62); `none` = panic. -/
def DictEncoder.createSymbol (e : DictEncoder) (seq : List UInt8) : Option DictEncoder :=
  match abbrevNext e.abbrev_ with
  | (some code, counter) =>
    match e.trie.insert seq code with
    | none => none
    | some (trie, _) => some { e with trie := trie, abbrev_ := counter }
  | (none, counter) => some { e with abbrev_ := counter }

/-- The loop of `DictEncoder::new` (dict.rs:44-46) over the given bytes. -/
def DictEncoder.createAll : DictEncoder → List UInt8 → Option DictEncoder
  | e, [] => some e
  | e, b :: bs =>
    match e.createSymbol [b] with
    | none => none
    | some e => e.createAll bs

/-- The bytes `0x00..=0xff` in order (dict.rs:44 and 229). -/
def allBytes : List UInt8 := (List.range 256).map UInt8.ofNat

/-- `DictEncoder::new` (dict.rs:36-50); `none` = panic. -/
def DictEncoder.new (input : List UInt8) : Option DictEncoder :=
  match DictEncoder.createAll { input := ⟨[], input⟩, trie := .new, abbrev_ := 0 } allBytes with
  | none => none
  | some e => if e.abbrev_ = 0x0100 then some e else none

/-- The condition `left_over.is_empty() && input.next().is_none()` (dict.rs:73 and 84). -/
def Input.isEmpty (i : Input) : Bool := i.leftOver.isEmpty && i.input.isEmpty

/-- `DictEncoder::next_pair` (dict.rs:66-94); `None` is `err`. -/
def DictEncoder.nextPair : Rd DictEncoder (Symbol × Symbol) := fun e =>
  match e.findSymbol with
  | ((none, seq1), e) =>
    if seq1.isEmpty && e.input.isEmpty then (.err (), e) else (.panic, e)
  | ((some symbol1, seq1), e) =>
    if seq1.length = 0 then (.panic, e) else
    match e.findSymbol with
    | ((none, seq2), e) =>
      if seq2.isEmpty && e.input.isEmpty then (.ok (symbol1, zipEof), e) else (.panic, e)
    | ((some symbol2, seq2), e) =>
      if seq2.length = 0 then (.panic, e) else
      match e.createSymbol (seq1 ++ seq2) with
      | none => (.panic, e)
      | some e => (.ok (symbol1, symbol2), e)

/-- The loop of `zip_dict_encode` (dict.rs:11-14).  `fuel` bounds the number of iterations; running out
of it is reported as a panic (and shown not to happen). -/
def zipDictLoop : Nat → DictEncoder → W Unit
  | 0, _ => Proc.panic
  | fuel + 1, e =>
    match DictEncoder.nextPair e with
    | (.err _, _) => pure ()
    | (.panic, _) => Proc.panic
    | (.ok (symbol1, symbol2), e) => do
      ser symbol1
      ser symbol2
      zipDictLoop fuel e

/-- `zip_dict_encode` (dict.rs:8-19). -/
def zipDictEncode (input : List UInt8) : W Unit :=
  match DictEncoder.new input with
  | none => Proc.panic
  | some e => zipDictLoop (input.length + 1) e

/-- `struct DictDecoder` (dict.rs:174-179).  The hash map, only used with `get` and `insert`, is a
function. -/
structure DictDecoder where
  encoded     : List UInt8
  prevDecoded : List UInt8
  mapping     : Symbol → Option (List UInt8)
  abbrev_     : Symbol

/-- `DictDecoder::new_mapping` (dict.rs:256-258). -/
def newMapping (m : Symbol → Option (List UInt8)) (symbol : Symbol) (seq : List UInt8) :
    Symbol → Option (List UInt8) :=
  fun s => if s = symbol then some seq else m s

/-- `DictDecoder::new` (dict.rs:219-236), also `zip_dict_decode` (dict.rs:21-23). -/
def zipDictDecode (encoded : List UInt8) : DictDecoder :=
  let m := allBytes.foldl (fun m b => newMapping m b.toUInt16 [b]) fun _ => none
  { encoded := encoded, prevDecoded := [], mapping := newMapping m zipEof [], abbrev_ := 0x0100 }

/-- `DictDecoder::next_symbol` (dict.rs:244-246). -/
def nextSymbol : Rd (List UInt8) Symbol := de listNext

theorem nextSymbol_lt {l r : List UInt8} {s : Symbol} (h : nextSymbol l = (.ok s, r)) :
    r.length < l.length := by
  match l with
  | [] => cases h
  | [a] => cases h
  | a :: b :: l =>
    have h2 := (Prod.mk.inj h).2
    change l = r at h2
    subst h2
    simp only [List.length_cons]; omega

/-- `DictDecoder::next` (dict.rs:184-214) with `decode`, `next_code` and `store_seq` (dict.rs:238-254)
inlined. -/
def DictDecoder.next (d : DictDecoder) : Ret Unit UInt8 × DictDecoder :=
  match d.prevDecoded with
  | b :: bs => (.ok b, { d with prevDecoded := bs })
  | [] =>
    match _h1 : nextSymbol d.encoded with
    | (.err _, l) => (.err (), { d with encoded := l })
    | (.panic, l) => (.panic, { d with encoded := l })
    | (.ok symbol1, l1) =>
      match _h2 : nextSymbol l1 with
      | (.err _, l) => (.panic, { d with encoded := l })
      | (.panic, l) => (.panic, { d with encoded := l })
      | (.ok symbol2, l2) =>
        match d.mapping symbol1, d.mapping symbol2 with
        | some seq1, some seq2 =>
          let total := seq1 ++ seq2
          match abbrevNext d.abbrev_ with
          | (some code, counter) =>
            DictDecoder.next { encoded := l2, prevDecoded := total,
                               mapping := newMapping d.mapping code total, abbrev_ := counter }
          | (none, counter) =>
            DictDecoder.next { encoded := l2, prevDecoded := total,
                               mapping := d.mapping, abbrev_ := counter }
        | _, _ => (.panic, { d with encoded := l2 })
termination_by d.encoded.length
decreasing_by all_goals
  have := nextSymbol_lt _h1
  have := nextSymbol_lt _h2
  omega

end Cniic
