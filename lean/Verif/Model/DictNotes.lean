import Verif.Model.DictStats

/-!
# Model of the console output of `src/zip/dict.rs`

The dictionary coder prints a line whenever the content of a node changes its format (dict.rs:537), and statistics at the end
(dict.rs:387-398).  The functions here count the lines of the first kind, next to the functions of `Model/ZipDict.lean`, which
say what happens otherwise, and give the numbers of the statistics, before `bytesize` and `format!` turn them into text.  The
device is assumed to accept everything, so that no call is left out.  `std::mem::size_of::<Node<T>>()`, which is up to the
compiler, is a parameter.
-/

namespace Cniic

variable {T : Type}

/-- Whether `Content::upsert` (dict.rs:504-534) calls `to_full` (dict.rs:524), which prints a line (dict.rs:537). -/
def Content.converts (c : Content T) (byte : UInt8) : Bool :=
  match c with
  | .part keys _ =>
    match Content.find keys byte with
    | some _ => false
    | none => !decide (keys.length < Content.threshold)
  | .full _ => false

/-- The lines printed by the step of `TrieMap::insert` that makes sure the child exists (dict.rs:313-316). -/
def Node.ensureLines (n : Node T) (byte : UInt8) : Nat :=
  match n.children.get byte with
  | some _ => 0
  | none => (n.children.converts byte).toNat

/-- The lines printed by `TrieMap::insert` (dict.rs:308-323). -/
def Node.insertLines : Node T → List UInt8 → Nat
  | _, [] => 0
  | n, [b] => (n.values.converts b).toNat
  | n, b :: b' :: rest =>
    n.ensureLines b +
      match n.ensureChild b with
      | none => 0
      | some n =>
        match n.children.get b with
        | none => 0
        | some child => insertLines child (b' :: rest)

/-- The lines printed by `DictEncoder::create_symbol` (dict.rs:52-62). -/
def DictEncoder.createLines (e : DictEncoder) (seq : List UInt8) : Nat :=
  match abbrevNext e.abbrev_ with
  | (some _, _) => e.trie.insertLines seq
  | (none, _) => 0

/-- The lines printed by the loop of `DictEncoder::new` (dict.rs:44-46) over the given bytes. -/
def DictEncoder.createAllLines : DictEncoder → List UInt8 → Nat
  | _, [] => 0
  | e, b :: bs =>
    e.createLines [b] +
      match e.createSymbol [b] with
      | none => 0
      | some e => e.createAllLines bs

/-- The lines printed by `DictEncoder::next_pair` (dict.rs:66-94). -/
def DictEncoder.nextPairLines (e : DictEncoder) : Nat :=
  match e.findSymbol with
  | ((none, _), _) => 0
  | ((some _, seq1), e) =>
    if seq1.length = 0 then 0 else
    match e.findSymbol with
    | ((none, _), _) => 0
    | ((some _, seq2), e) => if seq2.length = 0 then 0 else e.createLines (seq1 ++ seq2)

/-- The lines printed by the loop of `zip_dict_encode` (dict.rs:11-14), and the encoder at the end; `none` = panic. -/
def zipDictLines : Nat → DictEncoder → Option (Nat × DictEncoder)
  | 0, _ => none
  | fuel + 1, e =>
    match DictEncoder.nextPair e with
    | (.err _, e') => some (e.nextPairLines, e')
    | (.panic, _) => none
    | (.ok _, e') =>
      match zipDictLines fuel e' with
      | none => none
      | some (lines, e'') => some (e.nextPairLines + lines, e'')

/-- What `TrieMap::print_stats` (dict.rs:387-398) prints of a trie of symbols: the counters, `total_size` and the useful size
in bytes.  The densities are the quotients of the counters. -/
structure TrieReport where
  stats  : TrieStats
  total  : Nat
  useful : Nat
  deriving DecidableEq

/-- `TrieMap::print_stats` (dict.rs:325-399); `none` = panic.  `total_size` (dict.rs:359) grows by the size of a node with each
node visited, and `size_of::<Symbol>()` is 2. -/
def trieReport (chk : Bool) (nodeSize : Nat) (trie : Node Symbol) : Option TrieReport :=
  match trieStats chk trie with
  | none => none
  | some st => some { stats := st, total := trie.count * nodeSize, useful := st.usedChildren * nodeSize + st.usedValues * 2 }

/-- Everything that `zip_dict_encode` (dict.rs:8-19) prints: the number of lines on converted contents and the report;
`none` = panic. -/
def zipDictPrints (chk : Bool) (nodeSize : Nat) (input : List UInt8) : Option (Nat × TrieReport) :=
  match DictEncoder.new input with
  | none => none
  | some e =>
    match zipDictLines (input.length + 1) e with
    | none => none
    | some (lines, e') =>
      match trieReport chk nodeSize e'.trie with
      | none => none
      | some r =>
        some (DictEncoder.createAllLines { input := ⟨[], input⟩, trie := .new, abbrev_ := 0 } allBytes + lines, r)

end Cniic
