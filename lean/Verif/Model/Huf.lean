import Verif.Model.Bit
import Verif.Model.Ser

/-!
# Model of `src/huf.rs` and of `count_freqs` (`src/utils.rs`)

Two library data structures are parameters of the model because their behaviour is not determined by
the code: the iteration order of `HashMap` (random in Rust) and the order in which `BinaryHeap`
returns equal elements.
-/

namespace Cniic

/-- `count_freqs` (utils.rs:4-16), one item: `entry(x).and_modify(+1).or_insert(1)`.  The map is a
list of its entries.  Counts are natural numbers: a `u64` counter cannot overflow because it is
bounded by the number of items. -/
def bumpFreq {T : Type} [DecidableEq T] (x : T) : List (T × Nat) → List (T × Nat)
  | [] => [(x, 1)]
  | (y, n) :: m => if y = x then (y, n + 1) :: m else (y, n) :: bumpFreq x m

/-- `count_freqs` (utils.rs:4-16). -/
def countFreqs {T : Type} [DecidableEq T] (items : List T) : List (T × Nat) :=
  items.foldl (fun m x => bumpFreq x m) []

/-- `enum BinTrie` (huf.rs:168-171). -/
inductive BinTrie (T : Type) where
  | leaf (v : T)
  | branch (left right : BinTrie T)
  deriving Repr, DecidableEq

/-- `struct Suffix` (huf.rs:63-66). -/
structure Suffix (T : Type) where
  freq : Nat
  tree : BinTrie T

/-- `From<(T, N)> for Suffix` (huf.rs:87-94). -/
def Suffix.ofItem {T : Type} (p : T × Nat) : Suffix T := { freq := p.2, tree := .leaf p.1 }

/-- `std::collections::BinaryHeap<Suffix<T, u64>>` with the reversed order of huf.rs:68-85, i.e. a
min-heap on `freq`: any data structure with these operations and these laws.  Which of several
minimal elements is popped is left open. -/
structure MinHeap (T : Type) where
  H : Type
  fromIter : List (Suffix T) → H
  push : H → Suffix T → H
  pop : H → Option (Suffix T × H)
  len : H → Nat
  /-- the elements in the heap, as a multiset -/
  contents : H → List (Suffix T)
  contents_fromIter : ∀ l, (contents (fromIter l)).Perm l
  contents_push : ∀ h x, (contents (push h x)).Perm (x :: contents h)
  len_eq : ∀ h, len h = (contents h).length
  pop_none : ∀ h, pop h = none → contents h = []
  pop_some : ∀ h x h', pop h = some (x, h') →
    (contents h).Perm (x :: contents h') ∧ ∀ y ∈ contents h, x.freq ≤ y.freq

/-- The loop of `build` (huf.rs:100-111).  `none` is a panic of one of the `unwrap`s. -/
def buildLoop {T : Type} (M : MinHeap T) (h : M.H) : Option (BinTrie T) :=
  if M.len h > 1 then
    match hl : M.pop h with
    | none => none
    | some (left, h1) =>
      match hr : M.pop h1 with
      | none => none
      | some (right, h2) =>
        buildLoop M (M.push h2 { freq := left.freq + right.freq
                                 tree := .branch left.tree right.tree })
  else
    match M.pop h with
    | none => none
    | some (s, _) => some s.tree
termination_by (M.contents h).length
decreasing_by
  have e1 := (M.pop_some _ _ _ hl).1.length_eq
  have e2 := (M.pop_some _ _ _ hr).1.length_eq
  have e3 := (M.contents_push h2 { freq := left.freq + right.freq
                                   tree := .branch left.tree right.tree }).length_eq
  simp only [List.length_cons] at e1 e2 e3
  omega

/-- `build` (huf.rs:58-117), the decoder part; `none` = panic (assertion of line 99). -/
def buildDec {T : Type} (M : MinHeap T) (freqItems : List (T × Nat)) : Option (BinTrie T) :=
  let h := M.fromIter (freqItems.map Suffix.ofItem)
  if M.len h > 0 then buildLoop M h else none

/-- `BinTrie::lookup` (huf.rs:187-206), also `Dec::decode` (huf.rs:158-162). -/
def BinTrie.lookup {T σ : Type} (next : Rd σ Bit) : BinTrie T → Rd σ T
  | .leaf v => pure v
  | .branch left right => do
    let b ← next
    if b then right.lookup next else left.lookup next

/-- `struct BinTrieIter` (huf.rs:209-212).  Both vectors are kept with their last element first. -/
structure BinTrieIter (T : Type) where
  stack   : List (BinTrie T)
  currRep : List Bit

namespace BinTrieIter

variable {T : Type}

/-- `all_the_way_left` (huf.rs:259-266), started on the top of the stack. -/
def allTheWayLeft : BinTrie T → List (BinTrie T) → List Bit → BinTrieIter T
  | .branch left _, stack, rep => allTheWayLeft left (left :: stack) (false :: rep)
  | .leaf _,        stack, rep => ⟨stack, rep⟩

/-- `BinTrieIter::new` (huf.rs:245-253). -/
def new (trie : BinTrie T) : BinTrieIter T := allTheWayLeft trie [trie] []

/-- Loop of `pop_parents` (huf.rs:284-290): `rep` is `curr_rep` before the pop of line 284 (or 289). -/
def popLoop : List (BinTrie T) → List Bit → BinTrieIter T
  | stack, []           => ⟨stack, []⟩
  | stack, false :: rep => ⟨stack, rep⟩
  | stack, true :: rep  => popLoop stack.tail rep

/-- `pop_parents` (huf.rs:281-291). -/
def popParents (s : BinTrieIter T) : BinTrieIter T := popLoop s.stack.tail s.currRep

/-- `BinTrieIter::next` (huf.rs:217-241); `right_once` (huf.rs:268-279) is inlined, and the panics of
lines 227 and 276 are kept. -/
def next : Rd (BinTrieIter T) (List Bit × T) := fun s =>
  match s.stack with
  | [] => (.err (), s)
  | .branch _ _ :: _ => (.panic, s)
  | .leaf sym :: _ =>
    let rep := s.currRep.reverse
    let s := s.popParents
    match s.stack with
    | [] => (.ok (rep, sym), s)
    | .leaf _ :: _ => (.panic, s)
    | .branch _ right :: _ =>
      (.ok (rep, sym), allTheWayLeft right (right :: s.stack) (true :: s.currRep))

end BinTrieIter

/-- `for x in iter` / `collect`: the items of an iterator, pulled until `None`.  `fuel` bounds the
number of pulls; running out of it is reported as `err` (and shown not to happen where used). -/
def drain {σ α : Type} (next : Rd σ α) : Nat → σ → Ret Unit (List α)
  | 0,        _ => .err ()
  | fuel + 1, s =>
    match next s with
    | (.err _, _) => .ok []
    | (.panic, _) => .panic
    | (.ok a, s') =>
      match drain next fuel s' with
      | .ok as => .ok (a :: as)
      | .err e => .err e
      | .panic => .panic

/-- Number of leaves, used as a bound for `drain`. -/
def BinTrie.size {T : Type} : BinTrie T → Nat
  | .leaf _ => 1
  | .branch l r => l.size + r.size

/-- `struct Enc` (huf.rs:121-123): the code map, most recently inserted entry first. -/
structure Enc (T : Type) where
  codes : List (T × BitArray)

/-- The loop of `Enc::from` (huf.rs:128-130); `none` = panic. -/
def Enc.insertAll {T : Type} : List (List Bit × T) → List (T × BitArray) → Option (List (T × BitArray))
  | [], codes => some codes
  | (bits, symbol) :: rest, codes =>
    match BitArray.fromSlice bits .msbFirst with
    | none => none
    | some a => insertAll rest ((symbol, a) :: codes)

/-- `From<&Dec> for Enc` (huf.rs:125-135); `none` = panic. -/
def Enc.ofTrie {T : Type} (trie : BinTrie T) : Option (Enc T) :=
  match drain BinTrieIter.next (trie.size + 1) (BinTrieIter.new trie) with
  | .ok items =>
    match Enc.insertAll items [] with
    | some codes => some ⟨codes⟩
    | none => none
  | _ => none

/-- `HashMap::get` on the code map (huf.rs:139): the last insertion wins. -/
def Enc.get {T : Type} [DecidableEq T] (enc : Enc T) (x : T) : Option BitArray :=
  (enc.codes.find? fun e => e.1 = x).map (·.2)

/-- `Enc::encode` (huf.rs:138-147); `None` is `err`. -/
def Enc.encode {T : Type} [DecidableEq T] (enc : Enc T) (symbol : T) (w : BitWriter) :
    W BitWriter :=
  match enc.get symbol with
  | none => Proc.fail .io
  | some code =>
    if code.len == 0 then pure w
    else w.writeArr code

/-- `build` (huf.rs:58-117); `none` = panic. -/
def build {T : Type} (M : MinHeap T) (freqItems : List (T × Nat)) : Option (Enc T × BinTrie T) :=
  match buildDec M freqItems with
  | none => none
  | some dec =>
    match Enc.ofTrie dec with
    | none => none
    | some enc => some (enc, dec)

/-- `Serialize for BinTrie` (huf.rs:305-321, constants 296-297) and for `Dec` (huf.rs:299-303). -/
def BinTrie.ser {T : Type} [Ser T] : BinTrie T → W Unit
  | .leaf v => do
    Cniic.ser (0 : UInt8)
    Cniic.ser v
  | .branch l r => do
    Cniic.ser (1 : UInt8)
    l.ser
    r.ser

/-- `Deserialize for BinTrie` (huf.rs:330-348) and for `Dec` (huf.rs:323-328).  `fuel` bounds the
depth of the recursion; running out of it is reported as a panic (and shown not to happen). -/
def BinTrie.deFuel {T σ : Type} [Ser T] (next : Rd σ UInt8) : Nat → Rd σ (BinTrie T)
  | 0 => Proc.panic
  | fuel + 1 => do
    let decider : UInt8 ← Cniic.de next
    if decider = 0 then do
      let value ← Cniic.de next
      pure (.leaf value)
    else if decider = 1 then do
      let left ← BinTrie.deFuel next fuel
      let right ← BinTrie.deFuel next fuel
      pure (.branch left right)
    else
      Rd.none

/-- `Deserialize for BinTrie` on a stream of bytes (huf.rs:330-348). -/
def BinTrie.de {T : Type} [Ser T] : Rd (List UInt8) (BinTrie T) := fun l =>
  BinTrie.deFuel listNext (l.length + 1) l

/-- The payload loop of `encode_all` (huf.rs:38-40). -/
def encodeSymbols {T : Type} [DecidableEq T] (enc : Enc T) (w : BitWriter) : List T → W BitWriter
  | [] => pure w
  | x :: xs => do
    let w ← Proc.unwrap (enc.encode x w)
    encodeSymbols enc w xs

/-- `encode_all` (huf.rs:22-43).  `hashOrder` is the order in which the frequency map is iterated
(line 31). -/
def encodeAll {T : Type} [DecidableEq T] [Ser T] (M : MinHeap T)
    (hashOrder : List (T × Nat) → List (T × Nat)) (items : List T) : W Unit :=
  match build M (hashOrder (countFreqs items)) with
  | none => Proc.panic
  | some (enc, dec) => do
    dec.ser
    let w ← encodeSymbols enc (BitWriter.new .msbFirst) items
    let _ ← w.padAndFlush
    pure ()

/-- `struct DecStream` (huf.rs:352-355) over the bits of a byte list. -/
structure DecStream (T : Type) where
  dec  : BinTrie T
  bits : BitReader

/-- `decode_all` (huf.rs:46-53); the rest of the input moves into the returned stream. -/
def decodeAll {T : Type} [Ser T] : Rd (List UInt8) (DecStream T) := do
  let dec ← BinTrie.de
  fun input => (.ok { dec := dec, bits := bitReader input }, [])

/-- `DecStream::next` (huf.rs:369-373). -/
def DecStream.next {T : Type} : Rd (DecStream T) T := fun s =>
  match s.dec.lookup (BitReader.next .msbFirst) s.bits with
  | (r, bits) => (r, { s with bits := bits })

end Cniic
