import Verif.Core.I32
import Verif.Model.Hilbertc

/-!
# Model of `TrieMap::print_stats` in `src/zip/dict.rs`

`zip_dict_encode` ends with statistics on the trie (dict.rs:16).  Printing itself is not modelled.  The variable `node_count` is
an `i32` (the default for integer literals: nothing else fixes its type); the other counters are `usize` and count things that
lie in memory, so they are natural numbers here.  `total_size` is the number of nodes times a constant.
-/

namespace Cniic

variable {T : Type}

/-- The entries of a content in the order in which they are pushed (dict.rs:334-345). -/
def Content.entries (c : Content T) : List T :=
  match c with
  | .part _ values => values
  | .full data => allBytes.filterMap data

/-- What `tot_child_entries` and `tot_value_entries` grow by (dict.rs:364,370,377,383). -/
def Content.slots (c : Content T) : Nat :=
  match c with
  | .part _ values => values.length
  | .full _ => 256

/-! The number of nodes, which bounds the number of steps of the search (dict.rs:329-347). -/
mutual
/-- The nodes of a trie. -/
def Node.count : Node T → Nat
  | .mk c _ => 1 + countContent c
/-- The nodes below a content. -/
def countContent : Content (Node T) → Nat
  | .part _ values => countList values
  | .full data => ((List.range 256).map fun b => countOption (data (UInt8.ofNat b))).sum
/-- The nodes of an entry. -/
def countOption : Option (Node T) → Nat
  | none => 0
  | some n => n.count
/-- The nodes of a list of entries. -/
def countList : List (Node T) → Nat
  | [] => 0
  | n :: ns => n.count + countList ns
end

theorem countList_eq (ns : List (Node T)) : countList ns = (ns.map Node.count).sum := by
  induction ns with
  | nil => rw [countList]; rfl
  | cons n ns ih => rw [countList, ih]; rfl

theorem count_entries (c : Content (Node T)) : countContent c = (c.entries.map Node.count).sum := by
  cases c with
  | part ks vs => rw [countContent, countList_eq]; rfl
  | full d =>
    rw [countContent, Content.entries, allBytes]
    generalize List.range 256 = l
    induction l with
    | nil => rfl
    | cons a l ih =>
      simp only [List.map_cons, List.sum_cons, List.filterMap_cons, ih]
      cases d (UInt8.ofNat a) with
      | none => simp [countOption]
      | some n => simp [countOption]

theorem Node.count_eq (n : Node T) : n.count = 1 + (n.children.entries.map Node.count).sum := by
  obtain ⟨c, v⟩ := n
  rw [Node.count, count_entries]
  rfl

/-- The counters (dict.rs:350-355). -/
structure TrieStats where
  nodeCount    : Int32
  usedChildren : Nat
  totChildren  : Nat
  usedValues   : Nat
  totValues    : Nat
  deriving DecidableEq

/-- The loop (dict.rs:356-386) with the search in depth (dict.rs:326-348) inlined; the stack has its top in front.  `none` is a
panic.  In a `Full` content the entries that are `Some` are counted (dict.rs:367-369,380-382). -/
def statsLoop (chk : Bool) : List (Node T) → TrieStats → Option TrieStats
  | [], st => some st
  | n :: stack, st =>
    match i32Succ chk st.nodeCount with
    | none => none
    | some k =>
      statsLoop chk (n.children.entries.reverse ++ stack)
        { nodeCount := k
          usedChildren := st.usedChildren + n.children.entries.length
          totChildren := st.totChildren + n.children.slots
          usedValues := st.usedValues + n.values.entries.length
          totValues := st.totValues + n.values.slots }
termination_by stack => (stack.map Node.count).sum
decreasing_by
  simp only [List.map_append, List.map_reverse, List.sum_append_nat, List.sum_reverse, List.map_cons, List.sum_cons]
  rw [Node.count_eq n]
  omega

/-- `TrieMap::print_stats` (dict.rs:325-399): the counters that are printed. -/
def trieStats (chk : Bool) (trie : Node T) : Option TrieStats :=
  statsLoop chk [trie] { nodeCount := 0, usedChildren := 0, totChildren := 0, usedValues := 0, totValues := 0 }

/-- The loop of `zip_dict_encode` (dict.rs:11-14) as in `zipDictLoop`, returning the encoder. -/
def zipDictRun : Nat → DictEncoder → W DictEncoder
  | 0, _ => Proc.panic
  | fuel + 1, e =>
    match DictEncoder.nextPair e with
    | (.err _, e) => pure e
    | (.panic, _) => Proc.panic
    | (.ok (symbol1, symbol2), e) => do
      ser symbol1
      ser symbol2
      zipDictRun fuel e

/-- `zip_dict_encode` (dict.rs:8-19) with the statistics of dict.rs:16. -/
def zipDictEncodeStats (chk : Bool) (input : List UInt8) : W Unit :=
  match DictEncoder.new input with
  | none => Proc.panic
  | some e => do
    let e ← zipDictRun (input.length + 1) e
    match trieStats chk e.trie with
    | none => Proc.panic
    | some _ => pure ()

/-- `Hilbert::encode` (hilbertc.rs:26-53) for `CompressionMethod::Zip`, with the statistics. -/
def hilbertZipEncodeStats (chk : Bool) (scan : Scan) (img : Img) : W Unit := do
  ser (img.width, img.height)
  let iter ← orPanic (linearize scan img)
  let iter := iter.map Rgba.toRgb
  let bytes ← orPanic (drainBytes SerStream.next (11 * iter.length + 1) (SerStream.fromIter iter))
  zipDictEncodeStats chk bytes

/-- `Zip::encode` (zipc.rs:15-25) for `Zip::Dict`, with the statistics. -/
def zipEncodeStats (chk : Bool) (img : Img) : W Unit :=
  match zipInput img with
  | none => Proc.panic
  | some bytes => zipDictEncodeStats chk bytes

end Cniic
