import Verif.Model.Depth

/-!
# Freeing code trees with a limited stack

`BinTrie` (huf.rs:168-171) has no `Drop` of its own, so the compiler generates one: freeing a branch frees both boxes in
order, each by a nested call.  As in `Model/Depth.lean`, `depth` is the number of nested calls for which the stack has room
and an overflow (which aborts the process) is shown as a panic.  A call that frees a node counts like a call that reads or
writes one.  The values in the leaves (`Rgb<u8>`, `SignedColor`) need no freeing.
-/

namespace Cniic

/-- The generated drop of `BinTrie` (huf.rs:168-171): whether `depth` nested calls are enough. -/
def BinTrie.dropDepth {T : Type} : Nat → BinTrie T → Bool
  | 0, _ => false
  | _ + 1, .leaf _ => true
  | depth + 1, .branch l r => l.dropDepth depth && r.dropDepth depth

/-- A tree is freed at the end of a block with the result `r`, also if this is an error or a panic that unwinds. -/
def BinTrie.dropAfter {T ε α : Type} (depth : Nat) (t : BinTrie T) (r : Ret ε α) : Ret ε α :=
  if t.dropDepth depth then r else .panic

/-- A block at whose end the tree is freed. -/
def BinTrie.dropAtEnd {T σ ε α : Type} (depth : Nat) (t : BinTrie T) (m : Proc ε σ α) : Proc ε σ α := fun s =>
  (t.dropAfter depth (m s).1, (m s).2)

/-- A call after which the tree is freed unless it returns a value. -/
def BinTrie.dropUnlessOk {T σ ε α : Type} (depth : Nat) (t : BinTrie T) (m : Proc ε σ α) : Proc ε σ α := fun s =>
  match m s with
  | (.ok a, s) => (.ok a, s)
  | (r, s) => (t.dropAfter depth r, s)

/-- `Deserialize for BinTrie` (huf.rs:330-348) with room for `depth` nested calls, those that free a tree included: if there
is no right child, the left one is freed on return (line 341). -/
def BinTrie.deDrop {T σ : Type} [Ser T] (next : Rd σ UInt8) : Nat → Rd σ (BinTrie T)
  | 0 => Proc.panic
  | depth + 1 => do
    let decider : UInt8 ← Cniic.de next
    if decider = 0 then do
      let value ← Cniic.de next
      pure (.leaf value)
    else if decider = 1 then do
      let left ← BinTrie.deDrop next depth
      let right ← left.dropUnlessOk depth (BinTrie.deDrop next depth)
      pure (.branch left right)
    else
      Rd.none

/-- `decode_all` (huf.rs:46-53). -/
def decodeAllDrop {T : Type} [Ser T] (depth : Nat) : Rd (List UInt8) (DecStream T) := do
  let dec ← BinTrie.deDrop listNext depth
  fun input => (.ok { dec := dec, bits := bitReader input }, [])

/-- `Hufman::decode` (hufc.rs:19-40), also `ClusterColors::decode` (clusterc.rs:55-57): `symbols` (line 23) is freed on
return. -/
def hufmanDecodeDrop (depth : Nat) (bytes : List UInt8) : Ret Unit RgbImage :=
  (Proc.run (do
    let (_, img) ← createImageBufferStandard listNext
    let symbols ← decodeAllDrop depth
    symbols.dec.dropAtEnd depth (do
      let pixels ← onStream (hufmanFill img.pixels.length) symbols
      pure { img with pixels := pixels })) bytes).1

/-- `Delta::decode` (hilbertc.rs:417-431): the stream moves into the loop (line 426) and is freed after it. -/
def deltaDecodeDrop (depth : Nat) (chk : Bool) (scan : Scan) (bytes : List UInt8) : Ret Unit RgbImage :=
  (Proc.run (do
    let (dimensions, img) ← createImageBufferStandard listNext
    let diffStream ← Proc.unwrap (decodeAllDrop depth)
    diffStream.dec.dropAtEnd depth
      (onStream (paint (FromDiff.next chk DecStream.next) (scan dimensions.1.toNat dimensions.2.toNat) img)
        (FromDiff.new diffStream))) bytes).1

/-- `AnyCodec::decode` (codec.rs:72-78); the other codecs have no code tree. -/
def AnyCodec.decodeDrop (p : Setup) (depth : Nat) (c : AnyCodec) (bytes : List UInt8) : Ret Unit RgbImage :=
  match c with
  | .clusterColors _ => hufmanDecodeDrop depth bytes
  | .hufman => hufmanDecodeDrop depth bytes
  | .delta => deltaDecodeDrop depth p.chk p.scan bytes
  | c => c.decodeDepth p depth bytes

/-- `encode_all` (huf.rs:22-43): the tree (line 32) is written and freed on return, also if writing fails (line 35, 41) or
panics (line 39).  `build` (huf.rs:58-121) makes the tree and the codes in loops. -/
def encodeAllDrop {T : Type} [DecidableEq T] [Ser T] (depth : Nat) (M : MinHeap T)
    (hashOrder : List (T × Nat) → List (T × Nat)) (items : List T) : W Unit :=
  match build M (hashOrder (countFreqs items)) with
  | none => Proc.panic
  | some (enc, dec) => dec.dropAtEnd depth (do
    dec.serDepth depth
    let w ← encodeSymbols enc (BitWriter.new .msbFirst) items
    let _ ← w.padAndFlush
    pure ())

end Cniic
