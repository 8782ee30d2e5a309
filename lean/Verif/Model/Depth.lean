import Verif.Model.AnyCodec

/-!
# Decoding with a limited stack

`BinTrie::deserialize` (huf.rs:330-348) calls itself for each branch of the tree, and `DictDecoder::next`
(dict.rs:184-214) calls itself after each pair of symbols.  `BinTrie.deFuel` and `DictDecoder.nextDepth` count the
nested calls; here `depth` is the number of them for which the stack has room, and an overflow (which aborts the
process) is shown as a panic.  That calls in tail position are compiled to nested calls is assumed; an optimising
compiler may turn `self.next()` (dict.rs:211), which is in tail position but for values dropped on return, into a
loop.  Dropping a code tree also recurses (the drop of `BinTrie` is generated by the compiler); see
`Model/TreeDrop.lean`.
-/

namespace Cniic

/-- `decode_all` (huf.rs:46-53) with room for `depth` nested calls. -/
def decodeAllDepth {T : Type} [Ser T] (depth : Nat) : Rd (List UInt8) (DecStream T) := do
  let dec ← BinTrie.deFuel listNext depth
  fun input => (.ok { dec := dec, bits := bitReader input }, [])

/-- `Hufman::decode` (hufc.rs:19-40), also `ClusterColors::decode` (clusterc.rs:55-57), with room for `depth` nested
calls. -/
def hufmanDecodeDepth (depth : Nat) (bytes : List UInt8) : Ret Unit RgbImage :=
  (Proc.run (do
    let (_, img) ← createImageBufferStandard listNext
    let symbols ← decodeAllDepth depth
    let pixels ← onStream (hufmanFill img.pixels.length) symbols
    pure { img with pixels := pixels }) bytes).1

/-- `Delta::decode` (hilbertc.rs:417-431) with room for `depth` nested calls. -/
def deltaDecodeDepth (depth : Nat) (chk : Bool) (scan : Scan) (bytes : List UInt8) : Ret Unit RgbImage :=
  (Proc.run (do
    let (dimensions, img) ← createImageBufferStandard listNext
    let diffStream ← Proc.unwrap (decodeAllDepth depth)
    onStream (paint (FromDiff.next chk DecStream.next) (scan dimensions.1.toNat dimensions.2.toNat) img)
      (FromDiff.new diffStream)) bytes).1

/-- `DictDecoder::next` (dict.rs:184-214) with room for `depth` nested calls, this one included; `self.next()` is
line 211. -/
def DictDecoder.nextDepth : Nat → Rd DictDecoder UInt8
  | 0, d => (.panic, d)
  | depth + 1, d =>
    match d.prevDecoded with
    | b :: bs => (.ok b, { d with prevDecoded := bs })
    | [] =>
      match nextSymbol d.encoded with
      | (.err _, l) => (.err (), { d with encoded := l })
      | (.panic, l) => (.panic, { d with encoded := l })
      | (.ok symbol1, l1) =>
        match nextSymbol l1 with
        | (.err _, l) => (.panic, { d with encoded := l })
        | (.panic, l) => (.panic, { d with encoded := l })
        | (.ok symbol2, l2) =>
          match d.mapping symbol1, d.mapping symbol2 with
          | some seq1, some seq2 =>
            let total := seq1 ++ seq2
            match abbrevNext d.abbrev_ with
            | (some code, counter) =>
              DictDecoder.nextDepth depth { encoded := l2, prevDecoded := total,
                                            mapping := newMapping d.mapping code total, abbrev_ := counter }
            | (none, counter) =>
              DictDecoder.nextDepth depth { encoded := l2, prevDecoded := total,
                                            mapping := d.mapping, abbrev_ := counter }
          | _, _ => (.panic, { d with encoded := l2 })

/-- `Zip::decode` (zipc.rs:27-48) with room for `depth` nested calls. -/
def zipDecodeDepth (depth : Nat) (z : Zip) (bytes : List UInt8) : Ret Unit RgbImage :=
  match z with
  | .dict => (rebuildImage (DictDecoder.nextDepth depth) (zipDictDecode bytes)).1
  | .back => zipDecode .back bytes

/-- `Hilbert::decode` (hilbertc.rs:55-79) with room for `depth` nested calls. -/
def hilbertDecodeDepth (depth : Nat) (scan : Scan) (m : CompressionMethod) (bytes : List UInt8) : Ret Unit RgbImage :=
  match m with
  | .rle d => hilbertDecode scan (.rle d) bytes
  | .zip =>
    (Proc.run (do
      let dimensions : UInt32 × UInt32 ← de listNext
      fun reader =>
        onStream (decodeAny scan (deserStream (DictDecoder.nextDepth depth)) dimensions) (zipDictDecode reader)
          reader) bytes).1

/-- `AnyCodec::decode` (codec.rs:72-78) with room for `depth` nested calls; voronoi, the runs of hilbert and zip-back
have no recursion that depends on the file. -/
def AnyCodec.decodeDepth (p : Setup) (depth : Nat) (c : AnyCodec) (bytes : List UInt8) : Ret Unit RgbImage :=
  match c with
  | .clusterColors _ => hufmanDecodeDepth depth bytes
  | .hufman => hufmanDecodeDepth depth bytes
  | .delta => deltaDecodeDepth depth p.chk p.scan bytes
  | .hilbert m => hilbertDecodeDepth depth p.scan m bytes
  | .zip z => zipDecodeDepth depth z bytes
  | c => c.decode p bytes

/-- `Serialize for BinTrie` (huf.rs:305-321) with room for `depth` nested calls. -/
def BinTrie.serDepth {T : Type} [Ser T] : Nat → BinTrie T → W Unit
  | 0, _ => Proc.panic
  | _ + 1, .leaf v => do
    Cniic.ser (0 : UInt8)
    Cniic.ser v
  | depth + 1, .branch l r => do
    Cniic.ser (1 : UInt8)
    l.serDepth depth
    r.serDepth depth

end Cniic
