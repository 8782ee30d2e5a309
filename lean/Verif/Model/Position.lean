import Verif.Model.AnyCodec

/-!
# Model: where decoding leaves the reader

`Codec::decode(&self, reader: &mut I)` (codec.rs:16) borrows the reader, so that the caller can go on reading from it
after the call.  The decoders here are those of the other files with what the reader still holds when they return.  Every
iterator of the decoders asks the one below it for an item only when it needs one: `bit_reader` (bit.rs:256-259) is a
`flat_map`, and `hilbert.zip(…)` (hilbertc.rs:59-60, 426) asks the traversal first.
-/

namespace Cniic

/-- A call on a stream that is put over the reader by `start` and dropped after the call; `left` is what the reader under
the stream still holds. -/
def borrowing {σ α : Type} (start : List UInt8 → σ) (left : σ → List UInt8) (m : Rd σ α) : Rd (List UInt8) α :=
  fun reader => ((m (start reader)).1, left (m (start reader)).2)

/-- `Hufman::decode` (hufc.rs:19-40) with `decode_all` (huf.rs:46-53), also `ClusterColors::decode`
(clusterc.rs:55-57). -/
def hufmanDecodeFrom : Rd (List UInt8) RgbImage := do
  let (_, img) ← createImageBufferStandard listNext
  let dec ← BinTrie.de
  let pixels ← borrowing (fun reader => { dec := dec, bits := bitReader reader }) (fun s => s.bits.bytes)
    (hufmanFill img.pixels.length)
  pure { img with pixels := pixels }

/-- `Voronoi::decode` (clusterc.rs:168-189). -/
def voronoiDecodeFrom (chk : Bool) : Rd (List UInt8) RgbImage := do
  let dims : UInt32 × UInt32 ← de listNext
  let img ← orPanic (RgbImage.new dims.1 dims.2)
  let ncentroids : Usize ← de listNext
  let centroids : List ColorPos ← readN listNext ncentroids.val.toNat
  let px ← orPanic (optMap (fun i =>
    pixelColor chk centroids (UInt32.ofNat (i % dims.1.toNat)) (UInt32.ofNat (i / dims.1.toNat)))
    (List.range (dims.1.toNat * dims.2.toNat)))
  pure { img with pixels := px }

/-- `Delta::decode` (hilbertc.rs:417-431) with `decode_all` (huf.rs:46-53). -/
def deltaDecodeFrom (chk : Bool) (scan : Scan) : Rd (List UInt8) RgbImage := do
  let (dimensions, img) ← createImageBufferStandard listNext
  let dec ← Proc.unwrap BinTrie.de
  borrowing (fun reader => FromDiff.new { dec := dec, bits := bitReader reader }) (fun s => s.diffStream.bits.bytes)
    (paint (FromDiff.next chk DecStream.next) (scan dimensions.1.toNat dimensions.2.toNat) img)

/-- `Hilbert::decode` (hilbertc.rs:55-79). -/
def hilbertDecodeFrom (scan : Scan) (m : CompressionMethod) : Rd (List UInt8) RgbImage := do
  let dimensions : UInt32 × UInt32 ← de listNext
  match m with
  | .rle _ => borrowing RleDecoder.new (fun s => s.bytes) (decodeAny scan RleDecoder.next dimensions)
  | .zip => borrowing zipDictDecode (fun s => s.encoded) (decodeAny scan (deserStream DictDecoder.next) dimensions)

/-- `Zip::decode` (zipc.rs:27-48). -/
def zipDecodeFrom (z : Zip) : Rd (List UInt8) RgbImage :=
  match z with
  | .dict => borrowing zipDictDecode (fun s => s.encoded) (rebuildImage DictDecoder.next)
  | .back => borrowing (Back.zipBackDecode Back.ringSize) (fun s => s.iter) (rebuildImage Back.Decoder.next)

/-- `AnyCodec::decode` (codec.rs:72-78). -/
def AnyCodec.decodeFrom (p : Setup) (c : AnyCodec) : Rd (List UInt8) RgbImage :=
  match c with
  | .clusterColors _ => hufmanDecodeFrom
  | .voronoi _ => voronoiDecodeFrom p.chk
  | .delta => deltaDecodeFrom p.chk p.scan
  | .hilbert m => hilbertDecodeFrom p.scan m
  | .hufman => hufmanDecodeFrom
  | .zip z => zipDecodeFrom z

end Cniic
