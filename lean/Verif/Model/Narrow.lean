import Verif.Model.Position

/-!
# Model: decoding on targets where `usize` is narrower

A length is written as a `u64` and read with `n as usize` (ser.rs:119-124), which keeps the low bits only.  The decoders are
given here once more, for a `usize` of `w` bits; with `w = 64` they are those of the other files.

Simplified: only the lengths in files depend on `w`.  The largest image buffer is still that of a 64-bit target; on a 32-bit
target `RgbImage::new` panics from 2³¹ bytes on.  Other numbers of type `usize` in the decoders (the symbols of
zip-dict, the positions in the ring of zip-back) come from 16 bits or fewer, and the
sizes in `hilbert::iter` (hilbertc.rs:59, 420) from 32 bits; for fewer than 32 bits the truncation of the latter is left out.
-/

namespace Cniic

/-- `Deserialize for usize` (ser.rs:119-124). -/
def usizeDeOn {σ : Type} (w : Nat) (next : Rd σ UInt8) : Rd σ Nat := do
  let n : UInt64 ← de next
  pure (n.toNat % 2 ^ w)

/-- `Deserialize for Vec<u8>` (ser.rs:174-184). -/
def vecDeOn {σ : Type} (w : Nat) (next : Rd σ UInt8) : Rd σ (List UInt8) := do
  let len ← usizeDeOn w next
  readN next len

/-- `Deserialize for image::Rgb<u8>` (ser.rs:216-222). -/
def rgbDeOn {σ : Type} (w : Nat) (next : Rd σ UInt8) : Rd σ (Rgb UInt8) := do
  let vec ← vecDeOn w next
  match vec with
  | [r, g, b] => pure ⟨r, g, b⟩
  | _ => Rd.none

/-- `Serialize` and `Deserialize` for `image::Rgb<u8>` (ser.rs:210-222). -/
def rgbSerOn (w : Nat) : Ser (Rgb UInt8) where
  ser := ser
  de := rgbDeOn w

/-- `Serialize` and `Deserialize for ColorPos` (clusterc.rs:250-272). -/
def colorPosSerOn (w : Nat) : Ser ColorPos where
  ser := ser
  de next := do
    let x ← de next
    let y ← de next
    let color ← rgbDeOn w next
    pure { x, y, color }

/-- `Hufman::decode` (hufc.rs:19-40), `ClusterColors::decode` (clusterc.rs:55-57). -/
def hufmanDecodeOn (w : Nat) : Rd (List UInt8) RgbImage := do
  let (_, img) ← createImageBufferStandard listNext
  let dec ← @BinTrie.de _ (rgbSerOn w)
  let pixels ← borrowing (fun reader => { dec := dec, bits := bitReader reader }) (fun s => s.bits.bytes)
    (hufmanFill img.pixels.length)
  pure { img with pixels := pixels }

/-- `Voronoi::decode` (clusterc.rs:168-189). -/
def voronoiDecodeOn (w : Nat) (chk : Bool) : Rd (List UInt8) RgbImage := do
  let dims : UInt32 × UInt32 ← de listNext
  let img ← orPanic (RgbImage.new dims.1 dims.2)
  let ncentroids ← usizeDeOn w listNext
  let centroids ← @readN ColorPos _ (colorPosSerOn w) listNext ncentroids
  let px ← orPanic (optMap (fun i =>
    pixelColor chk centroids (UInt32.ofNat (i % dims.1.toNat)) (UInt32.ofNat (i / dims.1.toNat)))
    (List.range (dims.1.toNat * dims.2.toNat)))
  pure { img with pixels := px }

/-- `RleDecoder::next` (hilbertc.rs:323-332). -/
def RleDecoder.nextOn (w : Nat) : Rd RleDecoder (Rgb UInt8) := fun d =>
  if d.count = 0 then
    match (de listNext d.bytes : Ret Unit UInt8 × List UInt8) with
    | (.ok count, bytes) =>
      if count > 0 then
        match rgbDeOn w listNext bytes with
        | (.ok color, bytes) => (.ok color, { bytes := bytes, currColor := color, count := count - 1 })
        | (_, bytes) => (.panic, { d with bytes := bytes, count := count })
      else (.panic, { d with bytes := bytes, count := count })
    | (.err _, bytes) => (.err (), { d with bytes := bytes })
    | (.panic, bytes) => (.panic, { d with bytes := bytes })
  else (.ok d.currColor, { d with count := d.count - 1 })

/-- `Hilbert::decode` (hilbertc.rs:55-79). -/
def hilbertDecodeOn (w : Nat) (scan : Scan) (m : CompressionMethod) : Rd (List UInt8) RgbImage := do
  let dimensions : UInt32 × UInt32 ← de listNext
  match m with
  | .rle _ => borrowing RleDecoder.new (fun s => s.bytes) (decodeAny scan (RleDecoder.nextOn w) dimensions)
  | .zip => borrowing zipDictDecode (fun s => s.encoded) (decodeAny scan (rgbDeOn w DictDecoder.next) dimensions)

/-- The part of `Zip::decode` after the choice of the decoder (`rebuild_image`, zipc.rs:28-36). -/
def rebuildImageOn {σ : Type} (w : Nat) (next : Rd σ UInt8) : Rd σ RgbImage := do
  let dims : UInt32 × UInt32 ← de next
  let img ← orPanic (RgbImage.new dims.1 dims.2)
  let pixels ← @readN (Rgb UInt8) _ (rgbSerOn w) next img.pixels.length
  pure { img with pixels := pixels }

/-- `Zip::decode` (zipc.rs:27-48). -/
def zipDecodeOn (w : Nat) (z : Zip) : Rd (List UInt8) RgbImage :=
  match z with
  | .dict => borrowing zipDictDecode (fun s => s.encoded) (rebuildImageOn w DictDecoder.next)
  | .back => borrowing (Back.zipBackDecode Back.ringSize) (fun s => s.iter) (rebuildImageOn w Back.Decoder.next)

/-- `AnyCodec::decode` (codec.rs:72-78).  There are no lengths in the files of the delta codec. -/
def AnyCodec.decodeOn (w : Nat) (p : Setup) (c : AnyCodec) : Rd (List UInt8) RgbImage :=
  match c with
  | .clusterColors _ => hufmanDecodeOn w
  | .voronoi _ => voronoiDecodeOn w p.chk
  | .delta => deltaDecodeFrom p.chk p.scan
  | .hilbert m => hilbertDecodeOn w p.scan m
  | .hufman => hufmanDecodeOn w
  | .zip z => zipDecodeOn w z

end Cniic
