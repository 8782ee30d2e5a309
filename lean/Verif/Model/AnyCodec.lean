import Verif.Model.Clusterc
import Verif.Model.Codec
import Verif.Model.Hilbertc
import Verif.Model.Hufc
import Verif.Model.Zipc

/-!
# Model of `impl Codec for AnyCodec` (`src/codec.rs`)

The macro `gen_codec_impl` hands each call to the codec in the enum.  `Setup` holds everything the codecs
take from the outside.
-/

namespace Cniic
open Kmeans

/-- What the codecs take from outside: the compilation mode, `zhang_hilbert`, `BinaryHeap`, the iteration orders of
the hash maps, the growth of a `Vec`, and the parameters of clustering. -/
structure Setup where
  chk        : Bool
  scan       : Scan
  heapRgb    : MinHeap (Rgb UInt8)
  heapDiff   : MinHeap SignedColor
  /-- the map of `color_counts` -/
  orderColor : List (Rgb UInt8 × Nat) → List (Rgb UInt8 × Nat)
  /-- the map of `count_freqs` on colours -/
  orderRgb   : List (Rgb UInt8 × Nat) → List (Rgb UInt8 × Nat)
  /-- the map of `count_freqs` on colour differences -/
  orderDiff  : List (SignedColor × Nat) → List (SignedColor × Nat)
  cap        : Back.Caps
  out        : Outside

/-- `AnyCodec::encode` (codec.rs:64-70).  What is returned is the writing part, which runs on the given writer.
`.err` means that clustering has not ended after `fuel` iterations, `.panic` that it panicked; in both cases nothing
is written. -/
def AnyCodec.encode (p : Setup) (fuel : Nat) (c : AnyCodec) (img : Img) : Ret Unit (W Unit) :=
  match c with
  | .clusterColors n => clusterColorsEncode p.out p.chk p.orderColor p.orderRgb p.heapRgb fuel n img
  | .voronoi n => voronoiEncode p.out p.chk fuel n img
  | .delta => .ok (deltaEncode p.chk p.scan p.heapDiff p.orderDiff img)
  | .hilbert m => .ok (hilbertEncode p.scan p.out.fl m img)
  | .hufman => .ok (hufmanEncode p.heapRgb p.orderRgb img)
  | .zip z => .ok (zipEncode p.cap z img)

/-- `AnyCodec::decode` (codec.rs:72-78) on the bytes of a file; `.err` is `None`. -/
def AnyCodec.decode (p : Setup) (c : AnyCodec) (bytes : List UInt8) : Ret Unit RgbImage :=
  match c with
  | .clusterColors _ => clusterColorsDecode bytes
  | .voronoi _ => voronoiDecode p.chk bytes
  | .delta => deltaDecode p.chk p.scan bytes
  | .hilbert m => hilbertDecode p.scan m bytes
  | .hufman => hufmanDecode bytes
  | .zip z => zipDecode z bytes

end Cniic
