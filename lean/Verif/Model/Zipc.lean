import Verif.Model.Image
import Verif.Model.ZipDict
import Verif.Model.ZipBack

/-! # Model of `src/codec/zipc.rs` -/

namespace Cniic

/-- `enum Zip` (zipc.rs:9-12). -/
inductive Zip where
  | dict
  | back
  deriving Repr, DecidableEq

/-- The items of a `SerStream`, pulled until `None`; `none` = panic.  `fuel` bounds the number of pulls;
running out of it is reported as a panic (and shown not to happen where used). -/
def drainBytes {σ : Type} (next : Rd σ UInt8) : Nat → σ → Option (List UInt8)
  | 0, _ => none
  | fuel + 1, s =>
    match next s with
    | (.ok b, s) =>
      match drainBytes next fuel s with
      | some bs => some (b :: bs)
      | none => none
    | (.err _, _) => some []
    | (.panic, _) => none

/-- The byte stream that is compressed (zipc.rs:16-19): the dimensions chained with the pixels; `none` =
panic.  The encoders pull these bytes lazily; serializing to memory has no other effect. -/
def zipInput (img : Img) : Option (List UInt8) :=
  match drainBytes SerStream.next 9 (SerStream.fromIter [(img.width, img.height)]),
    drainBytes SerStream.next (11 * img.rgbPixels.length + 1) (SerStream.fromIter img.rgbPixels) with
  | some a, some b => some (a ++ b)
  | _, _ => none

/-- `Zip::encode` (zipc.rs:15-25).  `cap` is the parameter of `Back.zipBackEncode`. -/
def zipEncode (cap : Back.Caps) (z : Zip) (img : Img) : W Unit :=
  match zipInput img with
  | none => Proc.panic
  | some bytes =>
    match z with
    | .dict => zipDictEncode bytes
    | .back => Back.zipBackEncode Back.ringSize cap bytes

/-- `rebuild_image` (zipc.rs:28-36). -/
def rebuildImage {σ : Type} (next : Rd σ UInt8) : Rd σ RgbImage := do
  let dims : UInt32 × UInt32 ← de next
  let img ← orPanic (RgbImage.new dims.1 dims.2)
  let pixels : List (Rgb UInt8) ← readN next img.pixels.length
  pure { img with pixels := pixels }

/-- `Zip::decode` (zipc.rs:27-48) on the bytes of a file. -/
def zipDecode (z : Zip) (bytes : List UInt8) : Ret Unit RgbImage :=
  match z with
  | .dict => (rebuildImage DictDecoder.next (zipDictDecode bytes)).1
  | .back => (rebuildImage Back.Decoder.next (Back.zipBackDecode Back.ringSize bytes)).1

end Cniic
