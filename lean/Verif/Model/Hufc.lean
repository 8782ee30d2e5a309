import Verif.Model.Image
import Verif.Model.Huf

/-! # Model of `src/codec/hufc.rs` -/

namespace Cniic

/-- `Hufman::encode` (hufc.rs:12-17). -/
def hufmanEncode (M : MinHeap (Rgb UInt8))
    (hashOrder : List (Rgb UInt8 × Nat) → List (Rgb UInt8 × Nat)) (img : Img) : W Unit := do
  ser (img.width, img.height)
  encodeAll M hashOrder img.rgbPixels

/-- The loop of `Hufman::decode` (hufc.rs:24-37) over `n` pixels: their values.  When a symbol is
missing, the stream is asked once more (line 31) before giving up. -/
def hufmanFill : Nat → Rd (DecStream (Rgb UInt8)) (List (Rgb UInt8))
  | 0, s => (.ok [], s)
  | n + 1, s =>
    match DecStream.next s with
    | (.ok x, s) =>
      match hufmanFill n s with
      | (.ok xs, s) => (.ok (x :: xs), s)
      | (.err e, s) => (.err e, s)
      | (.panic, s) => (.panic, s)
    | (.err _, s) =>
      match DecStream.next s with
      | (.panic, s) => (.panic, s)
      | (_, s) => (.err (), s)
    | (.panic, s) => (.panic, s)

/-- Run a call on a stream that has taken over the rest of the input. -/
def onStream {σ τ α : Type} (m : Rd σ α) (s : σ) : Rd τ α := fun t => ((m s).1, t)

/-- `Hufman::decode` (hufc.rs:19-40) on the bytes of a file. -/
def hufmanDecode (bytes : List UInt8) : Ret Unit RgbImage :=
  (Proc.run (do
    let (_, img) ← createImageBufferStandard listNext
    let symbols ← decodeAll
    let pixels ← onStream (hufmanFill img.pixels.length) symbols
    pure { img with pixels := pixels }) bytes).1

end Cniic
