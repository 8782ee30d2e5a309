import Verif.Model.Ser

/-!
# Model of images and of `create_image_buffer_standard` (`src/codec.rs`)

Of the `image` crate we model what the codecs use.  A `DynamicImage` is what `GenericImageView` shows of
it: its dimensions and its pixels as `Rgba<u8>` in the order of `pixels()`, which is row by row.  (For
images with other channel types the conversion to 8 bits per channel is done by the `image` crate when a
pixel is read.)  An image of width 0 has no pixels here; the iterator of the `image` crate would for
width 0 and height at least 2 ask for the pixel (0, 1), which does not exist, and panic.  (Its readers of
image files do not return such images, as far as we know; see `Model/View.lean` and C129.)  Not modelled: running out of memory.
-/

namespace Cniic

/-- `image::Rgba<u8>`. -/
structure Rgba where
  r : UInt8
  g : UInt8
  b : UInt8
  a : UInt8
  deriving Repr, DecidableEq

/-- `Pixel::to_rgb`: the alpha channel is dropped (used in hufc.rs:15, zipc.rs:19, hilbertc.rs:29,410,
clusterc.rs:19,44,151). -/
def Rgba.toRgb (p : Rgba) : Rgb UInt8 := ⟨p.r, p.g, p.b⟩

/-- `type Img = image::DynamicImage` (codec.rs:12), as an input of an encoder. -/
structure Img where
  width  : UInt32
  height : UInt32
  /-- row by row -/
  pixels : List Rgba
  size   : pixels.length = width.toNat * height.toNat

/-- `img.pixels().map(|(_x, _y, px)| px.to_rgb())` (hufc.rs:15, zipc.rs:18-19, clusterc.rs:19). -/
def Img.rgbPixels (img : Img) : List (Rgb UInt8) := img.pixels.map Rgba.toRgb

/-- `img.get_pixel(x, y)`; `none` = panic (out of bounds). -/
def Img.getPixel (img : Img) (x y : Nat) : Option Rgba :=
  if x < img.width.toNat ∧ y < img.height.toNat then img.pixels[y * img.width.toNat + x]? else none

/-- `image::RgbImage`, i.e. `ImageBuffer<Rgb<u8>, Vec<u8>>`: the result of a decoder. -/
structure RgbImage where
  width  : UInt32
  height : UInt32
  /-- row by row -/
  pixels : List (Rgb UInt8)
  deriving Repr, DecidableEq

/-- A decoder converts its result to a `DynamicImage`, all of whose pixels are opaque; this is what is
visible of an image when the alpha channel is ignored. -/
def Img.toRgb (img : Img) : RgbImage :=
  { width := img.width, height := img.height, pixels := img.rgbPixels }

/-- The colour of a new image. -/
def black : Rgb UInt8 := ⟨0, 0, 0⟩

/-- `ImageBuffer::new(w, h)`: a black image.  `none` = panic: the size of the buffer in bytes must not
exceed `isize::MAX`. -/
def RgbImage.new (w h : UInt32) : Option RgbImage :=
  if 3 * (w.toNat * h.toNat) < 2 ^ 63 then
    some { width := w, height := h, pixels := List.replicate (w.toNat * h.toNat) black }
  else none

/-- `*img.get_pixel_mut(x, y) = color`; `none` = panic (out of bounds). -/
def RgbImage.put (img : RgbImage) (x y : Nat) (color : Rgb UInt8) : Option RgbImage :=
  if x < img.width.toNat ∧ y < img.height.toNat then
    some { img with pixels := img.pixels.set (y * img.width.toNat + x) color }
  else none

/-- A panic if there is no value. -/
def orPanic {ε σ α : Type} : Option α → Proc ε σ α
  | some a => pure a
  | none => Proc.panic

/-- `create_image_buffer_standard` (codec.rs:22-26). -/
def createImageBufferStandard {σ : Type} (next : Rd σ UInt8) :
    Rd σ ((UInt32 × UInt32) × RgbImage) := do
  let dimensions : UInt32 × UInt32 ← de next
  let imgBuffer ← orPanic (RgbImage.new dimensions.1 dimensions.2)
  pure (dimensions, imgBuffer)

end Cniic
