import Verif.Model.AnyCodec
import Verif.Model.Bench

/-!
# The iterator `GenericImageView::pixels` (crate `image` 0.24)

In the rest of the model a picture *has* its pixels as a list.  The code gets them one at a time, from an
iterator which walks through the rows and asks for each pixel by its coordinates (hufc.rs:15, zipc.rs:18-19,
clusterc.rs:19, 150, bench.rs:96-99).  Here that iterator is modelled as such, and with it the encoders
which use it.  The source of the crate is not at hand; the iterator is written down as we know it:

```
if self.x >= self.width { self.x = 0; self.y += 1; }
if self.y >= self.height { None }
else { let pixel = self.image.get_pixel(self.x, self.y); let p = (self.x, self.y, pixel); self.x += 1; Some(p) }
```
-/

namespace Cniic
open Bench

/-- `Iterator::next` of `image::Pixels` (crate `image`; used at hufc.rs:15, zipc.rs:18-19, clusterc.rs:19, 150,
bench.rs:96-99) for a `w × h` picture whose pixels `get` returns; the state is the pair `self.x`, `self.y`.
`.err` is the end.  The coordinates are `u32` there; they do not exceed the dimensions. -/
def pixelsNext {α : Type} (w h : Nat) (get : Nat → Nat → Option α) : Rd (Nat × Nat) (Nat × Nat × α) := fun s =>
  let s := if w ≤ s.1 then (0, s.2 + 1) else s
  if h ≤ s.2 then (.err (), s)
  else
    match get s.1 s.2 with
    | some px => (.ok (s.1, s.2, px), (s.1 + 1, s.2))
    | none => (.panic, s)

/-- A loop over such an iterator until it ends (as in utils.rs:9-14, clusterc.rs:150-152); `none` is a
panic.  With fuel, of which `w * h + 1` is enough (`C129_pixels`, `C129_panic`). -/
def pixelsFrom {α : Type} (w h : Nat) (get : Nat → Nat → Option α) :
    Nat → Nat × Nat → Option (List (Nat × Nat × α))
  | 0, _ => none
  | fuel + 1, s =>
    match pixelsNext w h get s with
    | (.ok px, s) => (pixelsFrom w h get fuel s).map (px :: ·)
    | (.err _, _) => some []
    | (.panic, _) => none

/-- What `img.pixels()` yields (hufc.rs:15, zipc.rs:18-19, clusterc.rs:19, 150, bench.rs:96); `none` is a panic. -/
def Img.seen (img : Img) : Option (List (Nat × Nat × Rgba)) :=
  pixelsFrom img.width.toNat img.height.toNat img.getPixel (img.width.toNat * img.height.toNat + 1) (0, 0)

/-- `get_pixel` of a decoded picture (bench.rs:98-99, inside of `pixels`); `none` = panic (out of bounds). -/
def RgbImage.getPixel (img : RgbImage) (x y : Nat) : Option (Rgb UInt8) :=
  if x < img.width.toNat ∧ y < img.height.toNat then img.pixels[y * img.width.toNat + x]? else none

/-- What `y.pixels()` yields for a decoded picture, with the colours `to_rgb` (bench.rs:98-99). -/
def RgbImage.seen (img : RgbImage) : Option (List (Nat × Nat × Rgb UInt8)) :=
  pixelsFrom img.width.toNat img.height.toNat img.getPixel (img.width.toNat * img.height.toNat + 1) (0, 0)

/-- The picture made of what the iterator yields. -/
def Img.collected (img : Img) : Option Img := do
  let l ← img.seen
  if h : (l.map (·.2.2)).length = img.width.toNat * img.height.toNat then
    some { width := img.width, height := img.height, pixels := l.map (·.2.2), size := h }
  else none

/-- `AnyCodec::encode` (codec.rs:72-78) with the pixels taken from the iterator.  `Delta` and `Hilbert` do not use
it: they ask for pixels along the curve (hilbertc.rs:29, 410).  The Hufman codec writes the dimensions first
(hufc.rs:13); the clustering codecs iterate before they write anything (clusterc.rs:19-25, 150-157).  For the
zip codecs what has been written before the panic is left out (zipc.rs:16-25). -/
def AnyCodec.encodeSeen (p : Setup) (fuel : Nat) (c : AnyCodec) (img : Img) : Ret Unit (W Unit) :=
  match c, img.collected with
  | .delta, _ => AnyCodec.encode p fuel .delta img
  | .hilbert m, _ => AnyCodec.encode p fuel (.hilbert m) img
  | c, some img => AnyCodec.encode p fuel c img
  | .hufman, none => .ok (do ser (img.width, img.height); Proc.panic)
  | .zip _, none => .ok Proc.panic
  | .clusterColors _, none => .panic
  | .voronoi _, none => .panic

/-- `compute_error` (bench.rs:95-104) with the pixels taken from the iterators.  `zip` asks the first of them
first, and the second only if there is a pixel; `none` is a panic. -/
def computeErrorSeen (fl : FloatOps) (chk : Bool) (x : Img) (y : RgbImage) : Option F64 := do
  let xs ← x.seen
  let ys ← if xs.isEmpty then some [] else y.seen
  let tot := fl.sum ((xs.zip ys).map fun (px, py) => fl.powi2 (rgbDist fl px.2.2.toRgb py.2.2))
  let n ← u32Mul chk x.width x.height
  some (fl.quot tot n.toNat)

/-! ## Drawing

`ImageBuffer::enumerate_pixels_mut` goes through the rows in the same way, but stops when there is no pixel left:

```
if self.x >= self.width { self.x = 0; self.y += 1; }
let (x, y) = (self.x, self.y); self.x += 1;
self.pixels.next().map(|p| (x, y, p))
```
-/

/-- A loop over `enumerate_pixels_mut` (clusterc.rs:180-186; also inside `ImageBuffer::from_fn`, clusterc.rs:43-47) which
sets each pixel to what `f` says; `none` is a panic.  `x`, `y` are the fields of the iterator. -/
def drawRows {α β : Type} (w : Nat) (f : Nat → Nat → Option β) : List α → Nat → Nat → Option (List β)
  | [], _, _ => some []
  | _ :: rest, x, y => do
    let s := if w ≤ x then (0, y + 1) else (x, y)
    let c ← f s.1 s.2
    let cs ← drawRows w f rest (s.1 + 1) s.2
    some (c :: cs)

/-- `VoronoiCluster::decode` (clusterc.rs:168-189) with that loop. -/
def voronoiDecodeRows (chk : Bool) (bytes : List UInt8) : Ret Unit RgbImage :=
  (Proc.run (do
    let dims : UInt32 × UInt32 ← de listNext
    let img ← orPanic (RgbImage.new dims.1 dims.2)
    let ncentroids : Usize ← de listNext
    let centroids : List ColorPos ← readN listNext ncentroids.val.toNat
    let px ← orPanic (drawRows dims.1.toNat
      (fun x y => pixelColor chk centroids (UInt32.ofNat x) (UInt32.ofNat y)) img.pixels 0 0)
    pure { img with pixels := px } : Rd (List UInt8) RgbImage) bytes).1

/-- `ImageBuffer::from_fn` as in `ClusterColors::encode` (clusterc.rs:43-47): a new picture whose pixels are the new colours
of those of `img`; `none` is a panic, from line 44 or line 45 or for want of room. -/
def reducedImgRows (map : List (Rgb UInt8 × Rgb UInt8)) (img : Img) : Option RgbImage := do
  let buf ← RgbImage.new img.width img.height
  let px ← drawRows img.width.toNat (fun x y => (img.getPixel x y).bind fun c => lastLookup map c.toRgb) buf.pixels 0 0
  some { buf with pixels := px }

end Cniic
