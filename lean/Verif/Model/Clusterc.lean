import Verif.Model.Kmeans
import Verif.Model.Hufc

/-!
# Model of `src/codec/clusterc.rs` and of `src/geom.rs`

`chk` says whether the program was compiled with overflow checks (`debug` profile); without them unsigned
arithmetic wraps around.  In `Ret Unit (W Unit)`, the result of an encoder, `err` stands for a loop that used up
its fuel, `panic` for a panic before anything was written, and `ok` for the calls that write the file.
-/

namespace Cniic
open Kmeans

/-! ## Unsigned arithmetic -/

/-- `a - b` on `u32`. -/
def u32Sub (chk : Bool) (a b : UInt32) : Option UInt32 :=
  if chk && decide (a.toNat < b.toNat) then none else some (a - b)

/-- `a.pow(2)` on `u32`. -/
def u32Sq (chk : Bool) (a : UInt32) : Option UInt32 :=
  if chk && decide (2 ^ 32 ≤ a.toNat * a.toNat) then none else some (a * a)

/-- `a + b` on `u32`. -/
def u32Add (chk : Bool) (a b : UInt32) : Option UInt32 :=
  if chk && decide (2 ^ 32 ≤ a.toNat + b.toNat) then none else some (a + b)

/-- `a + b` on `u64`. -/
def u64Add (chk : Bool) (a b : UInt64) : Option UInt64 :=
  if chk && decide (2 ^ 64 ≤ a.toNat + b.toNat) then none else some (a + b)

/-! ## Colours -/

/-- `Distance for Rgb<u8>` (geom.rs:8-24).  The squares are integers below 2^16, exact as `i32` and as `f64`. -/
def rgbDist (fl : FloatOps) (a b : Rgb UInt8) : Rat :=
  let f (x y : UInt8) : Rat := (((x.toNat : Int) - y.toNat) * ((x.toNat : Int) - y.toNat) : Int)
  fl.sqrt (fl.add (fl.add (f a.r b.r) (f a.g b.g)) (f a.b b.b))

/-- `struct ColorCount` (clusterc.rs:69-72). -/
structure ColorCount where
  color : Rgb UInt8
  count : UInt32
  deriving DecidableEq

/-- `Distance for ColorCount` (clusterc.rs:74-79). -/
def ColorCount.dist (fl : FloatOps) (a b : ColorCount) : Rat := rgbDist fl a.color b.color

/-- The sums of `ColorCount::mean` (clusterc.rs:92-100): red, green, blue, weight.  The products are below
2^40. -/
def weighedSums (chk : Bool) : List ColorCount → UInt64 × UInt64 × UInt64 × UInt64 →
    Option (UInt64 × UInt64 × UInt64 × UInt64)
  | [], x => some x
  | y :: ys, (r, g, b, n) => do
    let count := UInt64.ofNat y.count.toNat
    let r ← u64Add chk r (UInt64.ofNat y.color.r.toNat * count)
    let g ← u64Add chk g (UInt64.ofNat y.color.g.toNat * count)
    let b ← u64Add chk b (UInt64.ofNat y.color.b.toNat * count)
    let n ← u64Add chk n count
    weighedSums chk ys (r, g, b, n)

/-- `ColorCount::mean` (clusterc.rs:83-113).  Dividing by a total weight of 0 panics. -/
def ColorCount.mean (chk : Bool) : List ColorCount → Ret Unit ColorCount
  | [] => .err ()
  | [p] => .ok p
  | points =>
    match weighedSums chk points (0, 0, 0, 0) with
    | none => .panic
    | some (r, g, b, n) =>
      if n = 0 then .panic
      else .ok { color := ⟨(r / n).toUInt8, (g / n).toUInt8, (b / n).toUInt8⟩, count := 1 }

/-- What clustering takes from outside besides the points: `sort_unstable_by`, `(n as f32).sqrt() as usize` and the random
numbers (see `Kmeans.Env`). -/
structure Outside where
  fl    : FloatOps
  sort  : List (Nat × Rat) → List (Nat × Rat)
  lower : Nat → Nat
  rand  : Nat → Nat

/-- Clustering of colours. -/
def colorEnv (o : Outside) (chk : Bool) : Env ColorCount where
  pt := { dist := fun a b => some (a.dist o.fl b), mean := ColorCount.mean chk }
  fl := o.fl
  sort := o.sort
  lower := o.lower
  rand := o.rand

/-! ## cluster-colors -/

/-- `color_counts` (clusterc.rs:21-24); the count is cut to 32 bits.  `hashOrder` is the order in which the map is
iterated. -/
def colorCounts (hashOrder : List (Rgb UInt8 × Nat) → List (Rgb UInt8 × Nat)) (img : Img) : List ColorCount :=
  (hashOrder (countFreqs img.rgbPixels)).map fun p => { color := p.1, count := UInt32.ofNat p.2 }

/-- `reduced_colors` (clusterc.rs:31-40) as the list of the pairs it is made from. -/
def reducedColors (cl : Clusters ColorCount) : List (Rgb UInt8 × Rgb UInt8) :=
  cl.intoIter.flatMap fun (centroid, pts) => pts.map fun p => (p.color, centroid.color)

/-- `HashMap::get` in a map made from pairs: of equal keys the last one counts. -/
def lastLookup (m : List (Rgb UInt8 × Rgb UInt8)) (c : Rgb UInt8) : Option (Rgb UInt8) :=
  (m.reverse.find? fun e => e.1 == c).map (·.2)

/-- A value per item, or nothing as soon as one is missing. -/
def optMap {α β : Type} (f : α → Option β) : List α → Option (List β)
  | [] => some []
  | a :: as => do
    let b ← f a
    let bs ← optMap f as
    some (b :: bs)

/-- `reduced_img` (clusterc.rs:43-49).  `none` is a panic: no room for the image, or (line 45) a colour without
cluster. -/
def reducedImg (m : List (Rgb UInt8 × Rgb UInt8)) (img : Img) : Option RgbImage := do
  let buf ← RgbImage.new img.width img.height
  let px ← optMap (lastLookup m) img.rgbPixels
  some { buf with pixels := px }

/-- An RGB image as input of an encoder: all pixels are opaque. -/
def RgbImage.toImg (img : RgbImage) (h : img.pixels.length = img.width.toNat * img.height.toNat) : Img where
  width := img.width
  height := img.height
  pixels := img.pixels.map fun c => ⟨c.r, c.g, c.b, 255⟩
  size := by simpa using h

/-- `ClusterColors::encode` (clusterc.rs:18-53).  `ho1`, `ho2`: the hash orders here and in `Hufman::encode`. -/
def clusterColorsEncode (o : Outside) (chk : Bool) (ho1 ho2 : List (Rgb UInt8 × Nat) → List (Rgb UInt8 × Nat))
    (M : MinHeap (Rgb UInt8)) (fuel : Nat) (n : UInt64) (img : Img) : Ret Unit (W Unit) := do
  let clusters ← cluster (colorEnv o chk) fuel (colorCounts ho1 img) n.toNat
  let reduced ← Ret.expect (reducedImg (reducedColors clusters) img)
  if h : reduced.pixels.length = reduced.width.toNat * reduced.height.toNat then
    .ok (hufmanEncode M ho2 (reduced.toImg h))
  else .panic

/-- `ClusterColors::decode` (clusterc.rs:55-57). -/
def clusterColorsDecode (bytes : List UInt8) : Ret Unit RgbImage := hufmanDecode bytes

/-! ## voronoi -/

/-- `struct ColorPos` (clusterc.rs:200-204). -/
structure ColorPos where
  x : UInt32
  y : UInt32
  color : Rgb UInt8
  deriving DecidableEq

/-- `Distance for ColorPos` (clusterc.rs:206-213). -/
def ColorPos.dist (fl : FloatOps) (chk : Bool) (a b : ColorPos) : Option Rat := do
  let dx ← u32Sub chk a.x b.x
  let d ← u32Sq chk dx
  let dy ← u32Sub chk a.y b.y
  let dy2 ← u32Sq chk dy
  let d := fl.add d.toNat dy2.toNat
  let d := fl.add d (fl.powi2 (rgbDist fl a.color b.color))
  some (fl.sqrt d)

/-- The sums of `ColorPos::mean` (clusterc.rs:221-230): x, y, red, green, blue. -/
def posSums (chk : Bool) : List ColorPos → UInt64 × UInt64 × UInt64 × UInt64 × UInt64 →
    Option (UInt64 × UInt64 × UInt64 × UInt64 × UInt64)
  | [], s => some s
  | p :: ps, (x, y, r, g, b) => do
    let x ← u64Add chk x (UInt64.ofNat p.x.toNat)
    let y ← u64Add chk y (UInt64.ofNat p.y.toNat)
    let r ← u64Add chk r (UInt64.ofNat p.color.r.toNat)
    let g ← u64Add chk g (UInt64.ofNat p.color.g.toNat)
    let b ← u64Add chk b (UInt64.ofNat p.color.b.toNat)
    posSums chk ps (x, y, r, g, b)

/-- `ColorPos::mean` (clusterc.rs:216-247). -/
def ColorPos.mean (chk : Bool) (points : List ColorPos) : Ret Unit ColorPos :=
  if points.length = 0 then .err ()
  else
    match posSums chk points (0, 0, 0, 0, 0) with
    | none => .panic
    | some (x, y, r, g, b) =>
      let n := UInt64.ofNat points.length
      .ok { x := (x / n).toUInt32, y := (y / n).toUInt32,
            color := ⟨(r / n).toUInt8, (g / n).toUInt8, (b / n).toUInt8⟩ }

/-- Clustering of pixels. -/
def posEnv (o : Outside) (chk : Bool) : Env ColorPos where
  pt := { dist := ColorPos.dist o.fl chk, mean := ColorPos.mean chk }
  fl := o.fl
  sort := o.sort
  lower := o.lower
  rand := o.rand

/-- `Serialize`, `Deserialize for ColorPos` (clusterc.rs:250-272). -/
instance : Ser ColorPos where
  ser p := do
    ser p.x
    ser p.y
    ser p.color
  de next := do
    let x ← de next
    let y ← de next
    let color ← de next
    pure { x, y, color }

/-- `data_points` (clusterc.rs:150-152); the pixels come row by row. -/
def dataPoints (img : Img) : List ColorPos :=
  img.rgbPixels.zipIdx.map fun (c, i) =>
    { x := UInt32.ofNat (i % img.width.toNat), y := UInt32.ofNat (i / img.width.toNat), color := c }

/-- `VoronoiCluster::encode` (clusterc.rs:148-166). -/
def voronoiEncode (o : Outside) (chk : Bool) (fuel : Nat) (n : UInt64) (img : Img) : Ret Unit (W Unit) := do
  let clusters ← cluster (posEnv o chk) fuel (dataPoints img) n.toNat
  .ok (do
    ser img.width
    ser img.height
    ser (Usize.mk n)
    Proc.forEach ser (clusters.intoIter.map (·.1)))

/-- The key of a centroid for a pixel (clusterc.rs:183). -/
def pixelKey (chk : Bool) (x y : UInt32) (c : ColorPos) : Option UInt32 := do
  let dx ← u32Sub chk c.x x
  let dx2 ← u32Sq chk dx
  let dy ← u32Sub chk c.y y
  let dy2 ← u32Sq chk dy
  u32Add chk dx2 dy2

/-- `min_by_key` over the items to come, given the best one so far and its key: a later item wins only if its key
is smaller.  `none` is a panic in the key function. -/
def minByKey {α : Type} (key : α → Option UInt32) : List α → α → UInt32 → Option α
  | [], best, _ => some best
  | a :: as, best, k => do
    let k' ← key a
    if k'.toNat < k.toNat then minByKey key as a k' else minByKey key as best k

/-- The colour of a pixel (clusterc.rs:180-186); no centroid is a panic. -/
def pixelColor (chk : Bool) (centroids : List ColorPos) (x y : UInt32) : Option (Rgb UInt8) :=
  match centroids with
  | [] => none
  | c :: cs => do
    let k ← pixelKey chk x y c
    let best ← minByKey (pixelKey chk x y) cs c k
    some best.color

/-- `VoronoiCluster::decode` (clusterc.rs:168-189) on the bytes of a file. -/
def voronoiDecode (chk : Bool) (bytes : List UInt8) : Ret Unit RgbImage :=
  (Proc.run (do
    let dims : UInt32 × UInt32 ← de listNext
    let img ← orPanic (RgbImage.new dims.1 dims.2)
    let ncentroids : Usize ← de listNext
    let centroids : List ColorPos ← readN listNext ncentroids.val.toNat
    let px ← orPanic (optMap (fun i =>
      pixelColor chk centroids (UInt32.ofNat (i % dims.1.toNat)) (UInt32.ofNat (i / dims.1.toNat)))
      (List.range (dims.1.toNat * dims.2.toNat)))
    pure { img with pixels := px } : Rd (List UInt8) RgbImage) bytes).1

end Cniic
