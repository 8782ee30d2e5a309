import Verif.Spec.Huf
import Verif.Spec.Image
import Verif.Model.Clusterc

/-!
# Specification: what arbitrary bytes decode to
-/

namespace Cniic.Spec

/-- The number written with these bytes, least significant first. -/
def num : List UInt8 → Nat
  | [] => 0
  | b :: bs => b.toNat + 256 * num bs

/-- A file that starts with the size of the image: `None` if there are fewer than 8 bytes, a panic if the pixels do
not fit in memory, otherwise the rest of the file is decoded as `f` says. -/
def withSize (file : List UInt8) (f : UInt32 → UInt32 → List UInt8 → Ret Unit RgbImage) : Ret Unit RgbImage :=
  let w := UInt32.ofNat (num (file.take 4))
  let h := UInt32.ofNat (num ((file.drop 4).take 4))
  if file.length < 8 then .err ()
  else if 2 ^ 63 ≤ 3 * (w.toNat * h.toNat) then .panic
  else f w h (file.drop 8)

/-- The colours that runs written one after the other stand for, and whether the bytes end after a run (`true`) or with
something that is not a run. -/
def rleColors : List UInt8 → List (Rgb UInt8) × Bool
  | [] => ([], true)
  | n :: 3 :: 0 :: 0 :: 0 :: 0 :: 0 :: 0 :: 0 :: r :: g :: b :: rest =>
    if n = 0 then ([], false)
    else
      let m := rleColors rest
      (List.replicate n.toNat ⟨r, g, b⟩ ++ m.1, m.2)
  | _ :: _ => ([], false)

/-- The colours written one after the other in a stream that gives these bytes and then `None` (`ends`) or a panic; and
whether the next attempt to read a colour gives `None` (`true`) or a panic.  It gives `None` when something complete
of another length than 3 follows, without looking further. -/
def recColors (ends : Bool) : List UInt8 → List (Rgb UInt8) × Bool
  | 3 :: 0 :: 0 :: 0 :: 0 :: 0 :: 0 :: 0 :: r :: g :: b :: rest =>
    let m := recColors ends rest
    (⟨r, g, b⟩ :: m.1, m.2)
  | l => ([], ends || (8 ≤ l.length && 8 + num (l.take 8) ≤ l.length))

/-- The picture whose pixels along the traversal are these colours, and black when there are no more. -/
def painted (scan : Scan) (w h : UInt32) (cols : List (Rgb UInt8)) : RgbImage :=
  { width := w, height := h
    pixels := (cells w.toNat h.toNat).map fun c => (cols[(scan w.toNat h.toNat).idxOf c]?).getD black }

/-- Painting a picture with colours after which there is `None` (`true`) or a panic (`false`): the latter matters only
if there are too few colours. -/
def paintedOr (scan : Scan) (w h : UInt32) (cols : List (Rgb UInt8) × Bool) : Ret Unit RgbImage :=
  if w.toNat * h.toNat ≤ cols.1.length ∨ cols.2 = true then .ok (painted scan w h cols.1) else .panic

/-- A picture, row by row, in a stream that gives these bytes and then `None` (`ends`) or a panic. -/
def unpacked (ends : Bool) (data : List UInt8) : Ret Unit RgbImage :=
  if data.length < 8 ∧ ends = false then .panic
  else withSize data fun w h rest =>
    let cols := recColors ends rest
    if w.toNat * h.toNat ≤ cols.1.length then
      .ok { width := w, height := h, pixels := cols.1.take (w.toNat * h.toNat) }
    else if cols.2 then .err () else .panic

/-- The first symbol spelled by the bits, and the bits after it. -/
def firstSymbol {T : Type} (t : BinTrie T) (bits : List Bool) : Option (T × List Bool) :=
  (leaves t).findSome? fun p => if p.1 <+: bits then some (p.2, bits.drop p.1.length) else none

/-- The first `n` symbols spelled by the bits, or fewer if there are not that many. -/
def spelled {T : Type} (t : BinTrie T) : Nat → List Bool → List T
  | 0, _ => []
  | n + 1, bits =>
    match firstSymbol t bits with
    | some (x, bits) => x :: spelled t n bits
    | none => []

/-- Is it the value of a colour channel? -/
def isChannel (n : Int) : Bool := 0 ≤ n && n ≤ 255

/-- The colours reached by adding differences one after the other, up to the first one that is no colour (`false` if
there is one). -/
def addUp : Int × Int × Int → List SignedColor → List (Rgb UInt8) × Bool
  | _, [] => ([], true)
  | (r, g, b), d :: ds =>
    let r := r + d.r.toInt
    let g := g + d.g.toInt
    let b := b + d.b.toInt
    if isChannel r && isChannel g && isChannel b then
      let m := addUp (r, g, b) ds
      (⟨UInt8.ofNat r.toNat, UInt8.ofNat g.toNat, UInt8.ofNat b.toNat⟩ :: m.1, m.2)
    else ([], false)

/-- `k` coloured points written one after the other. -/
def pointsIn : Nat → List UInt8 → Option (List ColorPos)
  | 0, _ => some []
  | k + 1, x0 :: x1 :: x2 :: x3 :: y0 :: y1 :: y2 :: y3 :: 3 :: 0 :: 0 :: 0 :: 0 :: 0 :: 0 :: 0 :: r :: g :: b :: rest =>
    match pointsIn k rest with
    | some ps => some (⟨UInt32.ofNat (num [x0, x1, x2, x3]), UInt32.ofNat (num [y0, y1, y2, y3]), ⟨r, g, b⟩⟩ :: ps)
    | none => none
  | _ + 1, _ => none

/-- Coloured points after their number. -/
def centroidsIn (l : List UInt8) : Option (List ColorPos) :=
  if l.length < 8 then none else pointsIn (num (l.take 8)) (l.drop 8)

end Cniic.Spec
