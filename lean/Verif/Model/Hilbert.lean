import Verif.Model.Image

/-!
# Model of `src/hilbert.rs`

The traversal of a rectangle is computed by the external crate `zhang_hilbert`
(`ArbHilbertScan32::new([w, h])`).  It is a parameter of the model: for each rectangle the list of the
cells in the order of the traversal.  The conversions of line 41 (`try_into().unwrap()`) are taken to succeed: the
dimensions of an image are `u32`s, and the crate is taken to want `u32`s.
-/

namespace Cniic

/-- What `ArbHilbertScan32::new([xdim, ydim])` produces (hilbert.rs:40-43). -/
abbrev Scan := Nat → Nat → List (Nat × Nat)

/-- `img.get(x, y)` for each cell of a list (hilbert.rs:21,31,37 with 60-62); `none` = panic. -/
def getAll (img : Img) : List (Nat × Nat) → Option (List Rgba)
  | [] => some []
  | (x, y) :: cells =>
    match img.getPixel x y, getAll img cells with
    | some p, some ps => some (p :: ps)
    | _, _ => none

/-- `linearize_rect` (hilbert.rs:10-12) with `from_matrix` (hilbert.rs:34-38), exported as `linearize`
(hilbert.rs:6).  The traversal is lazy in the code; here it is computed at once. -/
def linearize (scan : Scan) (img : Img) : Option (List Rgba) :=
  getAll img (scan img.width.toNat img.height.toNat)

/-- The loop of `u32::next_power_of_two`: the first power of two, starting with `p`, that is at least
`n`.  32 steps are enough for a `u32`. -/
def nextPow2From (n : Nat) : Nat → Nat → Nat
  | 0, p => p
  | fuel + 1, p => if n ≤ p then p else nextPow2From n fuel (2 * p)

/-- `u32::next_power_of_two` (used in hilbert.rs:18,27): the smallest power of two that is at least `n`.
When it is 2^32 the result does not fit: a panic with overflow checks (`chk`), 0 without. -/
def nextPowerOfTwo (chk : Bool) (n : Nat) : Option Nat :=
  let p := nextPow2From n 32 1
  if p < 2 ^ 32 then some p else if chk then none else some 0

/-- `linearize_small` (hilbert.rs:15-22); `none` = panic. -/
def linearizeSmall (scan : Scan) (chk : Bool) (img : Img) : Option (List Rgba) :=
  match nextPowerOfTwo chk img.width.toNat, nextPowerOfTwo chk img.height.toNat with
  | some px, some py =>
    let squareOrder := min (px / 2) (py / 2)
    getAll img (scan squareOrder squareOrder)
  | _, _ => none

/-- `linearize_large` (hilbert.rs:25-32); `none` = panic. -/
def linearizeLarge (scan : Scan) (chk : Bool) (img : Img) : Option (List Rgba) :=
  match nextPowerOfTwo chk img.width.toNat, nextPowerOfTwo chk img.height.toNat with
  | some px, some py =>
    let squareOrder := max px py
    getAll img ((scan squareOrder squareOrder).filter fun c =>
      c.1 < img.width.toNat ∧ c.2 < img.height.toNat)
  | _, _ => none

end Cniic
