import Verif.Model.Hilbertc

/-!
# Specification: images, traversals, runs
-/

namespace Cniic.Spec

/-- The cells `(x, y)` of a rectangle, row by row. -/
def cells (w h : Nat) : List (Nat × Nat) := (List.range (w * h)).map fun i => (i % w, i / w)

/-- The traversal visits each cell of the `w × h` rectangle exactly once. -/
def VisitsOnce (scan : Scan) (w h : Nat) : Prop := (scan w h).Perm (cells w h)

/-- The RGB colour of an image at a cell. -/
def colorAt (img : Img) (c : Nat × Nat) : Rgb UInt8 :=
  (img.rgbPixels[c.2 * img.width.toNat + c.1]?).getD black

/-- The image that agrees with `img` on the first `m` cells of the traversal and is black elsewhere. -/
def restoredPart (scan : Scan) (img : Img) (m : Nat) : RgbImage :=
  { width := img.width, height := img.height
    pixels := (cells img.width.toNat img.height.toNat).map fun c =>
      if c ∈ (scan img.width.toNat img.height.toNat).take m then colorAt img c else black }

/-- An RGB buffer for the image fits in the address space. -/
def Addressable (img : Img) : Prop := 3 * (img.width.toNat * img.height.toNat) < 2 ^ 63

/-- The values that runs stand for. -/
def expandRuns {T : Type} (runs : List (UInt8 × T)) : List T :=
  runs.flatMap fun r => List.replicate r.1.toNat r.2

/-- Neighbouring runs have different values unless the first one is full. -/
def Maximal {T : Type} : List (UInt8 × T) → Prop
  | [] => True
  | [_] => True
  | a :: b :: rest => (a.2 ≠ b.2 ∨ a.1 = 255) ∧ Maximal (b :: rest)

/-- `Greedy ok xs groups`: the sequence `xs` is cut into non-empty groups of at most 255 items.  An item
joins the group before it when `ok` allows it, given the items already in the group, and there is
room. -/
inductive Greedy {T : Type} (ok : List T → T → Prop) : List T → List (List T) → Prop
  | nil : Greedy ok [] []
  | group {g rest groups} : g ≠ [] → g.length ≤ 255 →
      (∀ p x q, g = p ++ x :: q → p ≠ [] → ok p x) →
      (g.length = 255 ∨ ∀ x, rest.head? = some x → ¬ ok g x) →
      Greedy ok rest groups → Greedy ok (g ++ rest) (g :: groups)

/-- An item equals the first one of its group. -/
def sameAsFirst {T : Type} (g : List T) (x : T) : Prop := g.head? = some x

end Cniic.Spec
