import Verif.Model.Run

/-! # What is expected of the files of a benchmark -/

namespace Cniic.Spec
open Cniic

/-- What the work on each image gives if it is the only one: its outcome, and the picture with the file it is saved in. -/
def alone {Node : Type} (host : Host Node) (p : Setup) (fuel : Nat) (c : AnyCodec) (disk : Node → Option Img)
    (path : List Char) : Ret Failure Row × Option (Node × RgbImage) :=
  let w := workOn host p fuel c path (disk (host.node path))
  (w.1, match w.2, host.pictureOf path with
    | some d, some f => some (f, d)
    | _, _ => none)

/-- The outcomes by position on the command line. -/
def aloneAt {Node : Type} (host : Host Node) (p : Setup) (fuel : Nat) (c : AnyCodec) (disk : Node → Option Img)
    (paths : List (List Char)) (i : Nat) : Ret Failure Row :=
  match paths[i]? with
  | some path => (alone host p fuel c disk path).1
  | none => .panic

/-- No picture is saved in the place of an image to be measured. -/
def InputsSafe {Node : Type} (host : Host Node) (p : Setup) (fuel : Nat) (c : AnyCodec) (disk : Node → Option Img)
    (paths : List (List Char)) : Prop :=
  ∀ path ∈ paths, ∀ f d, (alone host p fuel c disk path).2 = some (f, d) → ∀ path' ∈ paths, host.node path' ≠ f

/-- Pictures saved in the same file are equal. -/
def PicturesAgree {Node : Type} (host : Host Node) (p : Setup) (fuel : Nat) (c : AnyCodec) (disk : Node → Option Img)
    (paths : List (List Char)) : Prop :=
  ∀ path ∈ paths, ∀ path' ∈ paths, ∀ f d d', (alone host p fuel c disk path).2 = some (f, d) →
    (alone host p fuel c disk path').2 = some (f, d') → d = d'

/-- All images have been worked on. -/
def Worked {Node : Type} (paths : List (List Char)) (s : Run Node) : Prop := ∀ i, i < paths.length → s.result i ≠ none

end Cniic.Spec
