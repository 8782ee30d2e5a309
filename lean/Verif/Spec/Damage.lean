import Verif.Spec.Decode

/-! # Specification: damaged files -/

namespace Cniic.Spec

/-- The pixels of a picture in the order of the traversal. -/
def along (scan : Scan) (x : RgbImage) : List (Rgb UInt8) :=
  (scan x.width.toNat x.height.toNat).map fun c => (x.pixels[c.2 * x.width.toNat + c.1]?).getD black

/-- The number of places at which two lists differ. -/
def differences {T : Type} [DecidableEq T] (a b : List T) : Nat :=
  (List.range (max a.length b.length)).countP fun i => decide (a[i]? ≠ b[i]?)

/-- The colour with another value of channel 0, 1 or 2. -/
def setChannel (c : Rgb UInt8) (k : Nat) (v : UInt8) : Rgb UInt8 :=
  match k with
  | 0 => { c with r := v }
  | 1 => { c with g := v }
  | _ => { c with b := v }

example : setChannel ⟨1, 2, 3⟩ 1 9 = ⟨1, 9, 3⟩ := rfl
example : differences [1, 2, 3] [1, 5, 3, 4] = 2 := by decide

end Cniic.Spec
