import Verif.Model.AnyCodec

/-!
# Specification: encoding and decoding a picture
-/

namespace Cniic.Spec

/-- Encoding the picture `a` and decoding the file gives the picture `b`; the file is `file`. -/
def Generation (p : Setup) (fuel : Nat) (c : AnyCodec) (a : RgbImage) (file : List UInt8) (b : RgbImage) : Prop :=
  ∃ (h : a.pixels.length = a.width.toNat * a.height.toNat) (m : W Unit),
    c.encode p fuel (a.toImg h) = .ok m ∧ bytesOf m = .ok file ∧ c.decode p file = .ok b

end Cniic.Spec
