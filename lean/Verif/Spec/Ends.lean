import Verif.Spec.Kmeans
import Verif.Spec.Clusterc

/-!
# When clustering ends
-/

namespace Cniic
namespace Spec
namespace Kmeans

open Cniic.Kmeans

/-- A measure of how badly a centroid (the first argument) stands for a point.  It gets smaller when the computed distance does,
and of all centroids with the property `P` the computed mean is the best one for the points it is the mean of. -/
structure Lowers {T : Type} (pt : PointOps T) (P : T → Prop) (points : List T) (cost : T → T → Nat) : Prop where
  nearer : ∀ c t x dc dt, P c → P t → x ∈ points → pt.dist c x = some dc → pt.dist t x = some dt → dt < dc →
    cost t x < cost c x
  mean   : ∀ l c t, Part l points → pt.mean l = .ok c → P t → (l.map (cost c)).sum ≤ (l.map (cost t)).sum

/-- Every one of `n` outcomes comes up again and again. -/
def Fair (rand : Nat → Nat) (n : Nat) : Prop := ∀ i, i < n → ∀ k, ∃ k', k ≤ k' ∧ rand k' % n = i

end Kmeans

/-- The channels of the colour are those of `base`, some of them (those of `mask`) plus the same number. -/
def IsShade (base : Rgb Nat) (mask : Rgb Bool) (c : Rgb UInt8) : Prop :=
  ∃ v : Nat, c.r.toNat = base.r + (if mask.r then v else 0) ∧ c.g.toNat = base.g + (if mask.g then v else 0) ∧
    c.b.toNat = base.b + (if mask.b then v else 0)

/-- All colours of the picture differ by the same amount in some channels, and are equal in the others. -/
def OneTint (img : Img) : Prop := ∃ base mask, ∀ c ∈ img.rgbPixels, IsShade base mask c

/-- The picture has shades of grey only. -/
def Grey (img : Img) : Prop := ∀ c ∈ img.rgbPixels, c.g = c.r ∧ c.b = c.r

end Spec
end Cniic
