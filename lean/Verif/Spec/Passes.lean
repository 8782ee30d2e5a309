import Verif.Spec.Clusterc
import Verif.Model.Kmeans

/-! # Specification: the error of a clustering of colours -/

namespace Cniic.Spec
open Kmeans

/-- The squared error if every colour is replaced by the centroid of its cluster: for each colour its squared distance from
the centroid, as often as it occurs. -/
def clusterError (cl : Clusters ColorCount) : Nat :=
  ((cl.centroids.zip cl.assignment).map fun e => (e.2.map fun p => p.count.toNat * colorSq p.color e.1.color).sum).sum

example : clusterError ⟨[⟨⟨1, 0, 0⟩, 1⟩, ⟨⟨9, 9, 9⟩, 1⟩], [[⟨⟨0, 0, 0⟩, 3⟩, ⟨⟨1, 2, 0⟩, 2⟩], [⟨⟨9, 9, 9⟩, 7⟩]], []⟩ = 3 * 1 + 2 * 4 := rfl

end Cniic.Spec
