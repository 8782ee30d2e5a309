import Verif.Spec.Kmeans

/-!
# Specification: the graph of the neighbours

"For correctness sake, we better hope that this graph is connected" (kmeans.rs:285).
-/

namespace Cniic.Spec.Kmeans
open Cniic.Kmeans

variable {T : Type}

/-- Some cluster on one side of `S` lists a cluster on the other side. -/
def Crosses (cl : Clusters T) (S : Nat → Bool) : Prop :=
  ∃ (i : Nat) (g : Neigh) (e : Nat × Rat), cl.neighbours[i]? = some g ∧ e ∈ g.neighbours ∧ S i ≠ S e.1

/-- The graph is connected: however the `n` clusters are divided into two sides, some list crosses. -/
def Joined (n : Nat) (cl : Clusters T) : Prop :=
  ∀ S : Nat → Bool, (∃ i, i < n ∧ S i = true) → (∃ i, i < n ∧ S i = false) → Crosses cl S

/-- The points of the clusters on the side `b` of `S`. -/
def side (S : Nat → Bool) (b : Bool) (asg : List (List T)) : List T :=
  (asg.zipIdx.filter fun p => S p.2 == b).flatMap (·.1)

end Cniic.Spec.Kmeans
