import Verif.Spec.Kmeans

/-!
# Specification: what is counted of the points in one pass
-/

namespace Cniic.Spec.Kmeans
open Cniic.Kmeans

variable {T : Type}

/-- What there is to count of the point `p.2` of the cluster `p.1`: nothing if it is within half the distance to the nearest
listed neighbour; otherwise the number of neighbours looked at, with the first one beyond the cutoff, and whether there is such a
one. -/
def look (env : Env T) (cs : List T) (ns : List Neigh) (p : Nat × T) : Option (Nat × Bool) :=
  match cs[p.1]?, ns[p.1]? with
  | some c, some g =>
    match env.pt.dist c p.2 with
    | some d =>
      if g.neighbours.head?.all fun e => decide (d ≤ env.fl.div e.2 2) then none
      else
        let w := within g (env.fl.mul 2 d)
        some (if w < g.neighbours.length then (w + 1, true) else (w, false))
    | none => none
  | _, _ => none

/-- The numbers of neighbours looked at for those of the points that are not within the radius. -/
def tests (env : Env T) (cs : List T) (ns : List Neigh) (ps : List (Nat × T)) : List Nat :=
  ps.filterMap fun p => (look env cs ns p).map Prod.fst

/-- The largest of some numbers, 0 if there are none. -/
def largest (l : List Nat) : Nat := l.foldr max 0

/-- The points of the cluster `i`, with its number. -/
def ofCluster (asg : List (List T)) (i : Nat) : List (Nat × T) := (tagged asg).filter fun p => p.1 == i

end Cniic.Spec.Kmeans
