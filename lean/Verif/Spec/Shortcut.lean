import Verif.Model.Clusterc
import Verif.Spec.Kmeans

/-!
# Specification: clustering without the certainty radius

A comment in `assign_points` (kmeans.rs:354) asks to remove the test of the certainty radius as a duplicate of the test in the
loop.  Here is the algorithm with the test removed: the functions of `Model/Kmeans.lean` from `choose` on.
-/

namespace Cniic.Spec.Kmeans
open Cniic.Kmeans

variable {T : Type}

/-- A list of neighbours without its watermark. -/
def entries (g : Neigh) : Nat × List (Nat × Rat) := (g.src, g.neighbours)

/-- Distances for which the test of the certainty radius is a special case of the loop: if `x` is within half of the distance
`r` of `c` to its nearest neighbour, no `t` within the cutoff is nearer to `x` than `c`, as computed. -/
def Tight (env : Env T) (P : T → Prop) : Prop :=
  ∀ c t t0 x dc dt ct r, P c → P t → P t0 → P x → env.pt.dist c x = some dc → env.pt.dist t x = some dt →
    env.pt.dist c t = some ct → env.pt.dist c t0 = some r → r ≤ ct → dc ≤ env.fl.div r 2 → ct ≤ env.fl.mul 2 dc → dc ≤ dt

/-- `choose` without the test. -/
def chooseAll (env : Env T) (cs : List T) (g : Neigh) (cci : Nat) (x : T) : Ret Unit (Nat × Neigh) := do
  let c ← Ret.expect cs[cci]?
  let minDist ← Ret.expect (env.pt.dist c x)
  let (_, j, w) ← scan env.pt cs x (env.fl.mul 2 minDist) g.neighbours 0 minDist cci
  .ok (j, { g with watermark := w })

/-- `assignLoop` with `chooseAll`. -/
def assignLoopAll (env : Env T) (cs : List T) : List (Nat × T) → List (List T) → List Neigh → Bool →
    Ret Unit (List (List T) × List Neigh × Bool)
  | [], asg, ns, change => .ok (asg, ns, change)
  | (cci, x) :: rest, asg, ns, change => do
    let g ← Ret.expect ns[cci]?
    let (j, g) ← chooseAll env cs g cci x
    let ns ← Ret.expect (update ns cci fun _ => g)
    let asg ← Ret.expect (update asg j (· ++ [x]))
    assignLoopAll env cs rest asg ns (change || cci != j)

/-- `assignPoints` with `chooseAll`. -/
def assignPointsAll (env : Env T) (cl : Clusters T) : Ret Unit (Clusters T × Bool) :=
  if cl.centroids.length = cl.assignment.length then do
    let (asg, ns, change) ←
      assignLoopAll env cl.centroids (tagged cl.assignment) (List.replicate cl.centroids.length []) cl.neighbours false
    if cl.assignment.length = 0 then .panic
    else .ok ({ cl with assignment := asg, neighbours := ns }, change)
  else .panic

/-- `iteration` with `chooseAll`. -/
def iterationAll (env : Env T) (fuel : Nat) (cl : Clusters T) (k : Nat) : Ret Unit (Clusters T × Bool × Nat) := do
  let (cl, changed) ← assignPointsAll env cl
  let (cl, k) ← updateCentroids env fuel cl k
  let cl ← updateNeighbours env fuel cl
  .ok (cl, changed, k)

/-- `iterate` with `chooseAll`. -/
def iterateAll (env : Env T) (fuel : Nat) : Nat → Clusters T → Nat → Ret Unit (Clusters T)
  | 0, _, _ => .err ()
  | left + 1, cl, k => do
    let (cl, changed, k) ← iterationAll env fuel cl k
    if changed then iterateAll env fuel left cl k else .ok cl

/-- `cluster` with `chooseAll`. -/
def clusterAll (env : Env T) (fuel : Nat) (points : List T) (n : Nat) : Ret Unit (Clusters T) := do
  let cl ← init env fuel points n
  let cl ← iterateAll env fuel fuel cl 0
  if enoughActive env.fl cl n then .ok cl else .panic

/-- Shades of red, once each. -/
def onlyRed (l : List UInt8) : List ColorCount := l.map fun r => ⟨⟨r, 0, 0⟩, 1⟩

end Cniic.Spec.Kmeans
