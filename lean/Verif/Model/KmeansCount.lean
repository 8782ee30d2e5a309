import Verif.Core.I32
import Verif.Model.Clusterc

/-!
# Model of the counters of `src/kmeans.rs`

`Model/Kmeans.lean` leaves out the counters that only feed messages.  Two of them are `i32` (the default for integer literals:
nothing else fixes their type) and may overflow: the number of iterations (kmeans.rs:25,31,33) and the number of lists that
were replaced in one call of `compute_neighbours` (kmeans.rs:300,313,317).  Here are the functions with these two.  The counters
of `assign_points` (kmeans.rs:337-342) are in `KmeansStats.lean`.  `chk` is whether overflow is checked, as in debug builds.
-/

namespace Cniic
namespace Kmeans

/-- The loop in `compute_neighbours` for one centroid (kmeans.rs:302-315), with `grow_count`. -/
def computeOneCount {T : Type} (chk : Bool) (env : Env T) (cs : List T) : Nat → Neigh → Int32 → Ret Unit (Neigh × Int32)
  | 0, _, _ => .err ()
  | fuel + 1, g, grown => do
    let g ← g.updateDistances env.pt cs
    match Neigh.resize env.lower cs.length { g with neighbours := env.sort g.neighbours } with
    | (g, true) => .ok (g, grown)
    | (g, false) => do
      let grown ← Ret.expect (i32Succ chk grown)
      computeOneCount chk env cs fuel g grown

/-- The loop of `compute_neighbours` (kmeans.rs:301-316), with `grow_count`. -/
def computeNeighboursCount {T : Type} (chk : Bool) (env : Env T) (fuel : Nat) (cs : List T) :
    List Neigh → Int32 → Ret Unit (List Neigh × Int32)
  | [], grown => .ok ([], grown)
  | g :: gs, grown => do
    let (g, grown) ← computeOneCount chk env cs fuel g grown
    let (gs, grown) ← computeNeighboursCount chk env fuel cs gs grown
    .ok (g :: gs, grown)

/-- `init_neighbours` (kmeans.rs:288-295); the counter starts at 0 (kmeans.rs:300). -/
def initNeighboursCount {T : Type} (chk : Bool) (env : Env T) (fuel : Nat) (cs : List T) : Ret Unit (List Neigh) := do
  let (ns, _) ← computeNeighboursCount chk env fuel cs ((List.range cs.length).map fun i => Neigh.new i cs.length) 0
  .ok ns

/-- `update_neighbours` (kmeans.rs:320-323); the counter starts at 0 (kmeans.rs:300). -/
def updateNeighboursCount {T : Type} (chk : Bool) (env : Env T) (fuel : Nat) (cl : Clusters T) : Ret Unit (Clusters T) := do
  let (ns, _) ← computeNeighboursCount chk env fuel cl.centroids cl.neighbours 0
  .ok { cl with neighbours := ns }

/-- `init` (kmeans.rs:80-90). -/
def initCount {T : Type} (chk : Bool) (env : Env T) (fuel : Nat) (points : List T) (n : Nat) : Ret Unit (Clusters T) := do
  let assignment ← initAssignment points n
  let centroids ← initCentroids env.pt assignment
  let neighbours ← initNeighboursCount chk env fuel centroids
  .ok { assignment, centroids, neighbours }

/-- One iteration of the loop of `cluster` (kmeans.rs:26-30), up to the counter. -/
def iterationCount {T : Type} (chk : Bool) (env : Env T) (fuel : Nat) (cl : Clusters T) (k : Nat) :
    Ret Unit (Clusters T × Bool × Nat) := do
  let (cl, changed) ← assignPoints env cl
  let (cl, k) ← updateCentroids env fuel cl k
  let cl ← updateNeighboursCount chk env fuel cl
  .ok (cl, changed, k)

/-- The loop of `cluster` (kmeans.rs:26-32) with the counter `i`. -/
def iterateCount {T : Type} (chk : Bool) (env : Env T) (fuel : Nat) : Nat → Clusters T → Nat → Int32 → Ret Unit (Clusters T)
  | 0, _, _, _ => .err ()
  | left + 1, cl, k, i => do
    let (cl, changed, k) ← iterationCount chk env fuel cl k
    let i ← Ret.expect (i32Succ chk i)
    if changed then iterateCount chk env fuel left cl k i else .ok cl

/-- `cluster` (kmeans.rs:21-39). -/
def clusterCount {T : Type} (chk : Bool) (env : Env T) (fuel : Nat) (points : List T) (n : Nat) : Ret Unit (Clusters T) := do
  let cl ← initCount chk env fuel points n
  let cl ← iterateCount chk env fuel fuel cl 0 0
  if enoughActive env.fl cl n then .ok cl else .panic

end Kmeans

open Kmeans

/-- `ClusterColors::encode` (clusterc.rs:18-53). -/
def clusterColorsEncodeCount (o : Outside) (chk : Bool) (ho1 ho2 : List (Rgb UInt8 × Nat) → List (Rgb UInt8 × Nat))
    (M : MinHeap (Rgb UInt8)) (fuel : Nat) (n : UInt64) (img : Img) : Ret Unit (W Unit) := do
  let clusters ← clusterCount chk (colorEnv o chk) fuel (colorCounts ho1 img) n.toNat
  let reduced ← Ret.expect (reducedImg (reducedColors clusters) img)
  if h : reduced.pixels.length = reduced.width.toNat * reduced.height.toNat then
    .ok (hufmanEncode M ho2 (reduced.toImg h))
  else .panic

/-- `VoronoiCluster::encode` (clusterc.rs:148-166). -/
def voronoiEncodeCount (o : Outside) (chk : Bool) (fuel : Nat) (n : UInt64) (img : Img) : Ret Unit (W Unit) := do
  let clusters ← clusterCount chk (posEnv o chk) fuel (dataPoints img) n.toNat
  .ok (do
    ser img.width
    ser img.height
    ser (Usize.mk n)
    Proc.forEach ser (clusters.intoIter.map (·.1)))

end Cniic
