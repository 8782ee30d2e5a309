import Verif.Core.Proc
import Verif.Core.Float

/-!
# Model of `src/kmeans.rs`

The type of the points is a parameter.  Vectors are lists and indices are natural numbers.  The loops that
end only when some condition holds take the number of iterations granted to them as an argument (`fuel`);
`err` stands for a loop that has used them up (no function here returns an error).  Messages printed to the
console are left out, together with the counters that only feed them (those that may overflow are in `KmeansCount.lean`, those of
`assign_points` in `KmeansStats.lean`).
-/

namespace Cniic

/-- Sequencing of calls. -/
protected def Ret.bind {ε α β : Type} (m : Ret ε α) (f : α → Ret ε β) : Ret ε β :=
  match m with
  | .ok a => f a
  | .err e => .err e
  | .panic => .panic

instance {ε : Type} : Monad (Ret ε) where
  pure := .ok
  bind := Ret.bind

/-- `Some(x)` is the value, `None` a panic (`unwrap`, or an index out of range). -/
def Ret.expect {ε α : Type} : Option α → Ret ε α
  | some a => .ok a
  | none => .panic

namespace Kmeans

/-- `trait Point` (kmeans.rs:6-9) with `trait Distance` (geom.rs:4-6).  Distances are finite; `none` is a
panic.  For `mean`, `err` is `None`. -/
structure PointOps (T : Type) where
  dist : T → T → Option Rat
  mean : List T → Ret Unit T

/-- What the algorithm takes from elsewhere. -/
structure Env (T : Type) where
  pt : PointOps T
  fl : FloatOps
  /-- `sort_unstable_by` comparing the distances -/
  sort : List (Nat × Rat) → List (Nat × Rat)
  /-- `(n as f32).sqrt() as usize` -/
  lower : Nat → Nat
  /-- the random numbers of `SliceRandom::choose`, modulo the length of the slice -/
  rand : Nat → Nat

/-! ## Neighbours -/

/-- `struct NeighbouringCentroids` (kmeans.rs:149-154). -/
structure Neigh where
  src        : Nat
  neighbours : List (Nat × Rat)
  watermark  : Nat
  deriving DecidableEq

/-- `NeighbouringCentroids::new` (kmeans.rs:157-170). -/
def Neigh.new (src n : Nat) : Neigh :=
  let neighbours := ((List.range n).filter fun dst => dst != src).map fun dst => (dst, 0)
  { src, neighbours, watermark := neighbours.length }

/-- The loop of `update_distances` (kmeans.rs:174-178).  The assertion holds as distances are finite. -/
def distances {T : Type} (pt : PointOps T) (cs : List T) (c : T) : List (Nat × Rat) → Ret Unit (List (Nat × Rat))
  | [] => .ok []
  | (i, _) :: rest => do
    let dst ← Ret.expect cs[i]?
    let d ← Ret.expect (pt.dist c dst)
    let rest ← distances pt cs c rest
    .ok ((i, d) :: rest)

/-- `NeighbouringCentroids::update_distances` (kmeans.rs:172-179). -/
def Neigh.updateDistances {T : Type} (pt : PointOps T) (cs : List T) (g : Neigh) : Ret Unit Neigh := do
  let c ← Ret.expect cs[g.src]?
  let ns ← distances pt cs c g.neighbours
  .ok { g with neighbours := ns }

/-- `NeighbouringCentroids::resize` (kmeans.rs:188-248). -/
def Neigh.resize (lower : Nat → Nat) (n : Nat) (g : Neigh) : Neigh × Bool :=
  let new := min (max (2 * g.watermark) (lower n)) (n - 1)
  if new * 3 / 4 ≤ g.neighbours.length then
    ({ g with neighbours := g.neighbours.take new, watermark := 0 }, true)
  else (Neigh.new g.src n, false)

/-- The loop in `compute_neighbours` for one centroid (kmeans.rs:302-315); `sort` (kmeans.rs:181-186) does not
panic as distances are finite. -/
def computeOne {T : Type} (env : Env T) (cs : List T) : Nat → Neigh → Ret Unit Neigh
  | 0, _ => .err ()
  | fuel + 1, g => do
    let g ← g.updateDistances env.pt cs
    match Neigh.resize env.lower cs.length { g with neighbours := env.sort g.neighbours } with
    | (g, true) => .ok g
    | (g, false) => computeOne env cs fuel g

/-- `compute_neighbours` (kmeans.rs:299-318). -/
def computeNeighbours {T : Type} (env : Env T) (fuel : Nat) (cs : List T) : List Neigh → Ret Unit (List Neigh)
  | [] => .ok []
  | g :: gs => do
    let g ← computeOne env cs fuel g
    let gs ← computeNeighbours env fuel cs gs
    .ok (g :: gs)

/-- `init_neighbours` (kmeans.rs:288-295). -/
def initNeighbours {T : Type} (env : Env T) (fuel : Nat) (cs : List T) : Ret Unit (List Neigh) :=
  computeNeighbours env fuel cs ((List.range cs.length).map fun i => Neigh.new i cs.length)

/-- `certainty_radius` (kmeans.rs:257-259, 437-439); `none` is infinity. -/
def Neigh.certaintyRadius (fl : FloatOps) (g : Neigh) : Option Rat :=
  g.neighbours.head?.map fun x => fl.div x.2 2

/-- `min_dist <= certainty_radius` (kmeans.rs:355). -/
def Neigh.stays (fl : FloatOps) (g : Neigh) (minDist : Rat) : Bool :=
  match g.certaintyRadius fl with
  | some r => decide (minDist ≤ r)
  | none => true

/-! ## Centroids -/

/-- `struct Clusters` (kmeans.rs:11-15). -/
structure Clusters (T : Type) where
  centroids  : List T
  assignment : List (List T)
  neighbours : List Neigh
  deriving DecidableEq

/-- `fake_clone` (kmeans.rs:96-99). -/
def fakeClone {T : Type} (pt : PointOps T) (p : T) : Ret Unit T :=
  match pt.mean [p] with
  | .ok c => .ok c
  | .err _ => .panic
  | .panic => .panic

/-- The loop of `init_assignment` (kmeans.rs:70-76) with `k` iterations left. -/
def splitPoints {T : Type} (ppc : Nat) : Nat → List T → List (List T)
  | 0, points => [points]
  | k + 1, points =>
    points.drop (points.length - ppc) :: splitPoints ppc k (points.take (points.length - ppc))

/-- `init_assignment` (kmeans.rs:61-78): the division and the assertion may panic. -/
def initAssignment {T : Type} (points : List T) (n : Nat) : Ret Unit (List (List T)) :=
  if n = 0 then .panic
  else if points.length / n > 0 then .ok (splitPoints (points.length / n) (n - 1) points)
  else .panic

/-- `init_centroids` (kmeans.rs:101-108). -/
def initCentroids {T : Type} (pt : PointOps T) : List (List T) → Ret Unit (List T)
  | [] => .ok []
  | asg :: rest => do
    let p ← Ret.expect asg[0]?
    let c ← fakeClone pt p
    let cs ← initCentroids pt rest
    .ok (c :: cs)

/-- The choice of a cluster with points (kmeans.rs:123-128); the last argument counts the random numbers
drawn. -/
def pickVictim {T : Type} (rand : Nat → Nat) (assignment : List (List T)) : Nat → Nat → Ret Unit (List T × Nat)
  | 0, _ => .err ()
  | fuel + 1, k => do
    let victim ← Ret.expect assignment[rand k % assignment.length]?
    if victim.length = 0 then pickVictim rand assignment fuel (k + 1) else .ok (victim, k + 1)

/-- `compute_centroids` (kmeans.rs:110-137) over the clusters still to do. -/
def computeCentroids {T : Type} (env : Env T) (fuel : Nat) (assignment : List (List T)) :
    List (List T) → Nat → Ret Unit (List T × Nat)
  | [], k => .ok ([], k)
  | asg :: rest, k =>
    match env.pt.mean asg with
    | .ok c => do
      let (cs, k) ← computeCentroids env fuel assignment rest k
      .ok (c :: cs, k)
    | .err _ => do
      let (victim, k) ← pickVictim env.rand assignment fuel k
      let stolen ← Ret.expect victim[env.rand k % victim.length]?
      let c ← fakeClone env.pt stolen
      let (cs, k) ← computeCentroids env fuel assignment rest (k + 1)
      .ok (c :: cs, k)
    | .panic => .panic

/-- `update_centroids` (kmeans.rs:139-143). -/
def updateCentroids {T : Type} (env : Env T) (fuel : Nat) (cl : Clusters T) (k : Nat) :
    Ret Unit (Clusters T × Nat) := do
  let (cs, k) ← computeCentroids env fuel cl.assignment cl.assignment k
  .ok ({ cl with centroids := cs }, k)

/-- `update_neighbours` (kmeans.rs:320-323). -/
def updateNeighbours {T : Type} (env : Env T) (fuel : Nat) (cl : Clusters T) : Ret Unit (Clusters T) := do
  let ns ← computeNeighbours env fuel cl.centroids cl.neighbours
  .ok { cl with neighbours := ns }

/-! ## Points -/

/-- The loop of `assign_points` over the neighbours (kmeans.rs:364-384) from position `pos` on.  The last
component of the result is the watermark that `IterAndRecord` records when it is dropped
(kmeans.rs:250-255, 262-281). -/
def scan {T : Type} (pt : PointOps T) (cs : List T) (x : T) (cutoff : Rat) :
    List (Nat × Rat) → Nat → Rat → Nat → Ret Unit (Rat × Nat × Nat)
  | [], pos, minDist, closest => .ok (minDist, closest, pos)
  | (tsi, cToC) :: rest, pos, minDist, closest =>
    if cToC > cutoff then .ok (minDist, closest, pos)
    else do
      let c ← Ret.expect cs[tsi]?
      let tDist ← Ret.expect (pt.dist c x)
      if tDist < minDist then scan pt cs x cutoff rest (pos + 1) tDist tsi
      else scan pt cs x cutoff rest (pos + 1) minDist closest

/-- The body of the loop of `assign_points` (kmeans.rs:348-389) up to the choice of the cluster: the cluster
of the point `x` of the cluster `cci`, and the neighbours of `cci` afterwards. -/
def choose {T : Type} (env : Env T) (cs : List T) (g : Neigh) (cci : Nat) (x : T) : Ret Unit (Nat × Neigh) := do
  let c ← Ret.expect cs[cci]?
  let minDist ← Ret.expect (env.pt.dist c x)
  if g.stays env.fl minDist then .ok (cci, g)
  else do
    let (_, j, w) ← scan env.pt cs x (env.fl.mul 2 minDist) g.neighbours 0 minDist cci
    .ok (j, { g with watermark := w })

/-- `v[i]` replaced; `none` if the index is out of range. -/
def update {α : Type} (v : List α) (i : Nat) (f : α → α) : Option (List α) :=
  if i < v.length then some (v.modify i f) else none

/-- The loop of `assign_points` (kmeans.rs:343-399) over the points, each with its old cluster: the
assignment, the neighbours and whether a point moved. -/
def assignLoop {T : Type} (env : Env T) (cs : List T) : List (Nat × T) → List (List T) → List Neigh → Bool →
    Ret Unit (List (List T) × List Neigh × Bool)
  | [], asg, ns, change => .ok (asg, ns, change)
  | (cci, x) :: rest, asg, ns, change => do
    let g ← Ret.expect ns[cci]?
    let (j, g) ← choose env cs g cci x
    let ns ← Ret.expect (update ns cci fun _ => g)
    let asg ← Ret.expect (update asg j (· ++ [x]))
    assignLoop env cs rest asg ns (change || cci != j)

/-- The points with their clusters, in the order of the loop (kmeans.rs:343-346). -/
def tagged {T : Type} (asg : List (List T)) (i : Nat := 0) : List (Nat × T) :=
  match asg with
  | [] => []
  | v :: rest => v.map (fun x => (i, x)) ++ tagged rest (i + 1)

/-- `assign_points` (kmeans.rs:330-416).  `len` (kmeans.rs:432-435) asserts that the lengths agree; the
messages panic if there are no clusters (kmeans.rs:406-407). -/
def assignPoints {T : Type} (env : Env T) (cl : Clusters T) : Ret Unit (Clusters T × Bool) :=
  if cl.centroids.length = cl.assignment.length then do
    let (asg, ns, change) ←
      assignLoop env cl.centroids (tagged cl.assignment) (List.replicate cl.centroids.length []) cl.neighbours false
    if cl.assignment.length = 0 then .panic
    else .ok ({ cl with assignment := asg, neighbours := ns }, change)
  else .panic

/-! ## The algorithm -/

/-- `init` (kmeans.rs:80-90). -/
def init {T : Type} (env : Env T) (fuel : Nat) (points : List T) (n : Nat) : Ret Unit (Clusters T) := do
  let assignment ← initAssignment points n
  let centroids ← initCentroids env.pt assignment
  let neighbours ← initNeighbours env fuel centroids
  .ok { assignment, centroids, neighbours }

/-- One iteration of the loop of `cluster` (kmeans.rs:26-32). -/
def iteration {T : Type} (env : Env T) (fuel : Nat) (cl : Clusters T) (k : Nat) :
    Ret Unit (Clusters T × Bool × Nat) := do
  let (cl, changed) ← assignPoints env cl
  let (cl, k) ← updateCentroids env fuel cl k
  let cl ← updateNeighbours env fuel cl
  .ok (cl, changed, k)

/-- The loop of `cluster` (kmeans.rs:26-32); `fuel` limits the iterations and, separately, every inner
loop. -/
def iterate {T : Type} (env : Env T) (fuel : Nat) : Nat → Clusters T → Nat → Ret Unit (Clusters T)
  | 0, _, _ => .err ()
  | left + 1, cl, k => do
    let (cl, changed, k) ← iteration env fuel cl k
    if changed then iterate env fuel left cl k else .ok cl

/-- `check_enough_active_clusters` (kmeans.rs:41-57). -/
def enoughActive {T : Type} (fl : FloatOps) (cl : Clusters T) (requested : Nat) : Bool :=
  let pointCount := (cl.assignment.map List.length).sum
  let minCount := min pointCount (fl.mul (fl.rnd (99 / 100)) (fl.rnd requested)).floor.toNat
  decide (minCount ≤ (cl.assignment.filter fun v => decide (v.length > 0)).length)

/-- `cluster` (kmeans.rs:21-39). -/
def cluster {T : Type} (env : Env T) (fuel : Nat) (points : List T) (n : Nat) : Ret Unit (Clusters T) := do
  let cl ← init env fuel points n
  let cl ← iterate env fuel fuel cl 0
  if enoughActive env.fl cl n then .ok cl else .panic

/-- `Clusters::into_iter` (kmeans.rs:425-430). -/
def Clusters.intoIter {T : Type} (cl : Clusters T) : List (T × List T) := cl.centroids.zip cl.assignment

end Kmeans
end Cniic
