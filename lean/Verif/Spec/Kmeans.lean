import Verif.Model.Kmeans

/-!
# What is expected of clustering
-/

namespace Cniic
namespace Spec
namespace Kmeans

open Cniic.Kmeans

/-- A sorting function: the result has the same elements, by increasing distance. -/
def IsSort (sort : List (Nat × Rat) → List (Nat × Rat)) : Prop :=
  ∀ l, (sort l).Perm l ∧ (sort l).Pairwise fun a b => a.2 ≤ b.2

/-- "This must return None if the given slice is empty" (kmeans.rs:7), and only then. -/
def MeanOfSome {T : Type} (pt : PointOps T) : Prop := ∀ l, pt.mean l = .err () ↔ l = []

/-- Some of the points. -/
def Part {T : Type} (l points : List T) : Prop := ∃ rest, (l ++ rest).Perm points

/-- `P` holds for the points and for the mean of any of them. -/
structure Closed {T : Type} (pt : PointOps T) (P : T → Prop) (points : List T) : Prop where
  inputs : ∀ p ∈ points, P p
  means  : ∀ l c, Part l points → pt.mean l = .ok c → P c

/-- Computed distances for which comparisons and the two shortcuts are justified on points with the property
`P`, `D` being the true measure.  A centroid `t` more than twice as far from `c` as the point `x` is not nearer
to `x` than `c`; neither is one whose distance `ct` from `c` is at least the distance `r` of a centroid, if `x`
is within half of `r`. -/
structure Prunable {T : Type} (env : Env T) (P : T → Prop) (D : T → T → Rat) : Prop where
  mono : ∀ c t x dc dt, P c → P t → P x → env.pt.dist c x = some dc → env.pt.dist t x = some dt → dc ≤ dt →
    D c x ≤ D t x
  far : ∀ c t x dc ct, P c → P t → P x → env.pt.dist c x = some dc → env.pt.dist c t = some ct →
    env.fl.mul 2 dc < ct → D c x ≤ D t x
  near : ∀ c t t0 x dc ct r, P c → P t → P t0 → P x → env.pt.dist c x = some dc → env.pt.dist c t = some ct →
    env.pt.dist c t0 = some r → r ≤ ct → dc ≤ env.fl.div r 2 → D c x ≤ D t x

/-- Distances do not panic, and a single point has a mean. -/
structure Sound {T : Type} (pt : PointOps T) (P : T → Prop) (points : List T) : Prop
    extends Closed pt P points where
  dist   : ∀ a b, P a → P b → pt.dist a b ≠ none
  one    : ∀ a ∈ points, pt.mean [a] ≠ .panic
  single : ∀ a, pt.mean [a] ≠ .err ()

/-- Nor do means of several points panic. -/
structure Total {T : Type} (pt : PointOps T) (P : T → Prop) (points : List T) : Prop
    extends Sound pt P points where
  mean   : ∀ l, Part l points → pt.mean l ≠ .panic

/-- A list of other centroids than `i`, out of `n`. -/
structure Shape (n i : Nat) (g : Neigh) : Prop where
  src      : g.src = i
  distinct : (g.neighbours.map (·.1)).Nodup
  others   : ∀ e ∈ g.neighbours, e.1 ≠ i ∧ e.1 < n

/-- A list of neighbours of the centroid `i` that fits the centroids `cs`. -/
structure WellFormed {T : Type} (pt : PointOps T) (cs : List T) (i : Nat) (g : Neigh) : Prop
    extends Shape cs.length i g where
  sorted    : g.neighbours.Pairwise fun a b => a.2 ≤ b.2
  distances : ∀ e ∈ g.neighbours, ∃ c t, cs[i]? = some c ∧ cs[e.1]? = some t ∧ pt.dist c t = some e.2

/-- The states that clustering goes through at the beginning of its loop. -/
inductive Reached {T : Type} (env : Env T) (fuel : Nat) (points : List T) (n : Nat) : Clusters T → Prop
  | start {cl} : init env fuel points n = .ok cl → Reached env fuel points n cl
  | step {cl cl' changed k k'} : Reached env fuel points n cl →
      iteration env fuel cl k = .ok (cl', changed, k') → Reached env fuel points n cl'

/-- What holds whenever the loop begins. -/
structure Invariant {T : Type} (env : Env T) (points : List T) (n : Nat) (cl : Clusters T) : Prop where
  positive   : 0 < n
  centroids  : cl.centroids.length = n
  assignment : cl.assignment.length = n
  neighbours : cl.neighbours.length = n
  points     : cl.assignment.flatten.Perm points
  lists      : ∀ (i : Nat) g, cl.neighbours[i]? = some g → WellFormed env.pt cl.centroids i g ∧
    min (env.lower n) (n - 1) ≤ g.neighbours.length

/-- Of the centroids `cs` considered for `x`, the one at `j` is nearest. -/
def Nearest {T : Type} (D : T → T → Rat) (cs : List T) (considered : Nat → Prop) (x : T) (j : Nat) : Prop :=
  ∃ c, cs[j]? = some c ∧ ∀ t c', considered t → cs[t]? = some c' → D c x ≤ D c' x

/-- A point with the cluster it was in and the one it goes to. -/
structure Move (T : Type) where
  source : Nat
  point  : T
  target : Nat

/-- How many entries of a sorted neighbour list are within the cutoff. -/
def within (g : Neigh) (cutoff : Rat) : Nat := (g.neighbours.takeWhile fun e => decide (e.2 ≤ cutoff)).length

/-- For each of the points that cannot stay with the centroid `c` unseen, the number of neighbours looked at. -/
def looks {T : Type} (env : Env T) (c : T) (g : Neigh) (ps : List T) : List Nat :=
  ps.filterMap fun x =>
    match env.pt.dist c x, g.neighbours with
    | some d, (e :: _) => if d ≤ env.fl.div e.2 2 then none else some (within g (env.fl.mul 2 d))
    | _, _ => none

/-- The number of clusters with points. -/
def active {T : Type} (cl : Clusters T) : Nat := (cl.assignment.filter fun v => !v.isEmpty).length

/-- The number of clusters with points that is asked for: 99%, as computed, or one per point. -/
def minActive (fl : FloatOps) (points n : Nat) : Nat :=
  min points (fl.mul (fl.rnd (99 / 100)) (fl.rnd n)).floor.toNat

/-- The points that the moves bring to cluster `j`, in order. -/
def arrivals {T : Type} (moves : List (Move T)) (j : Nat) : List T :=
  (moves.filter fun m => m.target == j).map Move.point

end Kmeans
end Spec
end Cniic
