import Verif.Model.Kmeans

/-!
# Model of the messages of `assign_points`

`Model/Kmeans.lean` leaves out what `assign_points` prints (kmeans.rs:337-413).  Here is the function with its counters.  They
are `u64` in the source, as `sum_tested_neighbours / tot_points` (kmeans.rs:412) fixes their type, and natural numbers here;
`C99_counters` bounds them.
-/

namespace Cniic
namespace Kmeans

/-- The counters (kmeans.rs:337-342), `maxTested` with one entry for each cluster. -/
structure Stats where
  obvious   : Nat
  cutoff    : Nat
  moved     : Nat
  stayed    : Nat
  maxTested : List Nat
  sumTested : Nat
  deriving DecidableEq

/-- The counters at the beginning (kmeans.rs:337-342) for `n` clusters. -/
def Stats.zero (n : Nat) : Stats :=
  { obvious := 0, cutoff := 0, moved := 0, stayed := 0, maxTested := List.replicate n 0, sumTested := 0 }

/-- The loop over the neighbours (kmeans.rs:364-384) with `tested_neighbours`; the last component is whether it ended at the
cutoff (kmeans.rs:367-370). -/
def scanStats {T : Type} (pt : PointOps T) (cs : List T) (x : T) (cutoff : Rat) :
    List (Nat × Rat) → Nat → Rat → Nat → Nat → Ret Unit ((Rat × Nat × Nat) × Nat × Bool)
  | [], pos, minDist, closest, tested => .ok ((minDist, closest, pos), tested, false)
  | (tsi, cToC) :: rest, pos, minDist, closest, tested =>
    if cToC > cutoff then .ok ((minDist, closest, pos), tested + 1, true)
    else do
      let c ← Ret.expect cs[tsi]?
      let tDist ← Ret.expect (pt.dist c x)
      if tDist < minDist then scanStats pt cs x cutoff rest (pos + 1) tDist tsi (tested + 1)
      else scanStats pt cs x cutoff rest (pos + 1) minDist closest (tested + 1)

/-- The body of the loop (kmeans.rs:348-387) with the counters of the neighbours. -/
def chooseStats {T : Type} (env : Env T) (cs : List T) (g : Neigh) (cci : Nat) (x : T) (s : Stats) :
    Ret Unit (Nat × Neigh × Stats) := do
  let c ← Ret.expect cs[cci]?
  let minDist ← Ret.expect (env.pt.dist c x)
  if g.stays env.fl minDist then .ok (cci, g, { s with obvious := s.obvious + 1 })
  else do
    let ((_, j, w), tested, cut) ← scanStats env.pt cs x (env.fl.mul 2 minDist) g.neighbours 0 minDist cci 0
    let maxTested ← Ret.expect (update s.maxTested cci fun m => max m tested)
    .ok (j, { g with watermark := w }, { s with
      cutoff := if cut then s.cutoff + 1 else s.cutoff
      maxTested
      sumTested := s.sumTested + tested })

/-- The loop over the points (kmeans.rs:343-399). -/
def assignLoopStats {T : Type} (env : Env T) (cs : List T) : List (Nat × T) → List (List T) → List Neigh → Bool → Stats →
    Ret Unit ((List (List T) × List Neigh × Bool) × Stats)
  | [], asg, ns, change, s => .ok ((asg, ns, change), s)
  | (cci, x) :: rest, asg, ns, change, s => do
    let g ← Ret.expect ns[cci]?
    let (j, g, s) ← chooseStats env cs g cci x s
    let ns ← Ret.expect (update ns cci fun _ => g)
    let asg ← Ret.expect (update asg j (· ++ [x]))
    if cci != j then assignLoopStats env cs rest asg ns true { s with moved := s.moved + 1 }
    else assignLoopStats env cs rest asg ns change { s with stayed := s.stayed + 1 }

/-- The numbers printed (kmeans.rs:401-413): moved, stayed, stopped early, of these by the certainty radius and by the cutoff,
the largest and the least of `max_tested_neighbours`, and the average if it is printed. -/
structure Report where
  moved        : Nat
  stayed       : Nat
  stoppedEarly : Nat
  radius       : Nat
  cutoff       : Nat
  globalMax    : Nat
  minMax       : Nat
  average      : Option Nat
  deriving DecidableEq

/-- The messages (kmeans.rs:401-413).  `max` and `min` of no numbers panic, and the subtraction would panic or wrap around below
zero: `none`. -/
def Stats.report (s : Stats) : Option Report := do
  let globalMax ← s.maxTested.max?
  let minMax ← s.maxTested.min?
  if s.obvious ≤ s.moved + s.stayed then
    let tot := s.moved + s.stayed - s.obvious
    some {
      moved := s.moved, stayed := s.stayed, stoppedEarly := s.obvious + s.cutoff, radius := s.obvious, cutoff := s.cutoff
      globalMax, minMax, average := if tot ≠ 0 then some (s.sumTested / tot) else none }
  else none

/-- `assign_points` (kmeans.rs:330-416) with what it prints. -/
def assignPointsStats {T : Type} (env : Env T) (cl : Clusters T) : Ret Unit ((Clusters T × Bool) × Report) :=
  if cl.centroids.length = cl.assignment.length then do
    let ((asg, ns, change), s) ← assignLoopStats env cl.centroids (tagged cl.assignment)
      (List.replicate cl.centroids.length []) cl.neighbours false (Stats.zero cl.assignment.length)
    let r ← Ret.expect s.report
    .ok (({ cl with assignment := asg, neighbours := ns }, change), r)
  else .panic

end Kmeans
end Cniic
