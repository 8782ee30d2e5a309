import Verif.Proofs.Prune
import Verif.Props.Clusterc

/-!
# The shortcuts of clustering are justified for colours and pixels (C45, C58)

Here the floating point functions are those of IEEE 754 or any others satisfying the same laws (`FloatOps.Lawful`).
-/

namespace Cniic
open Spec Kmeans Spec.Kmeans

section
variable {o : Outside} {chk : Bool} {fuel n : Nat} {img : Img}

/-- **C45**, cluster-colors: in every step of every run each colour goes to the centroid with the least squared
distance, computed exactly, among its current one and those in the neighbour list of the current one. -/
theorem C45_cluster_colors (hfl : o.fl.Lawful) (hs : IsSort o.sort) {points : List ColorCount} {cl cl' : Clusters ColorCount}
    (hr : Reached (colorEnv o chk) fuel points n cl) {changed : Bool}
    (h : assignPoints (colorEnv o chk) cl = .ok (cl', changed)) :
    ∃ moves : List (Move ColorCount),
      moves.map (fun m => (m.source, m.point)) = tagged cl.assignment ∧
      (∀ j ps, cl'.assignment[j]? = some ps → ps = arrivals moves j) ∧
      (changed = true ↔ ∃ m ∈ moves, m.source ≠ m.target) ∧
      ∀ m ∈ moves, ∃ g, cl.neighbours[m.source]? = some g ∧ m.target < n ∧
        Nearest (fun a b => (colorSq a.color b.color : Rat)) cl.centroids
          (fun t => t = m.source ∨ t ∈ g.neighbours.map (·.1)) m.point m.target :=
  C45_assign (color_prunable hfl chk) ⟨fun _ _ => trivial, fun _ _ _ _ => trivial⟩ hs hr h

private theorem narrow_fit {img : Img} (hw : img.width.toNat ≤ 2 ^ 16) (hh : img.height.toNat ≤ 2 ^ 16) : SumsFit img := by
  have h := Nat.mul_le_mul hw hh
  rw [← img.size] at h
  have h1 := Nat.mul_le_mul hw h
  have h2 := Nat.mul_le_mul hh h
  exact ⟨by omega, by omega⟩

theorem narrow_closed (o : Outside) (chk : Bool) (img : Img) (hw : img.width.toNat ≤ 2 ^ 16)
    (hh : img.height.toNat ≤ 2 ^ 16) :
    Closed (posEnv o chk).pt Narrow (dataPoints img) where
  inputs p hp := by
    have := (pos_closed o chk img (narrow_fit hw hh)).inputs p hp
    exact ⟨by omega, by omega⟩
  means l c hl hm := by
    have := (pos_closed o chk img (narrow_fit hw hh)).means l c hl hm
    exact ⟨by omega, by omega⟩

/-- **C45**, voronoi on images of at most 65536 by 65536 pixels: as for colours, with the squared distance of the positions
added to that of the colours. -/
theorem C45_voronoi (hfl : o.fl.Lawful) (hs : IsSort o.sort) (hw : img.width.toNat ≤ 2 ^ 16)
    (hh : img.height.toNat ≤ 2 ^ 16) {cl cl' : Clusters ColorPos}
    (hr : Reached (posEnv o chk) fuel (dataPoints img) n cl) {changed : Bool}
    (h : assignPoints (posEnv o chk) cl = .ok (cl', changed)) :
    ∃ moves : List (Move ColorPos),
      moves.map (fun m => (m.source, m.point)) = tagged cl.assignment ∧
      (∀ j ps, cl'.assignment[j]? = some ps → ps = arrivals moves j) ∧
      (changed = true ↔ ∃ m ∈ moves, m.source ≠ m.target) ∧
      ∀ m ∈ moves, ∃ g, cl.neighbours[m.source]? = some g ∧ m.target < n ∧
        Nearest (fun a b => (pixelSq a b : Rat)) cl.centroids
          (fun t => t = m.source ∨ t ∈ g.neighbours.map (·.1)) m.point m.target :=
  C45_assign (pos_prunable hfl chk) (narrow_closed o chk img hw hh) hs hr h

/-- **C45**, the limit of 65536 is sharp: two pixels of the same colour that are 65536 apart are at distance 0 in the
program without overflow checks. -/
theorem C45_wraps (hfl : o.fl.Lawful) (c : Rgb UInt8) :
    (posEnv o false).pt.dist ⟨0, 0, c⟩ ⟨65536, 0, c⟩ = some 0 ∧ pixelSq ⟨0, 0, c⟩ ⟨65536, 0, c⟩ = 65536 ^ 2 := by
  have hc : colorSq c c = 0 := by simp [colorSq, gap]
  constructor
  · obtain ⟨d, hd⟩ := pos_dist_false (fl := o.fl) ⟨0, 0, c⟩ ⟨65536, 0, c⟩
    have hsq (x : Rat) (h0 : x = 0) : o.fl.sqrt x = 0 := by
      have := hfl.sqrt_hi x (by rw [h0])
      rw [h0, mul_zero] at this
      rw [h0]
      exact pow_eq_zero_iff (n := 2) (by norm_num) |>.1 (le_antisymm this (sq_nonneg _))
    have hr0 : rgbDist o.fl c c = 0 := by
      rw [rgbDist_eq hfl, hc]
      exact hsq _ (by norm_num)
    have hp0 : o.fl.powi2 0 = 0 := by
      have := hfl.powi2_err 0
      simpa using this
    have hz : o.fl.rnd 0 = 0 := by
      have := hfl.rnd_err 0
      simpa using this
    have := pos_dist hd
    show ColorPos.dist o.fl false _ _ = _
    rw [hd, this]
    show some (o.fl.sqrt (o.fl.add (o.fl.add _ _) (o.fl.powi2 (rgbDist o.fl c c)))) = _
    rw [hr0, hp0]
    congr 1
    apply hsq
    have e1 : gap (0 : UInt32).toNat (65536 : UInt32).toNat ^ 2 % 2 ^ 32 = 0 := by decide
    have e2 : gap (0 : UInt32).toNat (0 : UInt32).toNat ^ 2 % 2 ^ 32 = 0 := by decide
    show o.fl.add (o.fl.add ((gap (0 : UInt32).toNat (65536 : UInt32).toNat ^ 2 % 2 ^ 32 : Nat) : Rat)
      ((gap (0 : UInt32).toNat (0 : UInt32).toNat ^ 2 % 2 ^ 32 : Nat) : Rat)) 0 = 0
    rw [e1, e2]
    simp [FloatOps.add, hz]
  · show gap (0 : UInt32).toNat (65536 : UInt32).toNat ^ 2 + gap (0 : UInt32).toNat (0 : UInt32).toNat ^ 2 + colorSq c c = _
    rw [hc]
    decide

/-- **C58**, cluster-colors. -/
theorem C58_cluster_colors (hfl : o.fl.Lawful) (hs : IsSort o.sort) {points : List ColorCount} {cl : Clusters ColorCount}
    (h : cluster (colorEnv o chk) fuel points n = .ok cl) :
    (∃ cl0 k, init (colorEnv o chk) fuel points n = .ok cl0 ∧
      iteration (colorEnv o chk) fuel cl0 0 = .ok (cl, false, k)) ∨
    ∀ (i : Nat) ps x, cl.assignment[i]? = some ps → x ∈ ps →
      ∃ listed : List Nat, listed.Nodup ∧ min (o.lower n) (n - 1) ≤ listed.length ∧
        (∀ t ∈ listed, t ≠ i ∧ t < n) ∧
        Nearest (fun a b => (colorSq a.color b.color : Rat)) cl.centroids
          (fun t => t = i ∨ (t ∈ listed ∧ cl.assignment[t]? ≠ some [])) x i :=
  C58_fixpoint (color_prunable hfl chk) ⟨fun _ _ => trivial, fun _ _ _ _ => trivial⟩ hs (color_meanOfSome o chk) h

/-- **C58**, voronoi. -/
theorem C58_voronoi (hfl : o.fl.Lawful) (hs : IsSort o.sort) (hw : img.width.toNat ≤ 2 ^ 16)
    (hh : img.height.toNat ≤ 2 ^ 16) {cl : Clusters ColorPos}
    (h : cluster (posEnv o chk) fuel (dataPoints img) n = .ok cl) :
    (∃ cl0 k, init (posEnv o chk) fuel (dataPoints img) n = .ok cl0 ∧
      iteration (posEnv o chk) fuel cl0 0 = .ok (cl, false, k)) ∨
    ∀ (i : Nat) ps x, cl.assignment[i]? = some ps → x ∈ ps →
      ∃ listed : List Nat, listed.Nodup ∧ min (o.lower n) (n - 1) ≤ listed.length ∧
        (∀ t ∈ listed, t ≠ i ∧ t < n) ∧
        Nearest (fun a b => (pixelSq a b : Rat)) cl.centroids
          (fun t => t = i ∨ (t ∈ listed ∧ cl.assignment[t]? ≠ some [])) x i :=
  C58_fixpoint (pos_prunable hfl chk) (narrow_closed o chk img hw hh) hs (pos_meanOfSome o chk) h

end

/-! ## Concrete cases -/

namespace PruneExamples
open ClusterExamples

/-- IEEE 754 arithmetic. -/
def ieee : Outside := { out with fl := Ieee.ops }

def isOk {ε α : Type} : Ret ε α → Bool
  | .ok _ => true
  | _ => false

theorem ok_of {ε α : Type} {m : Ret ε α} (h : isOk m = true) : ∃ a, m = .ok a := by
  cases m with
  | ok a => exact ⟨a, rfl⟩
  | err e => cases h
  | panic => cases h

/-- The first assignment of a run over colours. -/
theorem color_first : ∃ cl cl' changed, Reached (colorEnv ieee true) 9 (colorCounts id img) 2 cl ∧
    assignPoints (colorEnv ieee true) cl = .ok (cl', changed) := by
  obtain ⟨⟨cl, cl', changed⟩, h⟩ := ok_of (m := do
    let cl ← init (colorEnv ieee true) 9 (colorCounts id img) 2
    let (cl', changed) ← assignPoints (colorEnv ieee true) cl
    pure (cl, cl', changed)) (by decide +kernel)
  obtain ⟨c, h1, h⟩ := Ret.bind_ok.1 h
  obtain ⟨⟨c', ch⟩, h2, h⟩ := Ret.bind_ok.1 h
  cases h
  exact ⟨_, _, _, .start h1, h2⟩

/-- The first assignment of a run over pixels. -/
theorem pos_first : ∃ cl cl' changed, Reached (posEnv ieee false) 9 (dataPoints img) 2 cl ∧
    assignPoints (posEnv ieee false) cl = .ok (cl', changed) := by
  obtain ⟨⟨cl, cl', changed⟩, h⟩ := ok_of (m := do
    let cl ← init (posEnv ieee false) 9 (dataPoints img) 2
    let (cl', changed) ← assignPoints (posEnv ieee false) cl
    pure (cl, cl', changed)) (by decide +kernel)
  obtain ⟨c, h1, h⟩ := Ret.bind_ok.1 h
  obtain ⟨⟨c', ch⟩, h2, h⟩ := Ret.bind_ok.1 h
  cases h
  exact ⟨_, _, _, .start h1, h2⟩

/-- C45. -/
example : ∃ (cl : Clusters ColorCount) (moves : List (Move ColorCount)),
    moves.map (fun m => (m.source, m.point)) = tagged cl.assignment ∧
      ∀ m ∈ moves, ∃ g, cl.neighbours[m.source]? = some g ∧ m.target < 2 ∧
        Nearest (fun a b => (colorSq a.color b.color : Rat)) cl.centroids
          (fun t => t = m.source ∨ t ∈ g.neighbours.map (·.1)) m.point m.target := by
  obtain ⟨cl, cl', ch, h1, h2⟩ := color_first
  obtain ⟨moves, m1, -, -, m4⟩ := C45_cluster_colors Ieee.lawful sortByDist_isSort h1 h2
  exact ⟨cl, moves, m1, m4⟩

/-- C45. -/
example : ∃ (cl : Clusters ColorPos) (moves : List (Move ColorPos)),
    moves.map (fun m => (m.source, m.point)) = tagged cl.assignment ∧
      ∀ m ∈ moves, ∃ g, cl.neighbours[m.source]? = some g ∧ m.target < 2 ∧
        Nearest (fun a b => (pixelSq a b : Rat)) cl.centroids
          (fun t => t = m.source ∨ t ∈ g.neighbours.map (·.1)) m.point m.target := by
  obtain ⟨cl, cl', ch, h1, h2⟩ := pos_first
  obtain ⟨moves, m1, -, -, m4⟩ := C45_voronoi Ieee.lawful sortByDist_isSort (by decide) (by decide) h1 h2
  exact ⟨cl, moves, m1, m4⟩

/-- C58: the colours. -/
theorem color_ieee : cluster (colorEnv ieee true) 9 (colorCounts id img) 2 =
    .ok ⟨[⟨⟨0, 0, 150⟩, 1⟩, ⟨⟨236, 0, 0⟩, 1⟩],
         [[⟨⟨0, 0, 100⟩, 1⟩, ⟨⟨0, 0, 201⟩, 1⟩], [⟨⟨200, 0, 0⟩, 1⟩, ⟨⟨255, 0, 0⟩, 2⟩]],
         [⟨0, [(1, 4919399336096827 / 17592186044416)], 0⟩, ⟨1, [(0, 4919399336096827 / 17592186044416)], 0⟩]⟩ := by
  decide +kernel

/-- C58: the pixels. -/
theorem pos_ieee : cluster (posEnv ieee false) 9 (dataPoints img) 2 =
    .ok ⟨[⟨2, 0, ⟨0, 0, 150⟩⟩, ⟨2, 0, ⟨236, 0, 0⟩⟩],
         [[⟨3, 0, ⟨0, 0, 100⟩⟩, ⟨1, 0, ⟨0, 0, 201⟩⟩],
          [⟨4, 0, ⟨255, 0, 0⟩⟩, ⟨0, 0, ⟨255, 0, 0⟩⟩, ⟨2, 0, ⟨200, 0, 0⟩⟩]],
         [⟨0, [(1, 4919399336096827 / 17592186044416)], 0⟩, ⟨1, [(0, 4919399336096827 / 17592186044416)], 0⟩]⟩ := by
  decide +kernel

example := C58_cluster_colors Ieee.lawful sortByDist_isSort color_ieee
example := C58_voronoi Ieee.lawful sortByDist_isSort (by decide) (by decide) pos_ieee

/-- C45: the wrapped distance of two black pixels. -/
example : (posEnv ieee false).pt.dist ⟨0, 0, ⟨0, 0, 0⟩⟩ ⟨65536, 0, ⟨0, 0, 0⟩⟩ = some 0 := (C45_wraps Ieee.lawful _).1

end PruneExamples
end Cniic
