import Verif.Proofs.Passes
import Verif.Props.Ends

/-!
# The squared error during clustering (C114)

Assigning colours to centroids never makes the picture worse.  Moving the centroids can, as means are rounded down, but only
by less than 3 for each pixel.
-/

namespace Cniic
open Spec Kmeans Spec.Kmeans

section
variable {o : Outside} {chk : Bool} {ho : List (Rgb UInt8 × Nat) → List (Rgb UInt8 × Nat)} {fuel n : Nat} {img : Img}

/-- **C114**, what the error is: at any time during clustering, the picture with every colour replaced by the centroid of its
cluster has this squared error. -/
theorem C114_picture (hs : IsSort o.sort) (hho : IsOrder ho) (hfit : CountsFit img) (ha : Addressable img)
    {cl : Clusters ColorCount} (hr : Reached (colorEnv o chk) fuel (colorCounts ho img) n cl) :
    ∃ red, reducedImg (reducedColors cl) img = some red ∧ squaredError img.rgbPixels red.pixels = clusterError cl := by
  have hi := reached_invariant hs hr
  exact clusterError_picture hho hfit ha (hi.centroids.trans hi.assignment.symm) hi.points

/-- **C114**, the decoded picture: it has the squared error of the clustering that is returned. -/
theorem C114_decoded {M : MinHeap (Rgb UInt8)} {ho2 : List (Rgb UInt8 × Nat) → List (Rgb UInt8 × Nat)} {colors : UInt64}
    (hs : IsSort o.sort) (hho : IsOrder ho) (hho2 : IsOrder ho2) (hfit : CountsFit img) (ha : Addressable img)
    {cl : Clusters ColorCount} (h : cluster (colorEnv o chk) fuel (colorCounts ho img) colors.toNat = .ok cl) :
    ∃ m bytes out, clusterColorsEncode o chk ho ho2 M fuel colors img = .ok m ∧ Emits Emits.anyWay m bytes () ∧
      clusterColorsDecode bytes = .ok out ∧ squaredError img.rgbPixels out.pixels = clusterError cl := by
  obtain ⟨m, hm, bytes, group, palette, hred, hb, hd, -⟩ := clusterColors_reduced (M := M) hs hho hho2 ha h
  obtain ⟨cl0, k0, k1, hr, hit⟩ := cluster_ok h
  obtain ⟨red, h1, h2⟩ := C114_picture hs hho hfit ha (.step hr hit)
  rw [hred] at h1
  cases h1
  exact ⟨m, bytes, _, hm, hb, hd, h2⟩

/-- **C114**, `assign_points`: it does not make the picture worse, and makes it better if it reports a change. -/
theorem C114_assign (hfl : o.fl.Lawful) (hs : IsSort o.sort) (hho : IsOrder ho) (hfit : CountsFit img)
    {cl cl' : Clusters ColorCount} {changed : Bool} (hr : Reached (colorEnv o chk) fuel (colorCounts ho img) n cl)
    (h : assignPoints (colorEnv o chk) cl = .ok (cl', changed)) :
    clusterError cl' ≤ clusterError cl ∧ (changed = true → clusterError cl' < clusterError cl) := by
  have hi := reached_invariant hs hr
  obtain ⟨a1, a2, a3, -⟩ := assignPoints_ok h
  rw [clusterError_bill a2, clusterError_bill (by rw [a1, a2, a3]), a1]
  exact assign_lowers (P := fun _ => True) (sqCost_nearer hfl chk (colorCounts_pos hho img hfit)) (fun _ _ => trivial)
    hi.points h

/-- The pixels are the weights. -/
theorem pixels_weight (hho : IsOrder ho) (hfit : CountsFit img) :
    ((colorCounts ho img).map fun p => p.count.toNat).sum = img.pixels.length := by
  rw [weights_total hho img hfit _ (fun _ h => h) (colorCounts_nodup hho img),
    List.filter_eq_self.2 fun c hc => decide_eq_true ((mem_colorCounts hho img c).2 hc), Img.rgbPixels, List.length_map]

/-- **C114**, `update_centroids`: it makes a picture of `N` pixels worse by at most `3 (N - 2)`. -/
theorem C114_update (hs : IsSort o.sort) (hho : IsOrder ho) (hfit : CountsFit img)
    {cl cl1 cl2 : Clusters ColorCount} {changed : Bool} {k k' : Nat}
    (hr : Reached (colorEnv o chk) fuel (colorCounts ho img) n cl) (h1 : assignPoints (colorEnv o chk) cl = .ok (cl1, changed))
    (h2 : updateCentroids (colorEnv o chk) fuel cl1 k = .ok (cl2, k')) :
    clusterError cl2 ≤ clusterError cl1 + 3 * (img.pixels.length - 2) := by
  have hi := reached_invariant hs hr
  obtain ⟨a1, a2, a3, -, a5, -⟩ := assignPoints_ok h1
  rw [updateCentroids] at h2
  obtain ⟨⟨cs, k2⟩, h2, h⟩ := Ret.bind_ok.1 h2
  cases h
  have hlen : cl1.centroids.length = cl1.assignment.length := by rw [a1, a2, a3]
  rw [clusterError_bill hlen, clusterError_bill (by exact (computeCentroids_ok h2).1), ← pixels_weight hho hfit]
  exact update_cost chk (colorCounts_pos hho img hfit) (weights_bound (colorCounts_nodup hho img)) hlen (a5.trans hi.points) h2

/-- **C114**, a pass of the loop. -/
theorem C114_pass (hfl : o.fl.Lawful) (hs : IsSort o.sort) (hho : IsOrder ho) (hfit : CountsFit img)
    {cl cl' : Clusters ColorCount} {changed : Bool} {k k' : Nat}
    (hr : Reached (colorEnv o chk) fuel (colorCounts ho img) n cl)
    (h : iteration (colorEnv o chk) fuel cl k = .ok (cl', changed, k')) :
    clusterError cl' ≤ clusterError cl + 3 * (img.pixels.length - 2) ∧
      (changed = true → clusterError cl' < clusterError cl + 3 * (img.pixels.length - 2)) := by
  rw [iteration] at h
  obtain ⟨⟨cl1, ch⟩, h1, h⟩ := Ret.bind_ok.1 h
  obtain ⟨⟨cl2, k2⟩, h2, h⟩ := Ret.bind_ok.1 h
  obtain ⟨cl3, h3, h⟩ := Ret.bind_ok.1 h
  cases h
  rw [updateNeighbours] at h3
  obtain ⟨ns, -, h⟩ := Ret.bind_ok.1 h3
  cases h
  have e : clusterError { cl2 with neighbours := ns } = clusterError cl2 := rfl
  have := C114_assign hfl hs hho hfit hr h1
  have := C114_update hs hho hfit hr h1 h2
  rw [e]
  exact ⟨by omega, fun hc => by have := this; have := (C114_assign hfl hs hho hfit hr h1).2 hc; omega⟩

end

/-! ## The bound is reached -/

theorem init_pair {o : Outside} (hs : IsSort o.sort) (chk : Bool) (fuel : Nat) (p q : ColorCount) :
    Kmeans.init (colorEnv o chk) (fuel + 1) [p, q] 1 = .ok ⟨[p], [[p, q]], [⟨0, [], 0⟩]⟩ := by
  have h0 : o.sort [] = [] := (hs []).1.eq_nil
  simp [Ret.bind_ok_eq, Kmeans.init, initAssignment, splitPoints, initCentroids, fakeClone, colorEnv, ColorCount.mean, Ret.expect, initNeighbours,
    computeNeighbours, computeOne, Neigh.updateDistances, Neigh.new, Neigh.resize, distances, h0]

theorem iteration_pair {o : Outside} (hs : IsSort o.sort) (chk : Bool) (fuel k : Nat) (p q c : ColorCount)
    (hc : ColorCount.mean chk [p, q] = .ok c) :
    iteration (colorEnv o chk) (fuel + 1) ⟨[p], [[p, q]], [⟨0, [], 0⟩]⟩ k = .ok (⟨[c], [[p, q]], [⟨0, [], 0⟩]⟩, false, k) := by
  have h0 : o.sort [] = [] := (hs []).1.eq_nil
  simp [Ret.bind_ok_eq, iteration, assignPoints, assignLoop, tagged, choose, Neigh.stays, Neigh.certaintyRadius, update, updateCentroids,
    computeCentroids, updateNeighbours, colorEnv, hc, Ret.expect,
    computeNeighbours, computeOne, Neigh.updateDistances, Neigh.resize, distances, h0]

/-- A row of pixels: all but the last are nearly black. -/
def nearlyBlack (w : UInt32) (h : 0 < w.toNat) : Img where
  width := w
  height := 1
  pixels := List.replicate (w.toNat - 1) ⟨1, 1, 1, 255⟩ ++ [⟨0, 0, 0, 255⟩]
  size := by
    rw [List.length_append, List.length_replicate]
    simp only [List.length_cons, List.length_nil]
    show _ = w.toNat * 1
    omega

theorem bump_replicate {T : Type} [DecidableEq T] (a : T) (k n : Nat) :
    (List.replicate k a).foldl (fun m x => bumpFreq x m) [(a, n)] = [(a, n + k)] := by
  induction k generalizing n with
  | zero => rfl
  | succ k ih =>
    rw [List.replicate_succ, List.foldl_cons, bumpFreq, if_pos rfl, ih]
    congr 2
    omega

theorem nearlyBlack_counts (w : UInt32) (h : 2 ≤ w.toNat) :
    colorCounts id (nearlyBlack w (by omega)) = [⟨⟨1, 1, 1⟩, UInt32.ofNat (w.toNat - 1)⟩, ⟨⟨0, 0, 0⟩, 1⟩] := by
  have e : (nearlyBlack w (by omega)).rgbPixels = List.replicate (w.toNat - 1) ⟨1, 1, 1⟩ ++ [⟨0, 0, 0⟩] := by
    simp [nearlyBlack, Img.rgbPixels, Rgba.toRgb]
  obtain ⟨k, hk⟩ : ∃ k, w.toNat - 1 = k + 1 := ⟨w.toNat - 2, by omega⟩
  rw [colorCounts, e, hk, countFreqs, List.foldl_append, List.replicate_succ, List.foldl_cons, List.foldl_cons,
    show bumpFreq (⟨1, 1, 1⟩ : Rgb UInt8) [] = [(⟨1, 1, 1⟩, 1)] from rfl, bump_replicate]
  simp [bumpFreq, Nat.add_comm]

/-- **C114**, the bound is reached: for every number of pixels from 2 to 2^32 - 1 there is a row of pixels that the first pass
makes worse by `3 (N - 2)`, with one cluster, if the map lists the colours in the order of their first pixels. -/
theorem C114_tight {o : Outside} (hs : IsSort o.sort) (chk : Bool) (fuel k : Nat) (w : UInt32) (h : 2 ≤ w.toNat) :
    ∃ cl cl', Kmeans.init (colorEnv o chk) (fuel + 1) (colorCounts id (nearlyBlack w (by omega))) 1 = .ok cl ∧
      iteration (colorEnv o chk) (fuel + 1) cl k = .ok (cl', false, k) ∧ clusterError cl = 3 ∧
      clusterError cl' = clusterError cl + 3 * ((nearlyBlack w (by omega)).pixels.length - 2) := by
  have hw := w.toNat_lt
  have hcnt : (UInt32.ofNat (w.toNat - 1)).toNat = w.toNat - 1 := by
    rw [UInt32.toNat_ofNat', Nat.mod_eq_of_lt (by omega)]
  obtain ⟨c, h1, h2⟩ := mean_ok chk [⟨⟨1, 1, 1⟩, UInt32.ofNat (w.toNat - 1)⟩, ⟨⟨0, 0, 0⟩, 1⟩] (by simp)
    (by intro p hp; simp only [List.mem_cons, List.not_mem_nil, or_false] at hp; rcases hp with rfl | rfl
        · dsimp only; omega
        · decide)
    (by simp only [List.map_cons, List.sum_cons, List.map_nil, List.sum_nil, hcnt]
        have : (1 : UInt32).toNat = 1 := rfl
        omega)
  have hb : c.color = ⟨0, 0, 0⟩ := by
    rw [h2]
    simp only [List.map_cons, List.sum_cons, List.map_nil, List.sum_nil, hcnt, show (1 : UInt8).toNat = 1 from rfl,
      show (0 : UInt8).toNat = 0 from rfl, show (1 : UInt32).toNat = 1 from rfl]
    rw [Nat.div_eq_of_lt (by omega)]
    rfl
  refine ⟨_, _, ?_, iteration_pair hs chk fuel k _ _ c h1, ?_, ?_⟩
  · rw [nearlyBlack_counts w h]; exact init_pair hs chk fuel _ _
  · simp [clusterError, colorSq, gap]
  · have hl : (nearlyBlack w (by omega)).pixels.length = w.toNat := by
      rw [(nearlyBlack w (by omega)).size]
      show w.toNat * 1 = _
      omega
    rw [hl]
    simp only [clusterError, List.zip_cons_cons, List.zip_nil_left, List.map_cons, List.sum_cons, List.map_nil, List.sum_nil, hcnt, hb]
    simp [colorSq, gap]
    omega

/-! ## The result is not the best that was reached -/

/-- 9 pixels in four shades of red. -/
def fourReds : Img where
  width := 3
  height := 3
  pixels := [⟨5, 0, 0, 255⟩, ⟨1, 0, 0, 255⟩, ⟨4, 0, 0, 255⟩, ⟨2, 0, 0, 255⟩, ⟨5, 0, 0, 255⟩, ⟨2, 0, 0, 255⟩, ⟨2, 0, 0, 255⟩,
    ⟨2, 0, 0, 255⟩, ⟨2, 0, 0, 255⟩]
  size := by decide

/-- The errors at the start and after each pass until nothing changes. -/
def passErrors (env : Env ColorCount) (fuel : Nat) : Nat → Clusters ColorCount → Nat → List Nat
  | 0, cl, _ => [clusterError cl]
  | left + 1, cl, k => clusterError cl :: match iteration env fuel cl k with
    | .ok (cl', true, k') => passErrors env fuel left cl' k'
    | .ok (cl', false, _) => [clusterError cl']
    | _ => []

/-- **C114**, no safe harbour: the clustering that is returned may be worse than the one after the first pass, even if all
colours are shades of one tint (where clustering ends, C80).  Here the error is 36 at the start, 5 after one pass, and 7 in
the end. -/
theorem C114_worse : ∃ cl0 cl1 cl, Kmeans.init (colorEnv EndsExamples.outside false) 20 (colorCounts id fourReds) 2 = .ok cl0 ∧
    iteration (colorEnv EndsExamples.outside false) 20 cl0 0 = .ok (cl1, true, 0) ∧
    cluster (colorEnv EndsExamples.outside false) 20 (colorCounts id fourReds) 2 = .ok cl ∧
    clusterError cl0 = 36 ∧ clusterError cl1 = 5 ∧ clusterError cl = 7 := by
  have h : (match Kmeans.init (colorEnv EndsExamples.outside false) 20 (colorCounts id fourReds) 2 with
      | .ok cl0 => match iteration (colorEnv EndsExamples.outside false) 20 cl0 0 with
        | .ok (cl1, true, 0) => match cluster (colorEnv EndsExamples.outside false) 20 (colorCounts id fourReds) 2 with
          | .ok cl => decide (clusterError cl0 = 36 ∧ clusterError cl1 = 5 ∧ clusterError cl = 7)
          | _ => false
        | _ => false
      | _ => false) = true := by decide +kernel
  split at h
  · rename_i cl0 h0
    split at h
    · rename_i cl1 h1
      split at h
      · rename_i cl h2
        obtain ⟨a, b, c⟩ := of_decide_eq_true h
        exact ⟨cl0, cl1, cl, h0, h1, h2, a, b, c⟩
      · cases h
    · cases h
  · cases h

/-! ## Concrete cases -/

namespace PassesExamples
open EndsExamples

theorem id_order {α : Type} : IsOrder (id : List α → List α) := fun _ => .refl _

/-- All passes of that run. -/
example : (match Kmeans.init (colorEnv outside false) 20 (colorCounts id fourReds) 2 with
    | .ok cl => passErrors (colorEnv outside false) 20 20 cl 0
    | _ => []) = [36, 5, 7, 7] := by decide +kernel

/-- C114_picture, C114_assign, C114_pass: the first pass for the reds. -/
example : ∃ cl0 cl1 red, Reached (colorEnv outside false) 20 (colorCounts id fourReds) 2 cl0 ∧
    iteration (colorEnv outside false) 20 cl0 0 = .ok (cl1, true, 0) ∧
    clusterError cl1 < clusterError cl0 + 3 * 7 ∧ reducedImg (reducedColors cl1) fourReds = some red ∧
    squaredError fourReds.rgbPixels red.pixels = 5 := by
  obtain ⟨cl0, cl1, cl, h0, h1, -, -, e1, -⟩ := C114_worse
  have hfit : CountsFit fourReds := .of_small (by decide)
  have hr : Reached (colorEnv outside false) 20 (colorCounts id fourReds) 2 cl0 := .start h0
  obtain ⟨red, h3, h4⟩ := C114_picture sortByDist_isSort id_order hfit (by unfold Addressable; decide) (.step hr h1)
  exact ⟨cl0, cl1, red, hr, h1, (C114_pass (o := outside) Ieee.lawful sortByDist_isSort id_order hfit hr h1).2 rfl, h3, h4.trans e1⟩

/-- C114_assign: from 36 to at most 35. -/
example : ∃ cl0 cl1, assignPoints (colorEnv outside false) cl0 = .ok (cl1, true) ∧ clusterError cl0 = 36 ∧ clusterError cl1 < 36 := by
  obtain ⟨cl0, cl1, cl, h0, h1, -, e0, -⟩ := C114_worse
  obtain ⟨cl2, h2, -⟩ := iteration_parts h1
  exact ⟨cl0, cl2, h2, e0, e0 ▸ (C114_assign (o := outside) (img := fourReds) Ieee.lawful sortByDist_isSort id_order
    (.of_small (by decide)) (.start h0) h2).2 rfl⟩

/-- C114_update: the second pass for the reds moves the centroids to a place that is worse by 2 at least. -/
example : ∃ (cl1 cl2 cl3 : Clusters ColorCount) (ch : Bool), assignPoints (colorEnv outside false) cl1 = .ok (cl2, ch) ∧
    updateCentroids (colorEnv outside false) 20 cl2 0 = .ok (cl3, 0) ∧ clusterError cl1 = 5 ∧
    clusterError cl2 + 2 ≤ clusterError cl3 ∧ clusterError cl3 ≤ clusterError cl2 + 21 := by
  obtain ⟨cl0, cl1, cl, h0, h1, -, -, e1, -⟩ := C114_worse
  have h : (match Kmeans.init (colorEnv outside false) 20 (colorCounts id fourReds) 2 with
      | .ok cl0 => match iteration (colorEnv outside false) 20 cl0 0 with
        | .ok (cl1, true, 0) => match assignPoints (colorEnv outside false) cl1 with
          | .ok (cl2, _) => match updateCentroids (colorEnv outside false) 20 cl2 0 with
            | .ok (cl3, 0) => decide (clusterError cl2 + 2 ≤ clusterError cl3)
            | _ => false
          | _ => false
        | _ => false
      | _ => false) = true := by decide +kernel
  simp only [h0, h1] at h
  split at h
  · rename_i cl2 ch h2
    split at h
    · rename_i cl3 h3
      exact ⟨cl1, cl2, cl3, ch, h2, h3, e1, of_decide_eq_true h, C114_update (img := fourReds) (o := outside) sortByDist_isSort id_order
        (.of_small (by decide)) (.step (.start h0) h1) h2 h3⟩
    · cases h
  · cases h

/-- C114_decoded: the file made from the reds gives a picture with the error 7. -/
example : ∃ m bytes out, clusterColorsEncode outside false id id (listHeap _) 20 2 fourReds = .ok m ∧
    Emits Emits.anyWay m bytes () ∧ clusterColorsDecode bytes = .ok out ∧ squaredError fourReds.rgbPixels out.pixels = 7 := by
  obtain ⟨cl0, cl1, cl, -, -, h, -, -, e⟩ := C114_worse
  obtain ⟨m, bytes, out, h1, h2, h3, h4⟩ := C114_decoded (M := listHeap _) (ho2 := id) (colors := 2) (o := outside) (img := fourReds)
    sortByDist_isSort id_order id_order (.of_small (by decide)) (by unfold Addressable; decide) h
  exact ⟨m, bytes, out, h1, h2, h3, h4.trans e⟩

/-- C114_tight: 1000 pixels, from 3 to 2997. -/
example : ∃ cl cl', Kmeans.init (colorEnv outside true) 1 (colorCounts id (nearlyBlack 1000 (by decide))) 1 = .ok cl ∧
    iteration (colorEnv outside true) 1 cl 0 = .ok (cl', false, 0) ∧ clusterError cl = 3 ∧ clusterError cl' = 2997 := by
  obtain ⟨cl, cl', h1, h2, h3, h4⟩ := C114_tight (o := outside) sortByDist_isSort true 0 0 1000 (by decide)
  refine ⟨cl, cl', h1, h2, h3, ?_⟩
  rw [h4, h3, (nearlyBlack 1000 (by decide)).size]
  rfl

end PassesExamples
end Cniic
