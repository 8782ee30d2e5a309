import Verif.Proofs.KmeansCount
import Verif.Props.Ends
import Verif.Props.Hang

/-!
# The counters of the clustering (C87)

The loop of `cluster` counts its iterations in an `i32`.  In release builds this shows in a message only; in debug builds the
2^31st iteration panics, so that no clustering runs for ever.
-/

namespace Cniic
open Spec Kmeans Spec.Kmeans

/-- **C87**, any points: without overflow checks the counters do not matter; with them, they do not matter to a run of fewer than
2^31 iterations and clusters.  So what is proved for the model without counters holds for these runs. -/
theorem C87_same {T : Type} {env : Env T} (hs : IsSort env.sort) (chk : Bool) (fuel : Nat) (points : List T) (n : Nat)
    (h : chk = true → fuel < 2 ^ 31 ∧ (n < 2 ^ 31 ∨ points.length < n)) :
    clusterCount chk env fuel points n = cluster env fuel points n := clusterCount_eq hs fuel points n h

/-- **C87**, any points: a clustering that ends within fewer than 2^31 iterations ends with the same result. -/
theorem C87_ends_alike {T : Type} {env : Env T} (hs : IsSort env.sort) (chk : Bool) {least : Nat} {points : List T} {n : Nat}
    {r : Ret Unit (Clusters T)} (hr : r ≠ .err ()) (h : cluster env least points n = r)
    (hl : chk = true → least < 2 ^ 31 ∧ (n < 2 ^ 31 ∨ points.length < n)) {fuel : Nat} (hf : least ≤ fuel) :
    clusterCount chk env fuel points n = r :=
  h ▸ clusterCount_stable hs (h ▸ hr) hl hf

/-- **C87**, any points: with overflow checks every clustering ends, if the random numbers hit every cluster again and again: it
panics, or it ends as it would without counters. -/
theorem C87_debug_ends {T : Type} {env : Env T} (hs : IsSort env.sort) {points : List T} {n : Nat} (hf : Fair env.rand n)
    (hn : n < 2 ^ 31 ∨ points.length < n) :
    ∃ r least, r ≠ .err () ∧ (∀ fuel, least ≤ fuel → clusterCount true env fuel points n = r) ∧
      (r = .panic ∨ ∀ fuel, least ≤ fuel → cluster env fuel points n = r) := clusterCount_ends hs hf hn

theorem few_colors {ho : List (Rgb UInt8 × Nat) → List (Rgb UInt8 × Nat)} (hho : IsOrder ho) (img : Img) (n : Nat) :
    n < 2 ^ 31 ∨ (colorCounts ho img).length < n := by
  have := colors_length (colorCounts_nodup hho img)
  rw [List.length_map] at this
  omega

/-- **C87**, the encoders: in release builds, and in debug builds for fewer than 2^31 iterations, they are those of the model
without counters. -/
theorem C87_encoders {o : Outside} (hs : IsSort o.sort) (chk : Bool) {ho1 : List (Rgb UInt8 × Nat) → List (Rgb UInt8 × Nat)}
    (hho : IsOrder ho1) (ho2 : List (Rgb UInt8 × Nat) → List (Rgb UInt8 × Nat)) (M : MinHeap (Rgb UInt8)) (fuel : Nat)
    (n : UInt64) (img : Img) (h : chk = true → fuel < 2 ^ 31) :
    clusterColorsEncodeCount o chk ho1 ho2 M fuel n img = clusterColorsEncode o chk ho1 ho2 M fuel n img ∧
      ((chk = true → img.pixels.length < 2 ^ 31) → voronoiEncodeCount o chk fuel n img = voronoiEncode o chk fuel n img) := by
  constructor
  · rw [clusterColorsEncodeCount, clusterColorsEncode,
      clusterCount_eq (env := colorEnv o chk) hs fuel _ _ fun hc => ⟨h hc, few_colors hho img _⟩]
  · intro hp
    rw [voronoiEncodeCount, voronoiEncode, clusterCount_eq (env := posEnv o chk) hs fuel _ _ fun hc => ⟨h hc, ?_⟩]
    have : (dataPoints img).length = img.pixels.length := by simp [dataPoints, Img.rgbPixels]
    have := hp hc
    omega

/-- **C87**, cluster-colors in debug builds: every encoding ends. -/
theorem C87_cluster_colors_ends {o : Outside} (hs : IsSort o.sort) {ho1 : List (Rgb UInt8 × Nat) → List (Rgb UInt8 × Nat)}
    (hho : IsOrder ho1) (ho2 : List (Rgb UInt8 × Nat) → List (Rgb UInt8 × Nat)) (M : MinHeap (Rgb UInt8)) (n : UInt64) (img : Img)
    (hf : Fair o.rand n.toNat) :
    ∃ r least, r ≠ .err () ∧ ∀ fuel, least ≤ fuel → clusterColorsEncodeCount o true ho1 ho2 M fuel n img = r := by
  obtain ⟨r, least, hr, h, -⟩ := clusterCount_ends (env := colorEnv o true) hs (points := colorCounts ho1 img) hf
    (few_colors hho img _)
  refine ⟨r >>= fun clusters => Ret.expect (reducedImg (reducedColors clusters) img) >>= fun reduced =>
    if h : reduced.pixels.length = reduced.width.toNat * reduced.height.toNat then
      .ok (hufmanEncode M ho2 (reduced.toImg h))
    else .panic, least, ?_, fun fuel hfu => ?_⟩
  · intro he
    rcases Ret.bind_err.1 he with he | ⟨cl, -, he⟩
    · exact hr he
    rcases Ret.bind_err.1 he with he | ⟨rd, -, he⟩
    · exact Ret.expect_ne_err he
    split at he <;> cases he
  · rw [clusterColorsEncodeCount, h fuel hfu]

/-- **C87**, the picture of C63: a release build does not end; a debug build panics in the iteration number 2^31. -/
theorem C87_circling {o : Outside} (hfl : o.fl.Lawful) (hs : IsSort o.sort) (hlow : 0 < o.lower 2) (chk : Bool)
    {ho1 : List (Rgb UInt8 × Nat) → List (Rgb UInt8 × Nat)} (hho : IsOrder ho1)
    (ho2 : List (Rgb UInt8 × Nat) → List (Rgb UInt8 × Nat)) (M : MinHeap (Rgb UInt8)) (fuel : Nat) :
    clusterColorsEncodeCount o chk ho1 ho2 M fuel 2 circlingColors =
      if chk = true ∧ 2 ^ 31 ≤ fuel then .panic else .err () := by
  cases chk with
  | false =>
    rw [(C87_encoders hs false hho ho2 M fuel 2 circlingColors (by simp)).1, C63_cluster_colors hfl hs hlow false hho,
      if_neg (by simp)]
  | true =>
    rw [clusterColorsEncodeCount, show (2 : UInt64).toNat = 2 from rfl,
      clusterCount_circles (env := colorEnv o true) hs (circlingColors_circles hfl hs hlow true hho) (by decide) fuel]
    by_cases h : fuel < 2 ^ 31
    · rw [if_pos h, if_neg (by omega)]
      rfl
    · rw [if_neg h, if_pos ⟨rfl, by omega⟩]
      rfl

/-! ## Concrete cases -/

namespace CountExamples
open ClusterExamples EndsExamples

/-- C87: a run with the counters. -/
example : clusterCount true (colorEnv out true) 9 (colorCounts id img) 2 = cluster (colorEnv out true) 9 (colorCounts id img) 2 :=
  C87_same sortByDist_isSort true 9 _ 2 fun _ => ⟨by decide, .inl (by decide)⟩

/-- C87: the same for any larger number of granted iterations. -/
example (fuel : Nat) (h : 9 ≤ fuel) : ∃ cl, clusterCount true (colorEnv out true) fuel (colorCounts id img) 2 = .ok cl ∧
    cl.centroids = [⟨⟨0, 0, 150⟩, 1⟩, ⟨⟨236, 0, 0⟩, 1⟩] :=
  ⟨_, C87_ends_alike sortByDist_isSort true (by intro h; cases h) color_run (fun _ => ⟨by decide, .inl (by decide)⟩) h, rfl⟩

/-- C87: this run without counters does not end, but with them it does. -/
example : (∀ fuel, cluster (colorEnv outside true) fuel (colorCounts id circlingColors) 2 = .err ()) ∧
    ∃ least, ∀ fuel, least ≤ fuel → clusterCount true (colorEnv outside true) fuel (colorCounts id circlingColors) 2 = .panic := by
  have h := cluster_endless (circlingColors_circles (o := outside) Ieee.lawful sortByDist_isSort (by decide) true (fun _ => .refl _))
  refine ⟨h, ?_⟩
  obtain ⟨r, least, hr, h1, h2⟩ := C87_debug_ends (env := colorEnv outside true) sortByDist_isSort
    (points := colorCounts id circlingColors) (fair_id 2) (.inl (by decide))
  rcases h2 with rfl | h2
  · exact ⟨least, h1⟩
  · exact absurd ((h2 least (Nat.le_refl _)).symm.trans (h least)) hr

/-- C87: the encoders with counters. -/
example : clusterColorsEncodeCount out true id id (listHeap _) 9 2 img = clusterColorsEncode out true id id (listHeap _) 9 2 img ∧
    voronoiEncodeCount out true 9 2 img = voronoiEncode out true 9 2 img := by
  have := C87_encoders (o := out) sortByDist_isSort true (fun _ => .refl _) id (listHeap _) 9 2 img (by decide)
  exact ⟨this.1, this.2 (by decide)⟩

example (n : UInt64) (img : Img) : ∃ r least, r ≠ .err () ∧ ∀ fuel, least ≤ fuel →
    clusterColorsEncodeCount outside true id id (listHeap _) fuel n img = r :=
  C87_cluster_colors_ends sortByDist_isSort (fun _ => .refl _) id (listHeap _) n img (fair_id _)

/-- C87: the last iteration that does not panic, and the first that does. -/
example : clusterColorsEncodeCount outside true id id (listHeap _) 2147483647 2 circlingColors = .err () ∧
    clusterColorsEncodeCount outside true id id (listHeap _) 2147483648 2 circlingColors = .panic := by
  constructor
  · rw [C87_circling (o := outside) (ho1 := id) Ieee.lawful sortByDist_isSort (by decide) true (fun _ => .refl _), if_neg (by decide)]
  · rw [C87_circling (o := outside) (ho1 := id) Ieee.lawful sortByDist_isSort (by decide) true (fun _ => .refl _), if_pos (by decide)]

end CountExamples
end Cniic
