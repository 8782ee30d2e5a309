import Verif.Proofs.Voronoi
import Verif.Props.Codecs

/-!
# Properties of the clustering codecs (C47-C49, C59, C61, C62)

Hash orders, random numbers, the sorting function and floating point functions are arbitrary; `chk` tells whether
overflow checks are compiled in.
-/

namespace Cniic
open Spec SerSpec Kmeans Spec.Kmeans

section
variable {o : Outside} {chk : Bool} {ho1 ho2 : List (Rgb UInt8 × Nat) → List (Rgb UInt8 × Nat)}
  {M : MinHeap (Rgb UInt8)} {fuel : Nat} {n : UInt64} {img : Img}

/-- What becomes of a picture of any size: as C47, but a group is only known as a part of the points, with its mean.  The
result is the picture made from the clusters. -/
theorem clusterColors_reduced (hs : IsSort o.sort) (h1 : IsOrder ho1) (h2 : IsOrder ho2) (ha : Addressable img)
    {cl : Clusters ColorCount} (h : cluster (colorEnv o chk) fuel (colorCounts ho1 img) n.toNat = .ok cl) :
    ∃ m, clusterColorsEncode o chk ho1 ho2 M fuel n img = .ok m ∧
      ∃ (bytes : List UInt8) (group : Rgb UInt8 → Nat) (palette : Nat → Rgb UInt8),
        reducedImg (reducedColors cl) img = some
          { width := img.width, height := img.height, pixels := img.rgbPixels.map fun c => palette (group c) } ∧
        Emits Emits.anyWay m bytes () ∧
        clusterColorsDecode bytes =
          .ok { width := img.width, height := img.height, pixels := img.rgbPixels.map fun c => palette (group c) } ∧
        ∀ c ∈ img.rgbPixels, group c < n.toNat ∧ ∃ ps ctr, Part ps (colorCounts ho1 img) ∧ c ∈ ps.map (·.color) ∧
          (∀ x ∈ img.rgbPixels, group x = group c ↔ x ∈ ps.map (·.color)) ∧ ColorCount.mean chk ps = .ok ctr ∧
          palette (group c) = ctr.color := by
  obtain ⟨hlen, hperm⟩ := C43_points (env := colorEnv o chk) hs h
  have hcols : ((cl.intoIter.map (·.2)).flatten.map (·.color)).Perm ((colorCounts ho1 img).map (·.color)) := hperm.map _
  have hnd : ((cl.intoIter.map (·.2)).flatten.map (·.color)).Nodup := hcols.nodup_iff.2 (colorCounts_nodup h1 img)
  have hmem : ∀ c, c ∈ (cl.intoIter.map (·.2)).flatten.map (·.color) ↔ c ∈ img.rgbPixels := by
    intro c
    rw [hcols.mem_iff, mem_colorCounts h1]
  have hlook : optMap (lastLookup (reducedColors cl)) img.rgbPixels =
      some (img.rgbPixels.map fun c => paletteOf cl.intoIter (groupOf cl.intoIter c)) := by
    apply optMap_ok
    intro c hc
    obtain ⟨ctr, ps, -, -, e1, e2⟩ := groupOf_spec hnd ((hmem c).2 hc)
    rw [e1]; exact e2
  have hplen : img.rgbPixels.length = img.width.toNat * img.height.toNat := by
    rw [Img.rgbPixels, List.length_map]; exact img.size
  have hred : reducedImg (reducedColors cl) img = some
      { width := img.width, height := img.height
        pixels := img.rgbPixels.map fun c => paletteOf cl.intoIter (groupOf cl.intoIter c) } := by
    rw [reducedImg, new_eq img ha]
    simp only [Option.bind_eq_bind, Option.bind_some, hlook]
  have hsize : (img.rgbPixels.map fun c => paletteOf cl.intoIter (groupOf cl.intoIter c)).length =
      img.width.toNat * img.height.toNat := by rw [List.length_map, hplen]
  have hne : img.pixels ≠ [] := by
    intro he
    have hp0 := (reached_invariant hs (cluster_ok h).choose_spec.choose_spec.choose_spec.1).positive
    have hcc : colorCounts ho1 img = [] := by
      rw [List.eq_nil_iff_forall_not_mem]
      intro p hp
      have := (mem_colorCounts h1 img p.color).1 (List.mem_map_of_mem hp)
      rw [Img.rgbPixels, he] at this
      simp at this
    have := C49_panics (colorEnv o chk) fuel (colorCounts ho1 img) n.toNat (Or.inr (by rw [hcc]; exact hp0))
    rw [this] at h; cases h
  let red : RgbImage := { width := img.width, height := img.height
                          pixels := img.rgbPixels.map fun c => paletteOf cl.intoIter (groupOf cl.intoIter c) }
  obtain ⟨bytes, hb, hd⟩ := C28_hufman_lossless M ho2 h2 (red.toImg hsize) ha (by
    show List.map _ (List.map _ (List.map _ img.pixels)) ≠ []
    simpa using hne)
  refine ⟨hufmanEncode M ho2 (red.toImg hsize), ?_, bytes, groupOf cl.intoIter, paletteOf cl.intoIter, hred, hb, ?_, ?_⟩
  · unfold clusterColorsEncode
    rw [h, Ret.bind_ok_eq, hred]
    show (if h : _ then _ else _) = _
    rw [dif_pos hsize]
  · show hufmanDecode bytes = _
    rw [hd]
    congr 1
    show RgbImage.mk _ _ _ = RgbImage.mk _ _ _
    congr 1
    show List.map _ (List.map _ _) = _
    rw [List.map_map]
    apply (List.map_congr_left _).trans (List.map_id _)
    intro c _
    rfl
  · intro c hc
    obtain ⟨ctr, ps, e1, e2, e3, -⟩ := groupOf_spec hnd ((hmem c).2 hc)
    have hlt := (List.getElem?_eq_some_iff.1 e1).1
    refine ⟨by omega, ps, ctr, part_of_mem hperm (List.mem_map_of_mem (f := (·.2)) (List.mem_of_getElem? e1)), e2,
      fun x hx => groupOf_eq hnd e1 ((hmem x).2 hx), ?_, e3⟩
    have hps : ps ≠ [] := by rintro rfl; simp at e2
    exact (C44_centroids (env := colorEnv o chk) hs (color_meanOfSome o chk) h ctr ps (List.mem_of_getElem? e1)).1 hps

/-- What becomes of a picture of any size: as C47, but a group is only known as a part of the points, with its mean. -/
theorem clusterColors_groups (hs : IsSort o.sort) (h1 : IsOrder ho1) (h2 : IsOrder ho2) (ha : Addressable img)
    {cl : Clusters ColorCount} (h : cluster (colorEnv o chk) fuel (colorCounts ho1 img) n.toNat = .ok cl) :
    ∃ m, clusterColorsEncode o chk ho1 ho2 M fuel n img = .ok m ∧
      ∃ (bytes : List UInt8) (group : Rgb UInt8 → Nat) (palette : Nat → Rgb UInt8),
        Emits Emits.anyWay m bytes () ∧
        clusterColorsDecode bytes =
          .ok { width := img.width, height := img.height, pixels := img.rgbPixels.map fun c => palette (group c) } ∧
        ∀ c ∈ img.rgbPixels, group c < n.toNat ∧ ∃ ps ctr, Part ps (colorCounts ho1 img) ∧ c ∈ ps.map (·.color) ∧
          (∀ x ∈ img.rgbPixels, group x = group c ↔ x ∈ ps.map (·.color)) ∧ ColorCount.mean chk ps = .ok ctr ∧
          palette (group c) = ctr.color := by
  obtain ⟨m, hm, bytes, group, palette, -, h⟩ := clusterColors_reduced (M := M) hs h1 h2 ha h
  exact ⟨m, hm, bytes, group, palette, h⟩

/-- **C47.** If clustering returns, so does the encoder: each colour of the image has a cluster.  Decoding gives an
image of the same size whose colours are functions of the original colours: there are `n` groups of colours, and
the new colour of a group is the mean of the pixels in it, rounded down.  No colour may occur 2^32 times or more (see C83). -/
theorem C47_cluster_colors (hs : IsSort o.sort) (h1 : IsOrder ho1) (h2 : IsOrder ho2) (ha : Addressable img)
    (hfit : CountsFit img) {cl : Clusters ColorCount}
    (h : cluster (colorEnv o chk) fuel (colorCounts ho1 img) n.toNat = .ok cl) :
    ∃ m, clusterColorsEncode o chk ho1 ho2 M fuel n img = .ok m ∧
      ∃ (bytes : List UInt8) (group : Rgb UInt8 → Nat) (palette : Nat → Rgb UInt8),
        Emits Emits.anyWay m bytes () ∧
        clusterColorsDecode bytes =
          .ok { width := img.width, height := img.height, pixels := img.rgbPixels.map fun c => palette (group c) } ∧
        ∀ c ∈ img.rgbPixels, group c < n.toNat ∧
          palette (group c) = floorMean (img.rgbPixels.filter fun x => group x == group c) := by
  obtain ⟨m, hm, bytes, group, palette, he, hd, hg⟩ :=
    clusterColors_groups (M := M) hs h1 h2 ha h
  refine ⟨m, hm, bytes, group, palette, he, hd, ?_⟩
  intro c hc
  obtain ⟨hlt, ps, ctr, hpart, hin, hgr, hmean, hpal⟩ := hg c hc
  refine ⟨hlt, ?_⟩
  obtain ⟨ctr', m1, m2⟩ := mean_pixels chk h1 img hfit ps hpart (by rintro rfl; simp at hin)
  rw [hmean] at m1
  cases m1
  rw [hpal, m2]
  congr 1
  apply List.filter_congr
  intro x hx
  rw [Bool.eq_iff_iff, decide_eq_true_eq, beq_iff_eq]
  exact (hgr x hx).symm

/-- **C47**, the number of colours. -/
theorem C47_colors (hs : IsSort o.sort) (h1 : IsOrder ho1) (h2 : IsOrder ho2) (ha : Addressable img)
    {m : W Unit} (h : clusterColorsEncode o chk ho1 ho2 M fuel n img = .ok m) :
    ∃ (bytes : List UInt8) (out : RgbImage) (colors : List (Rgb UInt8)),
      Emits Emits.anyWay m bytes () ∧ clusterColorsDecode bytes = .ok out ∧ colors.length = n.toNat ∧
      ∀ c ∈ out.pixels, c ∈ colors := by
  unfold clusterColorsEncode at h
  obtain ⟨cl, hcl, -⟩ := Ret.bind_ok.1 h
  obtain ⟨m', hm', bytes, group, palette, he, hd, hg⟩ :=
    clusterColors_groups (M := M) hs h1 h2 ha hcl
  unfold clusterColorsEncode at hm'
  rw [h] at hm'
  cases hm'
  refine ⟨bytes, _, (List.range n.toNat).map palette, he, hd, by simp, ?_⟩
  intro c hc
  obtain ⟨x, hx, rfl⟩ := List.mem_map.1 hc
  exact List.mem_map_of_mem (List.mem_range.2 (hg x hx).1)

/-- **C49**, cluster-colors: no clusters, or fewer colours than clusters. -/
theorem C49_cluster_colors (h1 : IsOrder ho1) (colors : List (Rgb UInt8)) (hc : ∀ c ∈ img.rgbPixels, c ∈ colors)
    (h : n = 0 ∨ colors.length < n.toNat) : clusterColorsEncode o chk ho1 ho2 M fuel n img = .panic := by
  unfold clusterColorsEncode
  rw [C49_panics]
  · rfl
  · rcases h with rfl | h
    · exact Or.inl rfl
    · right
      have := nodup_length_le (colorCounts_nodup h1 img) (l' := colors)
        (fun c hcc => hc c ((mem_colorCounts h1 img c).1 hcc))
      rw [List.length_map] at this
      omega

/-- **C49**, voronoi: no clusters, or fewer pixels than clusters. -/
theorem C49_voronoi (h : n = 0 ∨ img.pixels.length < n.toNat) : voronoiEncode o chk fuel n img = .panic := by
  unfold voronoiEncode
  rw [C49_panics]
  · rfl
  · rcases h with rfl | h
    · exact Or.inl rfl
    · right
      rw [dataPoints, List.length_map, List.length_zipIdx, Img.rgbPixels, List.length_map]
      exact h

/-- **C59**, cluster-colors: if no colour occurs 2^32 times or more the encoder panics only if there are no clusters or
more clusters than colours, or in the check for enough active clusters. -/
theorem C59_cluster_colors (hs : IsSort o.sort) (h1 : IsOrder ho1) (ha : Addressable img)
    (hfit : CountsFit img) (h : clusterColorsEncode o chk ho1 ho2 M fuel n img = .panic) :
    n = 0 ∨ (∃ colors : List (Rgb UInt8), (∀ c ∈ img.rgbPixels, c ∈ colors) ∧ colors.length < n.toNat) ∨
      ∃ cl k0 k1 cl', Reached (colorEnv o chk) fuel (colorCounts ho1 img) n.toNat cl ∧
        iteration (colorEnv o chk) fuel cl k0 = .ok (cl', false, k1) ∧
        active cl' < minActive o.fl (colorCounts ho1 img).length n.toNat := by
  cases hcl : cluster (colorEnv o chk) fuel (colorCounts ho1 img) n.toNat with
  | ok cl =>
    obtain ⟨m, hm, -⟩ := clusterColors_groups (M := M) (ho2 := id) hs h1 (fun _ => .refl _) ha hcl
    unfold clusterColorsEncode at h hm
    rw [hcl, Ret.bind_ok_eq] at h hm
    cases hr : reducedImg (reducedColors cl) img with
    | none => rw [hr] at hm; cases hm
    | some r =>
      rw [hr] at h hm
      change (if h : _ then _ else _) = _ at h
      change (if h : _ then _ else _) = _ at hm
      split at h
      · cases h
      · rename_i hn
        rw [dif_neg hn] at hm
        cases hm
  | err e =>
    unfold clusterColorsEncode at h
    rw [hcl] at h
    cases h
  | panic =>
    rcases C59_panics (env := colorEnv o chk) (color_total o chk h1 img hfit) hs hcl with h0 | h0 | h0
    · exact Or.inl (UInt64.toNat_inj.1 h0)
    · refine Or.inr (Or.inl ⟨(colorCounts ho1 img).map (·.color), fun c hc => (mem_colorCounts h1 img c).2 hc, ?_⟩)
      rw [List.length_map]; exact h0
    · exact Or.inr (Or.inr h0)

end

/-! ## voronoi -/

/-- The coordinates of a pixel fit in 32 bits. -/
private theorem coords {w h : UInt32} {i : Nat} (hi : i < w.toNat * h.toNat) :
    (UInt32.ofNat (i % w.toNat)).toNat = i % w.toNat ∧ (UInt32.ofNat (i / w.toNat)).toNat = i / w.toNat ∧
      i % w.toNat < w.toNat ∧ i / w.toNat < h.toNat := by
  have hw : 0 < w.toNat := Nat.pos_of_ne_zero (by intro h0; rw [h0] at hi; simp at hi)
  have h1 := Nat.mod_lt i hw
  have h2 : i / w.toNat < h.toNat := Nat.div_lt_of_lt_mul hi
  have h3 := w.toNat_lt
  have h4 := h.toNat_lt
  refine ⟨?_, ?_, h1, h2⟩
  · rw [UInt32.toNat_ofNat', Nat.mod_eq_of_lt (by omega)]
  · rw [UInt32.toNat_ofNat', Nat.mod_eq_of_lt (by omega)]

private theorem decode_with {chk : Bool} {w h : UInt32} {cs : List ColorPos} {rest : List UInt8}
    (ha : 3 * (w.toNat * h.toNat) < 2 ^ 63) (hl : cs.length < 2 ^ 64) (hne : cs ≠ [])
    (f : Nat → Nat → ColorPos → Nat)
    (hk : ∀ i, i < w.toNat * h.toNat → ∀ c ∈ cs,
      ∃ k, pixelKey chk (UInt32.ofNat (i % w.toNat)) (UInt32.ofNat (i / w.toNat)) c = some k ∧
        k.toNat = f (i % w.toNat) (i / w.toNat) c) :
    ∃ px, voronoiDecode chk (voronoiBytes w h cs ++ rest) = .ok { width := w, height := h, pixels := px } ∧
      px.length = w.toNat * h.toNat ∧
      ∀ i, i < w.toNat * h.toNat → ∃ best, px[i]? = some best.color ∧
        IsFirstMin (f (i % w.toNat) (i / w.toNat)) cs best := by
  rw [voronoiDecode_eq chk w h cs rest ha hl]
  cases ho : optMap (fun i => pixelColor chk cs (UInt32.ofNat (i % w.toNat)) (UInt32.ofNat (i / w.toNat)))
      (List.range (w.toNat * h.toNat)) with
  | none =>
    exfalso
    have hsome := optMap_ok (l := List.range (w.toNat * h.toNat))
      (f := fun i => pixelColor chk cs (UInt32.ofNat (i % w.toNat)) (UInt32.ofNat (i / w.toNat)))
      (g := fun i => (pixelColor chk cs (UInt32.ofNat (i % w.toNat)) (UInt32.ofNat (i / w.toNat))).getD black) (by
        intro i hi
        obtain ⟨b, hb, -⟩ := pixelColor_ok hne (hk i (List.mem_range.1 hi))
        simp [hb])
    rw [ho] at hsome
    cases hsome
  | some px =>
    obtain ⟨h1, h2⟩ := optMap_some ho
    rw [List.length_range] at h1
    refine ⟨px, rfl, h1, ?_⟩
    intro i hi
    obtain ⟨b, hb, hm⟩ := pixelColor_ok hne (hk i hi)
    refine ⟨b, ?_, hm⟩
    rw [← h2 i i (List.getElem?_range hi)]
    exact hb

/-- **C48.** Without overflow checks decoding gives each pixel the colour of the first centroid with the least
squared distance modulo 2^32. -/
theorem C48_release (w h : UInt32) (cs : List ColorPos) (rest : List UInt8) (ha : 3 * (w.toNat * h.toNat) < 2 ^ 63)
    (hl : cs.length < 2 ^ 64) (hne : cs ≠ []) :
    ∃ px, voronoiDecode false (voronoiBytes w h cs ++ rest) = .ok { width := w, height := h, pixels := px } ∧
      px.length = w.toNat * h.toNat ∧
      ∀ i, i < w.toNat * h.toNat → ∃ best, px[i]? = some best.color ∧
        IsFirstMin (fun c => wrappedSqDist c (i % w.toNat) (i / w.toNat)) cs best := by
  refine decode_with ha hl hne (fun x y c => wrappedSqDist c x y) ?_
  intro i hi c _
  obtain ⟨k, h1, h2⟩ := pixelKey_false (UInt32.ofNat (i % w.toNat)) (UInt32.ofNat (i / w.toNat)) c
  obtain ⟨e1, e2, -⟩ := coords hi
  rw [e1, e2] at h2
  exact ⟨k, h1, h2⟩

private theorem sq_le {a b k : Nat} (ha : a ≤ k) (hb : b ≤ k) : ((a : Int) - b) * ((a : Int) - b) ≤ k * k := by
  rw [← Int.natAbs_mul_self', ← Int.natCast_mul, ← Int.natCast_mul]
  exact Int.ofNat_le.2 (Nat.mul_le_mul (by omega) (by omega))

private theorem small {c : ColorPos} {x y : Nat} (hx : c.x.toNat ≤ 46340) (hy : c.y.toNat ≤ 46340) (hx' : x ≤ 46340)
    (hy' : y ≤ 46340) : wrappedSqDist c x y = sqDist c x y := by
  have h1 := sqDist_int c x y
  have h2 := sq_le hx hx'
  have h3 := sq_le hy hy'
  rw [wrappedSqDist, Nat.mod_eq_of_lt]
  omega

/-- **C48**, sizes up to 46341: the centroid is really the nearest one. -/
theorem C48_nearest (w h : UInt32) (cs : List ColorPos) (rest : List UInt8) (hw : w.toNat ≤ 46341)
    (hh : h.toNat ≤ 46341) (hcs : ∀ c ∈ cs, c.x.toNat < w.toNat ∧ c.y.toNat < h.toNat) (hl : cs.length < 2 ^ 64)
    (hne : cs ≠ []) :
    ∃ px, voronoiDecode false (voronoiBytes w h cs ++ rest) = .ok { width := w, height := h, pixels := px } ∧
      px.length = w.toNat * h.toNat ∧
      ∀ i, i < w.toNat * h.toNat → ∃ best, px[i]? = some best.color ∧
        IsFirstMin (fun c => sqDist c (i % w.toNat) (i / w.toNat)) cs best := by
  have ha : 3 * (w.toNat * h.toNat) < 2 ^ 63 := by
    have := Nat.mul_le_mul hw hh
    omega
  refine decode_with ha hl hne (fun x y c => sqDist c x y) ?_
  intro i hi c hc
  obtain ⟨k, h1, h2⟩ := pixelKey_false (UInt32.ofNat (i % w.toNat)) (UInt32.ofNat (i / w.toNat)) c
  obtain ⟨e1, e2, e3, e4⟩ := coords hi
  have := hcs c hc
  rw [e1, e2, small (by omega) (by omega) (by omega) (by omega)] at h2
  exact ⟨k, h1, h2⟩

/-- **C48**, the limit is sharp: with width and height 46342 the pixel at the top left may get the colour of the
farther one of two centroids. -/
theorem C48_limit : ∃ (near far : ColorPos) (px : List (Rgb UInt8)), near.color ≠ far.color ∧
    near.x.toNat < 46342 ∧ near.y.toNat < 46342 ∧ far.x.toNat < 46342 ∧ far.y.toNat < 46342 ∧
    sqDist near 0 0 < sqDist far 0 0 ∧
    voronoiDecode false (voronoiBytes 46342 46342 [near, far]) =
      .ok { width := 46342, height := 46342, pixels := px } ∧ px[0]? = some far.color := by
  obtain ⟨px, h1, -, h3⟩ := C48_release 46342 46342 [⟨200, 0, ⟨1, 1, 1⟩⟩, ⟨46341, 46341, ⟨2, 2, 2⟩⟩] [] (by decide)
    (by decide) (by simp)
  rw [List.append_nil] at h1
  refine ⟨⟨200, 0, ⟨1, 1, 1⟩⟩, ⟨46341, 46341, ⟨2, 2, 2⟩⟩, px, by decide, by decide, by decide, by decide, by decide,
    by decide, h1, ?_⟩
  obtain ⟨best, e1, l1, l2, e2, e3, e4⟩ := h3 0 (by decide)
  rw [e1]
  cases l1 with
  | nil =>
    exfalso
    injection e2 with e2 e5
    subst e2 e5
    have := e4 ⟨46341, 46341, ⟨2, 2, 2⟩⟩ (by simp)
    simp only [Nat.zero_mod, Nat.zero_div] at this
    have key : ¬ wrappedSqDist ⟨200, 0, ⟨1, 1, 1⟩⟩ 0 0 ≤ wrappedSqDist ⟨46341, 46341, ⟨2, 2, 2⟩⟩ 0 0 := by decide +kernel
    exact key this
  | cons c l1 =>
    have e5 := (List.cons.inj e2).2
    cases l1 with
    | nil => rw [← (List.cons.inj e5).1]
    | cons d l1 =>
      have e6 := congrArg List.length e5
      simp at e6

/-- **C48**, overflow checks: decoding returns only if every centroid is right of and below every pixel (or the
same), which happens only if all of them are at the bottom right corner or beyond. -/
theorem C48_checked (w h : UInt32) (cs : List ColorPos) (rest : List UInt8) (ha : 3 * (w.toNat * h.toNat) < 2 ^ 63)
    (hl : cs.length < 2 ^ 64) :
    voronoiDecode true (voronoiBytes w h cs ++ rest) = .panic ↔
      ∃ i, i < w.toNat * h.toNat ∧ (cs = [] ∨ ∃ c ∈ cs, c.x.toNat < i % w.toNat ∨ c.y.toNat < i / w.toNat ∨
        2 ^ 32 ≤ sqDist c (i % w.toNat) (i / w.toNat)) := by
  constructor
  · intro hp
    apply Classical.byContradiction
    intro hno
    by_cases hne : cs = []
    · rw [voronoiDecode_eq true w h cs rest ha hl] at hp
      cases hz : w.toNat * h.toNat with
      | zero => rw [hz] at hp; cases hp
      | succ k => exact hno ⟨0, by omega, Or.inl hne⟩
    · obtain ⟨px, h1, -⟩ := decode_with (rest := rest) ha hl hne (fun x y c => sqDist c x y) (chk := true) (by
        intro i hi c hc
        obtain ⟨e1, e2, -⟩ := coords hi
        have hnot : ¬ (c.x.toNat < i % w.toNat ∨ c.y.toNat < i / w.toNat ∨
            2 ^ 32 ≤ sqDist c (i % w.toNat) (i / w.toNat)) := fun h => hno ⟨i, hi, Or.inr ⟨c, hc, h⟩⟩
        obtain ⟨k, k1, k2⟩ := pixelKey_true (UInt32.ofNat (i % w.toNat)) (UInt32.ofNat (i / w.toNat)) c
          (by rw [e1, e2]; omega)
        rw [e1, e2] at k2
        exact ⟨k, k1, k2⟩)
      rw [h1] at hp
      cases hp
  · rintro ⟨i, hi, hc⟩
    rw [voronoiDecode_eq true w h cs rest ha hl, optMap_none (a := i) (List.mem_range.2 hi)]
    rcases hc with rfl | ⟨c, hc, hbad⟩
    · rfl
    · apply pixelColor_none hc
      apply pixelKey_none
      obtain ⟨e1, e2, -⟩ := coords hi
      rw [e1, e2]
      omega

section
variable {o : Outside} {chk : Bool} {fuel : Nat} {n : UInt64} {img : Img}

/-- The file for an image of any size. -/
theorem voronoi_file (hs : IsSort o.sort) {m : W Unit} (h : voronoiEncode o chk fuel n img = .ok m) :
    ∃ cl : Clusters ColorPos, cluster (posEnv o chk) fuel (dataPoints img) n.toNat = .ok cl ∧
      cl.intoIter.length = n.toNat ∧ (cl.intoIter.map (·.2)).flatten.Perm (dataPoints img) ∧
      Emits Emits.errOnly m (voronoiBytes img.width img.height (cl.intoIter.map (·.1))) () := by
  unfold voronoiEncode at h
  obtain ⟨cl, hcl, h⟩ := Ret.bind_ok.1 h
  cases h
  obtain ⟨hlen, hperm⟩ := C43_points (env := posEnv o chk) hs hcl
  refine ⟨cl, hcl, hlen, hperm, ?_⟩
  have hu : bytes (Usize.mk n) = le 8 (cl.intoIter.map (·.1)).length := by
    rw [List.length_map, hlen]; rfl
  unfold voronoiBytes
  rw [← hu, List.append_assoc, List.append_assoc]
  exact Emits.bind (LawfulSer.emits img.width trivial) (Emits.bind (LawfulSer.emits img.height trivial)
    (Emits.bind (LawfulSer.emits (Usize.mk n) trivial) (Emits.forEach _ fun p _ => LawfulSer.emits p trivial)))

/-- **C48**, the file: the dimensions, `n`, and for each of the `n` clusters of pixels a centroid inside the image,
the mean of the positions and colours of its pixels rounded down. -/
theorem C48_encoded (hs : IsSort o.sort) (hfit : SumsFit img) {m : W Unit}
    (h : voronoiEncode o chk fuel n img = .ok m) :
    ∃ cs : List (ColorPos × List ColorPos), cs.length = n.toNat ∧
      (cs.map (·.2)).flatten.Perm (dataPoints img) ∧
      Emits Emits.errOnly m (voronoiBytes img.width img.height (cs.map (·.1))) () ∧
      ∀ e ∈ cs, e.1.x.toNat < img.width.toNat ∧ e.1.y.toNat < img.height.toNat ∧
        (e.2 = [] → e.1 ∈ dataPoints img) ∧
        (e.2 ≠ [] → e.1.x.toNat = (e.2.map fun p => p.x.toNat).sum / e.2.length ∧
          e.1.y.toNat = (e.2.map fun p => p.y.toNat).sum / e.2.length ∧
          e.1.color = floorMean (e.2.map (·.color))) := by
  obtain ⟨cl, hcl, hlen, hperm, hem⟩ := voronoi_file hs h
  refine ⟨cl.intoIter, hlen, hperm, hem, ?_⟩
  · intro e he
    obtain ⟨c, ps⟩ := e
    obtain ⟨h1, h2⟩ := C44_centroids (env := posEnv o chk) hs (pos_meanOfSome o chk) hcl c ps he
    have hpart : Part ps (dataPoints img) := part_of_mem hperm (List.mem_map_of_mem (f := (·.2)) he)
    have hc := pos_closed o chk img hfit
    dsimp only
    by_cases hps : ps = []
    · obtain ⟨p, hp, hm⟩ := h2 hps
      have hm' : ColorPos.mean chk [p] = .ok c := hm
      rw [pos_mean_single] at hm'
      cases hm'
      have := hc.inputs _ hp
      exact ⟨this.1, this.2, fun _ => hp, fun h => absurd hps h⟩
    · have hin := hc.means ps c hpart (h1 hps)
      obtain ⟨c', m1, m2, m3, m4⟩ := pos_mean_part chk hfit hpart hps
      have h1' : ColorPos.mean chk ps = .ok c := h1 hps
      rw [h1'] at m1
      cases m1
      exact ⟨hin.1, hin.2, fun h => absurd h hps, fun _ => ⟨m2, m3, m4⟩⟩

/-- **C48**, the whole way for images of at most 46341 by 46341 pixels: the decoded image has the same size, and each
pixel has the colour of the nearest centroid. -/
theorem C48_round_trip (hs : IsSort o.sort) (hw : img.width.toNat ≤ 46341) (hh : img.height.toNat ≤ 46341)
    {m : W Unit} (h : voronoiEncode o chk fuel n img = .ok m) :
    ∃ bytes cs px, Emits Emits.errOnly m bytes () ∧
      voronoiDecode false bytes = .ok { width := img.width, height := img.height, pixels := px } ∧
      cs.length = n.toNat ∧ px.length = img.pixels.length ∧
      ∀ i, i < px.length → ∃ best, px[i]? = some best.color ∧
        IsFirstMin (fun c => sqDist c (i % img.width.toNat) (i / img.width.toNat)) cs best := by
  have hsz : img.pixels.length < 2 ^ 32 := by
    have := Nat.mul_le_mul hw hh
    have := img.size
    omega
  obtain ⟨cs, h1, hperm, h2, h3⟩ := C48_encoded hs (.of_small hsz) h
  have hne : cs ≠ [] := by
    rintro rfl
    have : n = 0 := UInt64.toNat_inj.1 h1.symm
    rw [C49_voronoi (Or.inl this)] at h
    cases h
  have hnl := n.toNat_lt
  obtain ⟨px, p1, p2, p3⟩ := C48_nearest img.width img.height (cs.map (·.1)) [] hw hh
    (by
      intro c hc
      obtain ⟨e, he, rfl⟩ := List.mem_map.1 hc
      exact ⟨(h3 e he).1, (h3 e he).2.1⟩)
    (by rw [List.length_map]; omega) (by simpa using hne)
  rw [List.append_nil] at p1
  have hl : px.length = img.pixels.length := by rw [p2]; exact img.size.symm
  exact ⟨_, _, px, h2, p1, by rw [List.length_map, h1], hl, fun i hi => p3 i (by omega)⟩

/-- **C59**, voronoi without overflow checks: the encoder panics only if there are no clusters or more clusters than
pixels, or in the check for enough active clusters. -/
theorem C59_voronoi (hs : IsSort o.sort)
    (h : voronoiEncode o false fuel n img = .panic) :
    n = 0 ∨ img.pixels.length < n.toNat ∨
      ∃ cl k0 k1 cl', Reached (posEnv o false) fuel (dataPoints img) n.toNat cl ∧
        iteration (posEnv o false) fuel cl k0 = .ok (cl', false, k1) ∧
        active cl' < minActive o.fl img.pixels.length n.toNat := by
  unfold voronoiEncode at h
  rcases Ret.bind_panic.1 h with h | ⟨cl, -, h⟩
  · have := C59_panics (env := posEnv o false) (pos_total o _) hs h
    rw [dataPoints_length] at this
    rcases this with h0 | h0 | h0
    · exact Or.inl (UInt64.toNat_inj.1 h0)
    · exact Or.inr (Or.inl h0)
    · exact Or.inr (Or.inr h0)
  · cases h

/-- **C61.** With overflow checks the voronoi encoder panics on every image of more than one pixel, before anything
is written. -/
theorem C61_checked_panics (hs : IsSort o.sort) (h : 1 < img.pixels.length) :
    voronoiEncode o true (fuel + 1) n img = .panic := by
  unfold voronoiEncode
  rw [checked_panics o hs fuel n.toNat img h]
  rfl

/-- **C62.** A voronoi file cut short is rejected. -/
theorem C62_truncated (w h : UInt32) (cs : List ColorPos) (ha : 3 * (w.toNat * h.toNat) < 2 ^ 63)
    (hl : cs.length < 2 ^ 64) (p : List UInt8) (hp : p <+: voronoiBytes w h cs) (hne : p ≠ voronoiBytes w h cs) :
    voronoiDecode chk p = .err () := by
  rw [voronoiBytes_eq] at hp hne
  have hv : valid ((w, h), cs) := ⟨dims_valid w h, hl, fun _ _ => trivial⟩
  apply voronoiDecode_err
  · intro d s hd
    obtain ⟨-, e⟩ := LawfulSer.canon _ _ _ hd
    obtain ⟨t, ht⟩ := hp
    rw [e] at ht
    obtain ⟨rfl, -⟩ := ser_unique_prefix (a := d) (b := (w, h)) (r := s ++ t) (s := bytes cs) (dims_valid _ _)
      (dims_valid _ _) (by rw [← List.append_assoc]; exact ht)
    rw [show RgbImage.new w h = some _ from if_pos ha]
    simp
  · exact de_truncated hv hp hne

end
/-! ## Concrete cases

Exact arithmetic with squared distances. -/

namespace ClusterExamples

def out : Outside where
  fl := { rnd := id, sqrt := id, powi2 := fun x => x }
  sort := sortByDist
  lower n := (List.range n).countP fun k => (k + 1) * (k + 1) ≤ n
  rand k := 7 * k + 3

/-- Four pixels in two shades of red and two of blue, the first of them twice. -/
def img : Img where
  width := 5
  height := 1
  pixels := [⟨255, 0, 0, 255⟩, ⟨0, 0, 201, 255⟩, ⟨200, 0, 0, 255⟩, ⟨0, 0, 100, 255⟩, ⟨255, 0, 0, 255⟩]
  size := by decide

/-- The colours fall into a group of reds and a group of blues. -/
theorem color_run : cluster (colorEnv out true) 9 (colorCounts id img) (2 : UInt64).toNat =
    .ok ⟨[⟨⟨0, 0, 150⟩, 1⟩, ⟨⟨236, 0, 0⟩, 1⟩],
         [[⟨⟨0, 0, 100⟩, 1⟩, ⟨⟨0, 0, 201⟩, 1⟩], [⟨⟨200, 0, 0⟩, 1⟩, ⟨⟨255, 0, 0⟩, 2⟩]],
         [⟨0, [(1, 78196)], 0⟩, ⟨1, [(0, 78196)], 0⟩]⟩ := by decide +kernel

/-- So do the pixels. -/
theorem pos_run : cluster (posEnv out false) 9 (dataPoints img) (2 : UInt64).toNat =
    .ok ⟨[⟨2, 0, ⟨0, 0, 150⟩⟩, ⟨2, 0, ⟨236, 0, 0⟩⟩],
         [[⟨3, 0, ⟨0, 0, 100⟩⟩, ⟨1, 0, ⟨0, 0, 201⟩⟩],
          [⟨4, 0, ⟨255, 0, 0⟩⟩, ⟨0, 0, ⟨255, 0, 0⟩⟩, ⟨2, 0, ⟨200, 0, 0⟩⟩]],
         [⟨0, [(1, 78196)], 0⟩, ⟨1, [(0, 78196)], 0⟩]⟩ := by decide +kernel

theorem img_addressable : Addressable img := by unfold Addressable; decide

/-- C47: the image is encoded. -/
example : ∃ m, clusterColorsEncode out true id id (listHeap _) 9 2 img = .ok m ∧ ∃ bytes px,
    Emits Emits.anyWay m bytes () ∧ clusterColorsDecode bytes = .ok ⟨5, 1, px⟩ := by
  obtain ⟨m, h1, bytes, group, palette, h2, h3, -⟩ := C47_cluster_colors (M := listHeap _) (ho2 := id)
    sortByDist_isSort (fun _ => .refl _) (fun _ => .refl _) img_addressable (.of_small (by decide)) color_run
  exact ⟨m, h1, bytes, _, h2, h3⟩

/-- C47: what becomes of it. -/
example : (reducedImg [(⟨0, 0, 100⟩, ⟨0, 0, 150⟩), (⟨0, 0, 201⟩, ⟨0, 0, 150⟩), (⟨200, 0, 0⟩, ⟨236, 0, 0⟩),
    (⟨255, 0, 0⟩, ⟨236, 0, 0⟩)] img).map (·.pixels) =
    some [⟨236, 0, 0⟩, ⟨0, 0, 150⟩, ⟨236, 0, 0⟩, ⟨0, 0, 150⟩, ⟨236, 0, 0⟩] := by decide +kernel

/-- C47: the mean of three red pixels. -/
example : floorMean [⟨255, 0, 0⟩, ⟨200, 0, 0⟩, ⟨255, 0, 0⟩] = ⟨236, 0, 0⟩ := by decide +kernel

/-- C49: four colours, five clusters. -/
example : clusterColorsEncode out false id id (listHeap _) 9 5 img = .panic :=
  C49_cluster_colors (fun _ => .refl _) [⟨255, 0, 0⟩, ⟨0, 0, 201⟩, ⟨200, 0, 0⟩, ⟨0, 0, 100⟩] (by decide)
    (Or.inr (by decide))

/-- C49: five pixels, six clusters. -/
example : voronoiEncode out false 9 6 img = .panic := C49_voronoi (Or.inr (by decide))

/-- C59: the case of too many clusters. -/
example : (5 : UInt64) = 0 ∨ (∃ colors : List (Rgb UInt8), (∀ c ∈ img.rgbPixels, c ∈ colors) ∧ colors.length < 5) ∨
    ∃ cl k0 k1 cl', Reached (colorEnv out false) 9 (colorCounts id img) 5 cl ∧
      iteration (colorEnv out false) 9 cl k0 = .ok (cl', false, k1) ∧
      active cl' < minActive out.fl (colorCounts id img).length 5 :=
  C59_cluster_colors (n := 5) (ho2 := id) (M := listHeap _) sortByDist_isSort (fun _ => .refl _) img_addressable
    (.of_small (by decide)) (C49_cluster_colors (fun _ => .refl _) [⟨255, 0, 0⟩, ⟨0, 0, 201⟩, ⟨200, 0, 0⟩, ⟨0, 0, 100⟩] (by decide)
      (Or.inr (by decide)))

/-- C59: also for the other encoder. -/
example : (6 : UInt64) = 0 ∨ img.pixels.length < 6 ∨
    ∃ cl k0 k1 cl', Reached (posEnv out false) 9 (dataPoints img) 6 cl ∧
      iteration (posEnv out false) 9 cl k0 = .ok (cl', false, k1) ∧ active cl' < minActive out.fl 5 6 :=
  C59_voronoi (n := 6) sortByDist_isSort (C49_voronoi (Or.inr (by decide)))

/-- C48: the pixels at the right of a row of six get the second of three colours, as the third one is as far from
them. -/
example : voronoiDecode false (voronoiBytes 6 1 [⟨1, 0, ⟨1, 1, 1⟩⟩, ⟨4, 0, ⟨2, 2, 2⟩⟩, ⟨4, 0, ⟨3, 3, 3⟩⟩]) =
    .ok ⟨6, 1, [⟨1, 1, 1⟩, ⟨1, 1, 1⟩, ⟨1, 1, 1⟩, ⟨2, 2, 2⟩, ⟨2, 2, 2⟩, ⟨2, 2, 2⟩]⟩ := by decide +kernel

/-- C48: the same file in a program with overflow checks. -/
example : voronoiDecode true (voronoiBytes 6 1 [⟨1, 0, ⟨1, 1, 1⟩⟩, ⟨4, 0, ⟨2, 2, 2⟩⟩, ⟨4, 0, ⟨3, 3, 3⟩⟩]) = .panic := by
  rw [← List.append_nil (voronoiBytes _ _ _)]
  exact (C48_checked 6 1 _ [] (by decide) (by decide)).2 ⟨2, by decide, Or.inr ⟨⟨1, 0, ⟨1, 1, 1⟩⟩, by decide, by decide⟩⟩

theorem voronoi_run : ∃ m, voronoiEncode out false 9 2 img = .ok m := by
  unfold voronoiEncode
  rw [pos_run]
  exact ⟨_, rfl⟩

/-- C48: an image is encoded and decoded. -/
example : ∃ m bytes px, voronoiEncode out false 9 2 img = .ok m ∧ Emits Emits.errOnly m bytes () ∧
    voronoiDecode false bytes = .ok ⟨5, 1, px⟩ := by
  obtain ⟨m, hm⟩ := voronoi_run
  obtain ⟨bytes, cs, px, h1, h2, -⟩ := C48_round_trip (o := out) sortByDist_isSort (by decide) (by decide) hm
  exact ⟨m, bytes, px, hm, h1, h2⟩

/-- C48: what becomes of it: both centroids are at the same place, and so only one colour is left. -/
example : voronoiDecode false (voronoiBytes 5 1 [⟨2, 0, ⟨0, 0, 150⟩⟩, ⟨2, 0, ⟨236, 0, 0⟩⟩]) =
    .ok ⟨5, 1, [⟨0, 0, 150⟩, ⟨0, 0, 150⟩, ⟨0, 0, 150⟩, ⟨0, 0, 150⟩, ⟨0, 0, 150⟩]⟩ := by decide +kernel

/-- C61: the same image in a program with overflow checks. -/
example : voronoiEncode out true 9 2 img = .panic := C61_checked_panics (fuel := 8) sortByDist_isSort (by decide)

/-- C62: the first 21 of 27 bytes. -/
example : voronoiDecode false ((voronoiBytes 5 1 [⟨2, 0, ⟨0, 0, 150⟩⟩]).take 21) = .err () :=
  C62_truncated 5 1 [⟨2, 0, ⟨0, 0, 150⟩⟩] (by decide) (by decide) _ (List.take_prefix _ _) (by decide)

end ClusterExamples
end Cniic
