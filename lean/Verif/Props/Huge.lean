import Verif.Props.Extreme

/-!
# Pictures in which a colour occurs 2^32 times or more (C83)

cluster-colors cuts the number of pixels of a colour to 32 bits.
-/

namespace Cniic
open Spec SerSpec Kmeans Spec.Kmeans

section
variable {o : Outside} {chk : Bool} {ho1 ho2 : List (Rgb UInt8 × Nat) → List (Rgb UInt8 × Nat)}
  {M : MinHeap (Rgb UInt8)} {fuel : Nat} {n : UInt64} {img : Img}

theorem part_sum (f : Rgb UInt8 → Nat) (hho : IsOrder ho1) {ps : List ColorCount} (h : ∀ p ∈ ps, p ∈ colorCounts ho1 img) :
    (ps.map fun p => f p.color * p.count.toNat).sum = ((ps.map (·.color)).map fun c => f c * weight img c).sum := by
  rw [List.map_map]
  congr 1
  apply List.map_congr_left
  intro p hp
  show _ = f p.color * _
  rw [colorCounts_weight hho img p (h p hp)]
  rfl

theorem part_weight (hho : IsOrder ho1) {ps : List ColorCount} (h : ∀ p ∈ ps, p ∈ colorCounts ho1 img) :
    (ps.map fun p => p.count.toNat).sum = ((ps.map (·.color)).map (weight img)).sum := by
  have := part_sum (fun _ => 1) hho h
  simpa using this

/-- The mean of several colours of an image of any size. -/
theorem mean_weights (chk : Bool) (hho : IsOrder ho1) {ps : List ColorCount} (hp : Part ps (colorCounts ho1 img))
    (h2 : 2 ≤ ps.length) :
    (((ps.map (·.color)).map (weight img)).sum = 0 → ColorCount.mean chk ps = .panic) ∧
    (0 < ((ps.map (·.color)).map (weight img)).sum →
      ColorCount.mean chk ps = .ok { color := weightedMean img (ps.map (·.color)), count := 1 }) := by
  have hmem := part_mem hp
  have hb := weights_bound (part_nodup hp (colorCounts_nodup hho img))
  have h := mean_several chk ps h2 hb
  rw [part_weight hho hmem, part_sum (fun c => c.r.toNat) hho hmem, part_sum (fun c => c.g.toNat) hho hmem,
    part_sum (fun c => c.b.toNat) hho hmem] at h
  exact h

/-- **C83.** What cluster-colors makes of a picture of any size: colours in a group of their own are kept, the others are
replaced by the mean of their group, in which a colour counts as often as it occurs modulo 2^32. -/
theorem C83_any_size (hs : IsSort o.sort) (h1 : IsOrder ho1) (h2 : IsOrder ho2) (ha : Addressable img)
    {cl : Clusters ColorCount} (h : cluster (colorEnv o chk) fuel (colorCounts ho1 img) n.toNat = .ok cl) :
    ∃ m, clusterColorsEncode o chk ho1 ho2 M fuel n img = .ok m ∧
      ∃ (bytes : List UInt8) (group : Rgb UInt8 → Nat) (palette : Nat → Rgb UInt8),
        Emits Emits.anyWay m bytes () ∧
        clusterColorsDecode bytes =
          .ok { width := img.width, height := img.height, pixels := img.rgbPixels.map fun c => palette (group c) } ∧
        ∀ c ∈ img.rgbPixels, group c < n.toNat ∧
          ∃ cs, Distinct cs (img.rgbPixels.filter fun x => group x == group c) ∧
            ((cs = [c] ∧ palette (group c) = c) ∨
              (2 ≤ cs.length ∧ 0 < (cs.map (weight img)).sum ∧ palette (group c) = weightedMean img cs)) := by
  obtain ⟨m, hm, bytes, group, palette, he, hd, hg⟩ := clusterColors_groups (M := M) hs h1 h2 ha h
  refine ⟨m, hm, bytes, group, palette, he, hd, ?_⟩
  intro c hc
  obtain ⟨hlt, ps, ctr, hpart, hin, hgr, hmean, hpal⟩ := hg c hc
  refine ⟨hlt, ps.map (·.color), ⟨part_nodup hpart (colorCounts_nodup h1 img), fun x => ?_⟩, ?_⟩
  · rw [List.mem_filter, beq_iff_eq]
    constructor
    · intro hx
      have hxi : x ∈ img.rgbPixels := by
        obtain ⟨q, hq, rfl⟩ := List.mem_map.1 hx
        exact (mem_colorCounts h1 img _).1 (List.mem_map_of_mem (part_mem hpart q hq))
      exact ⟨hxi, (hgr x hxi).2 hx⟩
    · exact fun hx => (hgr x hx.1).1 hx.2
  · match ps, hin, hmean, hpart with
    | [q], hin, hmean, _ =>
      left
      have hq : c = q.color := by simpa using hin
      have hm : ColorCount.mean chk [q] = .ok q := rfl
      rw [hm] at hmean
      cases hmean
      exact ⟨by rw [hq]; rfl, by rw [hpal, hq]⟩
    | p :: q :: ps, _, hmean, hpart =>
      right
      have hw := mean_weights chk h1 hpart (by simp)
      refine ⟨by simp, ?_⟩
      rcases Nat.eq_zero_or_pos (((p :: q :: ps).map (·.color)).map (weight img)).sum with h0 | h0
      · rw [hw.1 h0] at hmean
        cases hmean
      · rw [hw.2 h0] at hmean
        cases hmean
        exact ⟨h0, hpal⟩

/-- **C83**, panics: besides the reasons of C59 there is only one, two colours that occur multiples of 2^32 times. -/
theorem C83_panics (hs : IsSort o.sort) (h1 : IsOrder ho1) (ha : Addressable img)
    (h : clusterColorsEncode o chk ho1 ho2 M fuel n img = .panic) :
    n = 0 ∨ (∃ colors : List (Rgb UInt8), (∀ c ∈ img.rgbPixels, c ∈ colors) ∧ colors.length < n.toNat) ∨
      (∃ cl k0 k1 cl', Reached (colorEnv o chk) fuel (colorCounts ho1 img) n.toNat cl ∧
        iteration (colorEnv o chk) fuel cl k0 = .ok (cl', false, k1) ∧
        active cl' < minActive o.fl (colorCounts ho1 img).length n.toNat) ∨
      ∃ a b, a ≠ b ∧ a ∈ img.rgbPixels ∧ b ∈ img.rgbPixels ∧
        2 ^ 32 ∣ img.rgbPixels.count a ∧ 2 ^ 32 ∣ img.rgbPixels.count b := by
  by_cases hfit : ∃ a b, a ≠ b ∧ a ∈ img.rgbPixels ∧ b ∈ img.rgbPixels ∧
      2 ^ 32 ∣ img.rgbPixels.count a ∧ 2 ^ 32 ∣ img.rgbPixels.count b
  · exact .inr (.inr (.inr hfit))
  cases hcl : cluster (colorEnv o chk) fuel (colorCounts ho1 img) n.toNat with
  | ok cl =>
    exfalso
    obtain ⟨m, hm, -⟩ := clusterColors_groups (M := M) (ho2 := id) hs h1 (fun _ => .refl _) ha hcl
    unfold clusterColorsEncode at h hm
    rw [hcl, Ret.bind_ok_eq] at h hm
    cases hr : reducedImg (reducedColors cl) img with
    | none => rw [hr] at hm; cases hm
    | some r =>
      rw [hr] at h hm
      change (if h : _ then _ else _) = _ at h
      change (if h : _ then _ else _) = _ at hm
      split at h
      · cases h
      · rename_i hn
        rw [dif_neg hn] at hm
        cases hm
  | err e =>
    unfold clusterColorsEncode at h
    rw [hcl] at h
    cases h
  | panic =>
    have ht : Total (colorEnv o chk).pt (fun _ => True) (colorCounts ho1 img) := by
      refine ⟨color_sound o chk _, fun l hl => ?_⟩
      show ColorCount.mean chk l ≠ .panic
      intro hp
      apply hfit
      match l, hl, hp with
      | p :: q :: l, hl, hp =>
        have hw := mean_weights chk h1 hl (by simp)
        rcases Nat.eq_zero_or_pos (((p :: q :: l).map (·.color)).map (weight img)).sum with h0 | h0
        · have hnd := part_nodup hl (colorCounts_nodup h1 img)
          have hin : ∀ r ∈ p :: q :: l, r.color ∈ img.rgbPixels := fun r hr =>
            (mem_colorCounts h1 img _).1 (List.mem_map_of_mem (part_mem hl r hr))
          simp only [List.map_cons, List.sum_cons] at h0
          simp only [List.map_cons, List.nodup_cons, List.mem_cons, not_or] at hnd
          exact ⟨p.color, q.color, hnd.1.1, hin p (by simp), hin q (by simp),
            Nat.dvd_of_mod_eq_zero (show weight img p.color = 0 by omega),
            Nat.dvd_of_mod_eq_zero (show weight img q.color = 0 by omega)⟩
        · rw [hw.2 h0] at hp
          cases hp
    rcases C59_panics (env := colorEnv o chk) ht hs hcl with h0 | h0 | h0
    · exact Or.inl (UInt64.toNat_inj.1 h0)
    · refine Or.inr (Or.inl ⟨(colorCounts ho1 img).map (·.color), fun c hc => (mem_colorCounts h1 img c).2 hc, ?_⟩)
      rw [List.length_map]; exact h0
    · exact Or.inr (Or.inr (Or.inl h0))

end

/-- **C83**, one cluster and at least two colours: the encoder panics if all of them occur multiples of 2^32 times,
otherwise every pixel gets their mean, in which a colour counts as often as it occurs modulo 2^32. -/
theorem C83_one_color {p : Setup} (hp : p.Lawful) (hsort : IsSort p.out.sort) (fuel : Nat) {img : Img}
    (ha : Addressable img) {S : List (Rgb UInt8)} (hS : Distinct S img.rgbPixels) (h2 : 2 ≤ S.length) :
    ((S.map (weight img)).sum = 0 → (AnyCodec.clusterColors 1).encode p (fuel + 2) img = .panic) ∧
    (0 < (S.map (weight img)).sum → ∃ m bytes, (AnyCodec.clusterColors 1).encode p (fuel + 2) img = .ok m ∧
      bytesOf m = .ok bytes ∧
      (AnyCodec.clusterColors 1).decode p bytes =
        .ok { width := img.width, height := img.height
              pixels := List.replicate img.pixels.length (weightedMean img S) }) := by
  have hnd := colorCounts_nodup hp.orderColor img
  have hperm : ((colorCounts p.orderColor img).map (·.color)).Perm S := by
    rw [List.perm_ext_iff_of_nodup hnd hS.1]
    intro c
    rw [mem_colorCounts hp.orderColor, hS.2]
  have hlen : 2 ≤ (colorCounts p.orderColor img).length := by
    have := hperm.length_eq
    rw [List.length_map] at this
    omega
  have hcne : colorCounts p.orderColor img ≠ [] := by
    intro h0
    rw [h0] at hlen
    simp at hlen
  have hsum : ∀ f : Rgb UInt8 → Nat, (((colorCounts p.orderColor img).map (·.color)).map f).sum = (S.map f).sum :=
    fun f => (hperm.map f).sum_nat
  obtain ⟨w0, w1⟩ := mean_weights p.chk hp.orderColor (img := img) ⟨[], by simp⟩ hlen
  rw [hsum] at w0 w1
  constructor
  · intro h0
    have h := cluster_one_panics (env := colorEnv p.out p.chk) (color_sound p.out p.chk _) hsort hcne (w0 h0) fuel
    show clusterColorsEncode p.out p.chk p.orderColor p.orderRgb p.heapRgb (fuel + 2) 1 img = _
    unfold clusterColorsEncode
    rw [show (1 : UInt64).toNat = 1 from rfl, h]
    rfl
  · intro h0
    have hm := w1 h0
    obtain ⟨cl, c, h1, -, -⟩ := cluster_one (env := colorEnv p.out p.chk)
      (color_sound p.out p.chk (colorCounts p.orderColor img)) hsort (color_meanOfSome _ _) (minActive_one hp.float _) hcne
      (by show ColorCount.mean p.chk _ ≠ _; rw [hm]; simp) fuel
    obtain ⟨m, e1, bytes, group, palette, e2, e3, e4⟩ := clusterColors_groups (M := p.heapRgb) (n := 1) hsort
      hp.orderColor hp.orderRgb ha h1
    refine ⟨m, bytes, e1, e2.bytesOf, ?_⟩
    show clusterColorsDecode bytes = _
    rw [e3]
    congr 2
    rw [img.size, ← rgbPixels_length img, ← List.map_const']
    apply List.map_congr_left
    intro x hx
    obtain ⟨g1, ps, ctr, q1, q2, q3, q4, q5⟩ := e4 x hx
    have one : (1 : UInt64).toNat = 1 := rfl
    have hps : (ps.map (·.color)).Perm S := by
      rw [List.perm_ext_iff_of_nodup (part_nodup q1 hnd) hS.1]
      intro c
      constructor
      · intro hc
        obtain ⟨q, hq, rfl⟩ := List.mem_map.1 hc
        exact (hS.2 _).2 ((mem_colorCounts hp.orderColor img _).1 (List.mem_map_of_mem (part_mem q1 q hq)))
      · intro hc
        have hci := (hS.2 c).1 hc
        have := (e4 c hci).1
        exact (q3 c hci).1 (by omega)
    have hsum' : ∀ f : Rgb UInt8 → Nat, ((ps.map (·.color)).map f).sum = (S.map f).sum := fun f => (hps.map f).sum_nat
    have hl : 2 ≤ ps.length := by
      have := hps.length_eq
      rw [List.length_map] at this
      omega
    rw [(mean_weights p.chk hp.orderColor q1 hl).2 (by rw [hsum']; exact h0)] at q4
    cases q4
    rw [q5]
    show weightedMean img _ = _
    unfold weightedMean
    rw [hsum', hsum', hsum', hsum']

/-! ## Two pictures -/

namespace HugeExamples

abbrev dark : Rgb UInt8 := ⟨0, 0, 0⟩
abbrev light : Rgb UInt8 := ⟨255, 255, 255⟩

/-- `a` black pixels, then `b` white ones. -/
def bands (a b : Nat) (w h : UInt32) (hs : a + b = w.toNat * h.toNat) : Img where
  width := w
  height := h
  pixels := List.replicate a ⟨0, 0, 0, 255⟩ ++ List.replicate b ⟨255, 255, 255, 255⟩
  size := by rw [List.length_append, List.length_replicate, List.length_replicate, hs]

variable {a b : Nat} {w h : UInt32} {hs : a + b = w.toNat * h.toNat}

theorem bands_rgb : (bands a b w h hs).rgbPixels = List.replicate a dark ++ List.replicate b light := by
  unfold bands Img.rgbPixels
  rw [List.map_append, List.map_replicate, List.map_replicate]
  rfl

theorem bands_colors (ha : a ≠ 0) (hb : b ≠ 0) : Distinct [dark, light] (bands a b w h hs).rgbPixels := by
  refine ⟨by decide, fun x => ?_⟩
  rw [bands_rgb, List.mem_append, List.mem_replicate, List.mem_replicate]
  simp [ha, hb]

theorem count_dark : (bands a b w h hs).rgbPixels.count dark = a := by
  rw [bands_rgb, List.count_append, List.count_replicate_self, List.count_replicate,
    if_neg (show ¬ (light == dark) = true by decide), Nat.add_zero]

theorem count_light : (bands a b w h hs).rgbPixels.count light = b := by
  rw [bands_rgb, List.count_append, List.count_replicate_self, List.count_replicate,
    if_neg (show ¬ (dark == light) = true by decide), Nat.zero_add]

theorem weights_bands : ([dark, light].map (weight (bands a b w h hs))).sum = a % 2 ^ 32 + b % 2 ^ 32 := by
  simp only [List.map_cons, List.map_nil, List.sum_cons, List.sum_nil, weight, count_dark, count_light, Nat.add_zero]

theorem mean_bands : weightedMean (bands a b w h hs) [dark, light] =
    ⟨UInt8.ofNat (255 * (b % 2 ^ 32) / (a % 2 ^ 32 + b % 2 ^ 32)), UInt8.ofNat (255 * (b % 2 ^ 32) / (a % 2 ^ 32 + b % 2 ^ 32)),
      UInt8.ofNat (255 * (b % 2 ^ 32) / (a % 2 ^ 32 + b % 2 ^ 32))⟩ := by
  have h0 : (0 : UInt8).toNat = 0 := rfl
  have h1 : (255 : UInt8).toNat = 255 := rfl
  rw [weightedMean, weights_bands]
  simp only [List.map_cons, List.map_nil, List.sum_cons, List.sum_nil, weight, count_dark, count_light, Nat.add_zero,
    h0, h1, Nat.zero_mul, Nat.zero_add]

/-- `a` black pixels and then `b` white ones with one cluster. -/
theorem bands_one {p : Setup} (hp : p.Lawful) (hsort : IsSort p.out.sort) (fuel : Nat)
    (hadr : 3 * (w.toNat * h.toNat) < 2 ^ 63) (ha : a ≠ 0) (hb : b ≠ 0) :
    (a % 2 ^ 32 + b % 2 ^ 32 = 0 → (AnyCodec.clusterColors 1).encode p (fuel + 2) (bands a b w h hs) = .panic) ∧
    (0 < a % 2 ^ 32 + b % 2 ^ 32 → ∃ m bytes,
      (AnyCodec.clusterColors 1).encode p (fuel + 2) (bands a b w h hs) = .ok m ∧ bytesOf m = .ok bytes ∧
      (AnyCodec.clusterColors 1).decode p bytes =
        .ok { width := w, height := h
              pixels := List.replicate (a + b)
                ⟨UInt8.ofNat (255 * (b % 2 ^ 32) / (a % 2 ^ 32 + b % 2 ^ 32)),
                  UInt8.ofNat (255 * (b % 2 ^ 32) / (a % 2 ^ 32 + b % 2 ^ 32)),
                  UInt8.ofNat (255 * (b % 2 ^ 32) / (a % 2 ^ 32 + b % 2 ^ 32))⟩ }) := by
  have key := C83_one_color hp hsort fuel (img := bands a b w h hs) hadr (bands_colors ha hb) (by decide)
  rw [weights_bands, mean_bands, show (bands a b w h hs).width = w from rfl,
    show (bands a b w h hs).height = h from rfl,
    show (bands a b w h hs).pixels.length = a + b from (bands a b w h hs).size.trans hs.symm] at key
  exact key

/-- 65536 by 65537 pixels: 65536 black rows and a white one. -/
def oneWhiteRow : Img := bands (2 ^ 32) 65536 65536 65537 (by decide)

/-- 65536 by 131072 pixels, the upper half black, the lower half white. -/
def halves : Img := bands (2 ^ 32) (2 ^ 32) 65536 131072 (by decide)

end HugeExamples

open HugeExamples

/-- **C83**, a picture that is black but for one of 65537 rows becomes all white. -/
theorem C83_white {p : Setup} (hp : p.Lawful) (hsort : IsSort p.out.sort) (fuel : Nat) :
    ∃ m bytes, (AnyCodec.clusterColors 1).encode p (fuel + 2) oneWhiteRow = .ok m ∧ bytesOf m = .ok bytes ∧
      (AnyCodec.clusterColors 1).decode p bytes =
        .ok { width := 65536, height := 65537, pixels := List.replicate (2 ^ 32 + 65536) ⟨255, 255, 255⟩ } ∧
      oneWhiteRow.rgbPixels.count ⟨0, 0, 0⟩ = 2 ^ 32 ∧ oneWhiteRow.rgbPixels.count ⟨255, 255, 255⟩ = 65536 := by
  obtain ⟨m, bytes, h1, h2, h3⟩ := (bands_one (a := 2 ^ 32) (b := 65536) (w := 65536) (h := 65537) (hs := by decide)
    hp hsort fuel (by decide) (by decide) (by decide)).2 (by decide)
  rw [show UInt8.ofNat (255 * (65536 % 2 ^ 32) / (2 ^ 32 % 2 ^ 32 + 65536 % 2 ^ 32)) = 255 by decide] at h3
  exact ⟨m, bytes, h1, h2, h3, count_dark, count_light⟩

/-- **C83**, on a picture whose upper half is black and whose lower half is white the encoder panics. -/
theorem C83_halves {p : Setup} (hp : p.Lawful) (hsort : IsSort p.out.sort) (fuel : Nat) :
    (AnyCodec.clusterColors 1).encode p (fuel + 2) halves = .panic :=
  (bands_one (a := 2 ^ 32) (b := 2 ^ 32) (w := 65536) (h := 131072) (hs := by decide)
    hp hsort fuel (by decide) (by decide) (by decide)).1 (by decide)

/-! ## Concrete cases -/

/-- C83: two clusters for four colours. -/
example := C83_any_size (M := listHeap _) (ho2 := id) sortByDist_isSort (fun _ => .refl _) (fun _ => .refl _)
  ClusterExamples.img_addressable ClusterExamples.color_run

/-- C83: the hypotheses of the two pictures can be met. -/
example := C83_white AnyCodecExamples.setup_lawful sortByDist_isSort 0

example := C83_panics (o := AnyCodecExamples.setup.out) (chk := AnyCodecExamples.setup.chk) (img := halves) (n := 1) sortByDist_isSort AnyCodecExamples.setup_lawful.orderColor
  (show 3 * ((65536 : UInt32).toNat * (131072 : UInt32).toNat) < 2 ^ 63 by decide)
  (C83_halves (p := AnyCodecExamples.setup) AnyCodecExamples.setup_lawful sortByDist_isSort 0)

end Cniic
