import Verif.Proofs.Extreme
import Verif.Props.Again
import Verif.Props.Sizes

/-!
# As many clusters as possible, and only one (C79)

`fuel + 2` stands for any number of iterations from two on, whatever the loop: these runs end after their first
iteration.
-/

namespace Cniic
open Spec SerSpec Kmeans Spec.Kmeans

/-! ## What clustering needs -/

theorem rnd_zero {fl : FloatOps} (hfl : fl.Lawful) : fl.rnd 0 = 0 := hfl.rnd_exact 0 ⟨0, 0, by norm_num, by norm_num⟩

theorem sqrt_zero {fl : FloatOps} (hfl : fl.Lawful) : fl.sqrt 0 = 0 := by
  have h := hfl.sqrt_hi 0 (le_refl _)
  rw [mul_zero] at h
  exact pow_eq_zero_iff (n := 2) (by decide) |>.1 (le_antisymm h (sq_nonneg _))

theorem div_two_nonneg {fl : FloatOps} (hfl : fl.Lawful) (x : Rat) (h : 0 ≤ x) : 0 ≤ fl.div x 2 := by
  have := hfl.rnd_mono 0 (x / 2) (by positivity)
  rwa [rnd_zero hfl] at this

theorem rgbDist_self {fl : FloatOps} (hfl : fl.Lawful) (a : Rgb UInt8) : rgbDist fl a a = 0 := by
  rw [rgbDist_eq hfl]
  have : colorSq a a = 0 := by simp [colorSq, gap]
  rw [this]
  exact_mod_cast sqrt_zero hfl

theorem pos_dist_self {fl : FloatOps} (hfl : fl.Lawful) (a : ColorPos) : ColorPos.dist fl false a a = some 0 := by
  have hp : fl.powi2 0 = 0 := by
    have := hfl.powi2_err 0
    simpa using this
  simp only [ColorPos.dist, u32Sub, u32Sq, Bool.false_and, Bool.false_eq_true, if_false, UInt32.sub_self,
    Option.bind_eq_bind, Option.bind_some, rgbDist_self hfl, hp, FloatOps.add]
  simp [rnd_zero hfl, sqrt_zero hfl]

theorem minActive_one {fl : FloatOps} (hfl : fl.Lawful) (k : Nat) : minActive fl k 1 ≤ 1 := by
  unfold minActive
  refine Nat.le_trans (Nat.min_le_right _ _) ?_
  have r1 : fl.rnd 1 = 1 := hfl.rnd_exact 1 ⟨1, 0, by norm_num, by norm_num⟩
  have h1 : fl.rnd (99 / 100) ≤ 1 := by
    have := hfl.rnd_mono (99 / 100) 1 (by norm_num)
    rwa [r1] at this
  have h2 : fl.mul (fl.rnd (99 / 100)) (fl.rnd (1 : Nat)) ≤ 1 := by
    rw [Nat.cast_one, r1, FloatOps.mul, mul_one]
    have := hfl.rnd_mono _ _ h1
    rwa [r1] at this
  have h3 : (fl.mul (fl.rnd (99 / 100)) (fl.rnd (1 : Nat))).floor ≤ 1 := by
    have := Rat.floor_le (fl.mul (fl.rnd (99 / 100)) (fl.rnd (1 : Nat)))
    have h4 := le_trans this h2
    exact_mod_cast h4
  omega

/-! ## cluster-colors -/

/-- **C79.** cluster-colors with as many clusters as the picture has colours completes, is lossless, and writes what
hufman writes (given the same hash order). -/
theorem C79_cluster_colors {p : Setup} (hp : p.Lawful) (hsort : IsSort p.out.sort) (fuel fuel' : Nat) {n : UInt64} {img : Img}
    (ha : Addressable img) (hne : img.pixels ≠ []) {S : List (Rgb UInt8)}
    (hS : Distinct S img.rgbPixels) (hn : n.toNat = S.length) :
    ∃ m m' bytes, (AnyCodec.clusterColors n).encode p (fuel + 2) img = .ok m ∧ bytesOf m = .ok bytes ∧
      (AnyCodec.clusterColors n).decode p bytes = .ok img.toRgb ∧
      AnyCodec.hufman.encode p fuel' img = .ok m' ∧ bytesOf m' = .ok bytes := by
  have hlen : (colorCounts p.orderColor img).length = n.toNat := by
    have h1 := nodup_length_le (colorCounts_nodup hp.orderColor img) (l' := S)
      (fun c hc => (hS.2 c).2 ((mem_colorCounts hp.orderColor img c).1 hc))
    have h2 := nodup_length_le hS.1 (l' := (colorCounts p.orderColor img).map (·.color))
      (fun c hc => (mem_colorCounts hp.orderColor img c).2 ((hS.2 c).1 hc))
    rw [List.length_map] at h1 h2
    omega
  have hcne : colorCounts p.orderColor img ≠ [] := by
    obtain ⟨x, hx⟩ := List.exists_mem_of_ne_nil _ hne
    intro h0
    have := (mem_colorCounts hp.orderColor img x.toRgb).2 (List.mem_map_of_mem hx)
    rw [h0] at this
    simp at this
  obtain ⟨cl, h1, h2⟩ := cluster_singletons (env := colorEnv p.out p.chk) (color_sound p.out p.chk (colorCounts p.orderColor img))
    hsort (color_meanOfSome _ _) (fun q _ => rfl)
    (fun q _ => congrArg some (rgbDist_self hp.float q.color))
    (fun a b d hd => by
      have hd : some (rgbDist p.out.fl a.color b.color) = some d := hd
      rw [← Option.some.inj hd]
      exact hp.float.sqrt_nonneg _)
    (div_two_nonneg hp.float) hcne fuel
  rw [hlen] at h1
  have hpairs : reducedColors cl = (colorCounts p.orderColor img).reverse.map fun q => (q.color, q.color) := by
    rw [reducedColors, h2]
    induction (colorCounts p.orderColor img).reverse with
    | nil => rfl
    | cons a l ih => rw [List.map_cons, List.flatMap_cons, ih]; rfl
  have hred : reducedImg (reducedColors cl) img = some img.toRgb := by
    have hlook : optMap (lastLookup (reducedColors cl)) img.rgbPixels = some (img.rgbPixels.map id) := by
      apply optMap_ok
      intro c hc
      apply lastLookup_of_mem
      · rw [hpairs, List.map_map, List.map_reverse, (List.reverse_perm _).nodup_iff]
        exact colorCounts_nodup hp.orderColor img
      · rw [hpairs]
        obtain ⟨q, hq, hqc⟩ := List.mem_map.1 ((mem_colorCounts hp.orderColor img c).2 hc)
        exact List.mem_map.2 ⟨q, List.mem_reverse.2 hq, by rw [hqc]; rfl⟩
    rw [reducedImg, new_eq img ha]
    simp only [Option.bind_eq_bind, Option.bind_some, hlook, List.map_id]
    rfl
  have hl : img.toRgb.pixels.length = img.toRgb.width.toNat * img.toRgb.height.toNat := by
    simp [Img.toRgb, rgbPixels_length]
  obtain ⟨bytes, he, hd⟩ := C28_hufman_lossless p.heapRgb p.orderRgb hp.orderRgb img ha hne
  have hop : AnyCodec.hufman.encode p fuel' img = .ok (hufmanEncode p.heapRgb p.orderRgb (img.toRgb.toImg hl)) :=
    C73_opaque p fuel' .hufman img
  have hm : hufmanEncode p.heapRgb p.orderRgb img = hufmanEncode p.heapRgb p.orderRgb (img.toRgb.toImg hl) :=
    Ret.ok.inj hop
  refine ⟨hufmanEncode p.heapRgb p.orderRgb (img.toRgb.toImg hl), _, bytes, ?_, ?_, hd, rfl, he.bytesOf⟩
  · show clusterColorsEncode p.out p.chk p.orderColor p.orderRgb p.heapRgb (fuel + 2) n img = _
    unfold clusterColorsEncode
    rw [h1, Ret.bind_ok_eq, hred]
    show (if h : _ then _ else _) = _
    rw [dif_pos hl]
  · rw [← hm]; exact he.bytesOf

/-- **C79**, again: when a picture that went through cluster-colors is encoded with the same number of clusters, the
encoder either panics or keeps every pixel. -/
theorem C79_again {p : Setup} (hp : p.Lawful) (hsort : IsSort p.out.sort) {fuel : Nat} (fuel' : Nat) {n : UInt64}
    {a b : RgbImage} {file : List UInt8} (ha : a.Fits)
    (h : Generation p fuel (.clusterColors n) a file b) :
    (∃ hl, (AnyCodec.clusterColors n).encode p (fuel' + 2) (b.toImg hl) = .panic) ∨
      ∃ file', Generation p (fuel' + 2) (.clusterColors n) b file' b := by
  obtain ⟨hl, m, h1, h2, h3⟩ := h
  have hpl : (a.toImg hl).pixels.length = a.pixels.length := by simp [RgbImage.toImg]
  obtain ⟨cl, hcl, -⟩ := Ret.bind_ok.1 (show clusterColorsEncode p.out p.chk p.orderColor p.orderRgb p.heapRgb fuel n
    (a.toImg hl) = .ok m from h1)
  obtain ⟨m', e1, bytes, group, palette, e2, e3, e4⟩ := clusterColors_groups (M := p.heapRgb) hsort hp.orderColor hp.orderRgb
    (img := a.toImg hl) ha hcl
  have hmm : m' = m := by
    have : (AnyCodec.clusterColors n).encode p fuel (a.toImg hl) = .ok m' := e1
    rw [h1] at this
    exact (Ret.ok.inj this).symm
  subst hmm
  have hbytes : bytes = file := by
    have := e2.bytesOf
    rw [h2] at this
    exact (Ret.ok.inj this).symm
  subst hbytes
  have hb : b = { width := a.width, height := a.height
                  pixels := (a.toImg hl).rgbPixels.map fun c => palette (group c) } := by
    have h3' : clusterColorsDecode bytes = .ok b := h3
    rw [e3] at h3'
    exact (Ret.ok.inj h3').symm
  have hlb : b.pixels.length = b.width.toNat * b.height.toNat := by
    rw [hb]
    simp only [List.length_map, rgbPixels_length]
    rfl
  have hrgb : (b.toImg hlb).rgbPixels = b.pixels := congrArg RgbImage.pixels (toImg_toRgb b hlb)
  have hcount : ∀ c ∈ (b.toImg hlb).rgbPixels, c ∈ (List.range n.toNat).map palette := by
    intro c hc
    rw [hrgb, hb] at hc
    obtain ⟨x, hx, rfl⟩ := List.mem_map.1 hc
    exact List.mem_map_of_mem (List.mem_range.2 (e4 x hx).1)
  -- the colours of `b`
  have hS : Distinct ((colorCounts p.orderColor (b.toImg hlb)).map (·.color)) (b.toImg hlb).rgbPixels :=
    ⟨colorCounts_nodup hp.orderColor _, mem_colorCounts hp.orderColor _⟩
  have hle := nodup_length_le hS.1 (l' := (List.range n.toNat).map palette) (fun c hc => hcount c ((hS.2 c).1 hc))
  rw [List.length_map (f := palette), List.length_range] at hle
  by_cases heq : ((colorCounts p.orderColor (b.toImg hlb)).map (·.color)).length < n.toNat
  · left
    exact ⟨hlb, C49_cluster_colors hp.orderColor _ (fun c hc => (hS.2 c).2 hc) (.inr heq)⟩
  · right
    have hne : (b.toImg hlb).pixels ≠ [] := by
      intro h0
      have hbe : b.pixels = [] := by simpa [RgbImage.toImg] using h0
      have hae : (a.toImg hl).pixels = [] := by
        rw [hb] at hbe
        simpa [Img.rgbPixels] using hbe
      have hcc : colorCounts p.orderColor (a.toImg hl) = [] := by
        rw [List.eq_nil_iff_forall_not_mem]
        intro q hq
        have := (mem_colorCounts hp.orderColor (a.toImg hl) q.color).1 (List.mem_map_of_mem hq)
        rw [Img.rgbPixels, hae] at this
        simp at this
      have hpos := (reached_invariant hsort (cluster_ok hcl).choose_spec.choose_spec.choose_spec.1).positive
      have := C49_panics (colorEnv p.out p.chk) fuel (colorCounts p.orderColor (a.toImg hl)) n.toNat
        (Or.inr (by rw [hcc]; exact hpos))
      rw [this] at hcl
      cases hcl
    have hba : Addressable (b.toImg hlb) := by
      show 3 * (b.width.toNat * b.height.toNat) < 2 ^ 63
      rw [hb]
      exact ha
    obtain ⟨m2, _, file', f1, f2, f3, -⟩ := C79_cluster_colors hp hsort fuel' 0 hba hne hS (n := n) (by omega)
    rw [toImg_toRgb] at f3
    exact ⟨file', hlb, m2, f1, f2, f3⟩

/-- **C79**, one cluster: cluster-colors completes and every pixel gets the mean colour of the picture, rounded
down. -/
theorem C79_one_color {p : Setup} (hp : p.Lawful) (hsort : IsSort p.out.sort) (fuel : Nat) {img : Img}
    (ha : Addressable img) (hfit : CountsFit img) (hne : img.pixels ≠ []) :
    ∃ m bytes, (AnyCodec.clusterColors 1).encode p (fuel + 2) img = .ok m ∧ bytesOf m = .ok bytes ∧
      (AnyCodec.clusterColors 1).decode p bytes =
        .ok { width := img.width, height := img.height
              pixels := List.replicate img.pixels.length (floorMean img.rgbPixels) } := by
  have hcne : colorCounts p.orderColor img ≠ [] := by
    obtain ⟨x, hx⟩ := List.exists_mem_of_ne_nil _ hne
    intro h0
    have := (mem_colorCounts hp.orderColor img x.toRgb).2 (List.mem_map_of_mem hx)
    rw [h0] at this
    simp at this
  obtain ⟨cl, c, h1, -, -⟩ := cluster_one (env := colorEnv p.out p.chk)
    (color_sound p.out p.chk (colorCounts p.orderColor img)) hsort (color_meanOfSome _ _) (minActive_one hp.float _) hcne
    ((color_total p.out p.chk hp.orderColor img hfit).mean _ ⟨[], by simp⟩) fuel
  obtain ⟨m, e1, bytes, group, palette, e2, e3, e4⟩ := C47_cluster_colors (M := p.heapRgb) (n := 1) hsort hp.orderColor
    hp.orderRgb ha hfit h1
  refine ⟨m, bytes, e1, e2.bytesOf, ?_⟩
  show clusterColorsDecode bytes = _
  rw [e3]
  congr 2
  rw [img.size, ← rgbPixels_length img, ← List.map_const']
  apply List.map_congr_left
  intro x hx
  rw [(e4 x hx).2, List.filter_eq_self.2]
  intro y hy
  have g1 := (e4 x hx).1
  have g2 := (e4 y hy).1
  have : (1 : UInt64).toNat = 1 := rfl
  rw [beq_iff_eq]
  omega

/-! ## voronoi -/

/-- Sums of two squares divisible by a power of four. -/
theorem squares_dvd (k a b : Nat) (h : (a * a + b * b) % 4 ^ k = 0) : 2 ^ k ∣ a ∧ 2 ^ k ∣ b := by
  induction k generalizing a b with
  | zero => simp
  | succ k ih =>
    have h4 : (a * a + b * b) % 4 = 0 :=
      Nat.mod_eq_zero_of_dvd (Nat.dvd_trans ⟨4 ^ k, by rw [Nat.pow_succ, Nat.mul_comm]⟩ (Nat.dvd_of_mod_eq_zero h))
    have ev : a % 2 = 0 ∧ b % 2 = 0 := by
      have ha := Nat.mod_two_eq_zero_or_one a
      have hb := Nat.mod_two_eq_zero_or_one b
      obtain ⟨u, hu⟩ : ∃ u, a = 2 * u + a % 2 := ⟨a / 2, by omega⟩
      obtain ⟨v, hv⟩ : ∃ v, b = 2 * v + b % 2 := ⟨b / 2, by omega⟩
      rcases ha with ha | ha <;> rcases hb with hb | hb <;> rw [ha] at hu <;> rw [hb] at hv <;> subst hu hv
      · exact ⟨ha, hb⟩
      all_goals (exfalso; ring_nf at h4; omega)
    obtain ⟨u, rfl⟩ := Nat.dvd_of_mod_eq_zero ev.1
    obtain ⟨v, rfl⟩ := Nat.dvd_of_mod_eq_zero ev.2
    have h' : (u * u + v * v) % 4 ^ k = 0 := by
      obtain ⟨q, hq⟩ := Nat.dvd_of_mod_eq_zero h
      refine Nat.mod_eq_zero_of_dvd ⟨q, ?_⟩
      rw [Nat.pow_succ] at hq
      nlinarith
    obtain ⟨h1, h2⟩ := ih u v h'
    rw [Nat.pow_succ, Nat.mul_comm (2 ^ k)]
    exact ⟨Nat.mul_dvd_mul_left 2 h1, Nat.mul_dvd_mul_left 2 h2⟩

/-- On pictures with sides up to 2^16 the wrapped distance is zero only at the position itself. -/
theorem wrappedSqDist_eq_zero {c : ColorPos} {x y : Nat} (hx : c.x.toNat < 2 ^ 16) (hy : c.y.toNat < 2 ^ 16)
    (hx' : x < 2 ^ 16) (hy' : y < 2 ^ 16) (h : wrappedSqDist c x y = 0) : c.x.toNat = x ∧ c.y.toNat = y := by
  have e : sqDist c x y = gap c.x.toNat x * gap c.x.toNat x + gap c.y.toNat y * gap c.y.toNat y := by
    have h1 := sqDist_int c x y
    have h2 := gap_sq_int c.x.toNat x
    have h3 := gap_sq_int c.y.toNat y
    rw [Nat.pow_two] at h2 h3
    zify
    push_cast at h2 h3
    rw [h1, h2, h3]
  rw [wrappedSqDist, e] at h
  obtain ⟨d1, d2⟩ := squares_dvd 16 _ _ h
  have g1 : gap c.x.toNat x < 2 ^ 16 := by unfold gap; omega
  have g2 : gap c.y.toNat y < 2 ^ 16 := by unfold gap; omega
  have z1 := Nat.eq_zero_of_dvd_of_lt d1 g1
  have z2 := Nat.eq_zero_of_dvd_of_lt d2 g2
  unfold gap at z1 z2
  omega

/-- As many clusters as pixels: the centroids are the pixels, the last one first. -/
theorem voronoi_all {p : Setup} (hp : p.Lawful) (hsort : IsSort p.out.sort) (hrel : p.chk = false) (fuel : Nat)
    {n : UInt64} {img : Img} (hne : img.pixels ≠ [])
    (hn : n.toNat = img.pixels.length) :
    ∃ m, (AnyCodec.voronoi n).encode p (fuel + 2) img = .ok m ∧
      bytesOf m = .ok (voronoiBytes img.width img.height (dataPoints img).reverse) := by
  have hpos : 0 < img.pixels.length := List.length_pos_iff.2 hne
  have hdne : dataPoints img ≠ [] := by
    intro h0
    have := dataPoints_length img
    rw [h0, List.length_nil] at this
    omega
  obtain ⟨cl, h1, h2⟩ := cluster_singletons (env := posEnv p.out false) (pos_total p.out (dataPoints img)).toSound hsort
    (pos_meanOfSome _ _) (fun q _ => pos_mean_single false q) (fun q _ => pos_dist_self hp.float q)
    (fun a b d hd => by
      have hd : ColorPos.dist p.out.fl false a b = some d := hd
      simp only [ColorPos.dist, u32Sub, u32Sq, Bool.false_and, Bool.false_eq_true, if_false, Option.bind_eq_bind,
        Option.bind_some] at hd
      rw [← Option.some.inj hd]
      exact hp.float.sqrt_nonneg _)
    (div_two_nonneg hp.float) hdne fuel
  rw [dataPoints_length, ← hn] at h1
  have hfst : cl.intoIter.map (·.1) = (dataPoints img).reverse := by
    rw [h2, List.map_map]
    exact (List.map_congr_left (fun _ _ => rfl)).trans (List.map_id _)
  refine ⟨do ser img.width; ser img.height; ser (Usize.mk n); Proc.forEach ser (cl.intoIter.map (·.1)), ?_, ?_⟩
  · show voronoiEncode p.out p.chk (fuel + 2) n img = _
    unfold voronoiEncode
    rw [hrel, h1]
    rfl
  · have hu : SerSpec.bytes (Usize.mk n) = le 8 (dataPoints img).reverse.length := by
      rw [List.length_reverse, dataPoints_length, ← hn]; rfl
    unfold voronoiBytes
    rw [← hu, List.append_assoc, List.append_assoc, hfst]
    exact (Emits.bind (LawfulSer.emits img.width trivial) (Emits.bind (LawfulSer.emits img.height trivial)
      (Emits.bind (LawfulSer.emits (Usize.mk n) trivial) (Emits.forEach _ fun p _ => LawfulSer.emits p trivial)))).bytesOf

/-- **C79**, voronoi: without overflow checks, with as many clusters as pixels and sides up to 2^16, the codec completes
and is lossless. -/
theorem C79_voronoi {p : Setup} (hp : p.Lawful) (hsort : IsSort p.out.sort) (hrel : p.chk = false) (fuel : Nat)
    {n : UInt64} {img : Img} (hw : img.width.toNat ≤ 2 ^ 16) (hh : img.height.toNat ≤ 2 ^ 16)
    (hne : img.pixels ≠ []) (hn : n.toNat = img.pixels.length) :
    ∃ m bytes, (AnyCodec.voronoi n).encode p (fuel + 2) img = .ok m ∧ bytesOf m = .ok bytes ∧
      (AnyCodec.voronoi n).decode p bytes = .ok img.toRgb := by
  obtain ⟨m, h1, h2⟩ := voronoi_all hp hsort hrel fuel hne hn
  refine ⟨m, _, h1, h2, ?_⟩
  have hpos : 0 < img.pixels.length := List.length_pos_iff.2 hne
  have hdne : (dataPoints img).reverse ≠ [] := by
    intro h0
    have := congrArg List.length h0
    rw [List.length_reverse, dataPoints_length, List.length_nil] at this
    omega
  have hmul := Nat.mul_le_mul hw hh
  obtain ⟨px, p1, p2, p3⟩ := C48_release img.width img.height (dataPoints img).reverse [] (by omega)
    (by rw [List.length_reverse, dataPoints_length, img.size]; omega) hdne
  rw [List.append_nil] at p1
  show voronoiDecode p.chk _ = _
  rw [hrel, p1]
  congr 1
  show _ = RgbImage.mk _ _ _
  congr 1
  apply List.ext_getElem?
  intro i
  by_cases hi : i < img.width.toNat * img.height.toNat
  · obtain ⟨best, b1, l1, l2, b2, b3, b4⟩ := p3 i hi
    have hlt : i < (dataPoints img).length := by rw [dataPoints_length, img.size]; exact hi
    have hq := List.getElem?_eq_getElem hlt
    have hqm : (dataPoints img)[i] ∈ (dataPoints img).reverse := List.mem_reverse.2 (List.getElem_mem _)
    have hbm : best ∈ dataPoints img := by
      rw [← List.mem_reverse, b2]; simp
    obtain ⟨q1, q2, q3, q4, q5⟩ := dataPoints_pos img hq
    obtain ⟨r1, r2⟩ := dataPoints_inside img best hbm
    have hzero : wrappedSqDist (dataPoints img)[i] (i % img.width.toNat) (i / img.width.toNat) = 0 := by
      rw [wrappedSqDist, ← q2, ← q3]
      simp [sqDist]
    have hbz : wrappedSqDist best (i % img.width.toNat) (i / img.width.toNat) = 0 := by
      rw [b2] at hqm
      rcases List.mem_append.1 hqm with hqm | hqm
      · have := b3 _ hqm
        dsimp only at this
        omega
      · rcases List.mem_cons.1 hqm with hqm | hqm
        · rw [← hqm]; exact hzero
        · have := b4 _ hqm
          dsimp only at this
          omega
    obtain ⟨s1, s2⟩ := wrappedSqDist_eq_zero (by omega) (by omega) (by omega) (by omega) hbz
    obtain ⟨j, hj⟩ := List.mem_iff_getElem?.1 hbm
    obtain ⟨t1, t2, t3, -⟩ := dataPoints_pos img hj
    have hij : j = i := by
      have e1 := Nat.div_add_mod i img.width.toNat
      have e2 := Nat.div_add_mod j img.width.toNat
      rw [← s1, ← s2] at e1
      rw [← t2, ← t3] at e2
      omega
    subst hij
    rw [b1]
    rw [dataPoints_get] at hj
    cases hc : img.rgbPixels[j]? with
    | none => rw [hc] at hj; cases hj
    | some c => rw [hc] at hj; cases hj; rfl
  · rw [List.getElem?_eq_none (by omega), List.getElem?_eq_none]
    rw [rgbPixels_length]; omega

/-- **C79**, the limit is sharp: in a row of 2^16 + 1 pixels the first one gets the colour of the last one. -/
theorem C79_voronoi_limit {p : Setup} (hp : p.Lawful) (hsort : IsSort p.out.sort) (hrel : p.chk = false) (fuel : Nat)
    {img : Img} (hw : img.width = 65537) (hh : img.height = 1) :
    ∃ m bytes px, (AnyCodec.voronoi 65537).encode p (fuel + 2) img = .ok m ∧ bytesOf m = .ok bytes ∧
      (AnyCodec.voronoi 65537).decode p bytes = .ok { width := 65537, height := 1, pixels := px } ∧
      px[0]? = img.rgbPixels[65536]? := by
  have hlen : img.pixels.length = 65537 := by rw [img.size, hw, hh]; rfl
  have hdl : (dataPoints img).length = 65537 := by rw [dataPoints_length, hlen]
  obtain ⟨m, h1, h2⟩ := voronoi_all (n := 65537) (img := img) hp hsort hrel fuel
    (by intro h0; rw [h0] at hlen; cases hlen) (by rw [hlen]; rfl)
  obtain ⟨px, p1, p2, p3⟩ := C48_release img.width img.height (dataPoints img).reverse [] (by rw [hw, hh]; decide)
    (by rw [List.length_reverse, hdl]; decide)
    (by intro h0; have := congrArg List.length h0; rw [List.length_reverse, hdl] at this; cases this)
  rw [List.append_nil] at p1
  have p1' : voronoiDecode p.chk (voronoiBytes img.width img.height (dataPoints img).reverse) =
      .ok { width := 65537, height := 1, pixels := px } := by
    rw [hrel, p1, hw, hh]
  refine ⟨m, _, px, h1, h2, p1', ?_⟩
  obtain ⟨best, b1, l1, l2, b2, b3, -⟩ := p3 0 (by rw [hw, hh]; decide)
  have hlast := List.getElem?_eq_getElem (l := dataPoints img) (i := 65536) (by omega)
  obtain ⟨-, q2, q3, -⟩ := dataPoints_pos img hlast
  have hw' : img.width.toNat = 65537 := by rw [hw]; rfl
  rw [hw'] at q2 q3 b3
  have hhead : (dataPoints img).reverse[0]? = (dataPoints img)[65536]? := by
    rw [List.getElem?_reverse (by omega), hdl]
  have hbest : (dataPoints img)[65536]? = some best := by
    cases l1 with
    | nil => rw [← hhead, b2]; rfl
    | cons d l1 =>
      rw [b2, List.cons_append, List.getElem?_cons_zero, hlast] at hhead
      have := b3 d (by simp)
      rw [Option.some.inj hhead] at this
      dsimp only at this
      have hz : wrappedSqDist (dataPoints img)[65536] (0 % 65537) (0 / 65537) = 0 := by
        rw [wrappedSqDist, sqDist, q2, q3]
        rfl
      rw [hz] at this
      omega
  rw [b1]
  rw [dataPoints_get] at hbest
  cases hc : img.rgbPixels[65536]? with
  | none => rw [hc] at hbest; cases hbest
  | some c => rw [hc] at hbest; cases hbest; rfl

/-- **C79**, one cluster: without overflow checks voronoi completes and every pixel gets the mean colour of the picture,
rounded down. -/
theorem C79_one_voronoi {p : Setup} (hp : p.Lawful) (hsort : IsSort p.out.sort) (hrel : p.chk = false) (fuel : Nat)
    {img : Img} (ha : Addressable img) (hsz : 255 * img.pixels.length < 2 ^ 64) (hne : img.pixels ≠ []) :
    ∃ m bytes, (AnyCodec.voronoi 1).encode p (fuel + 2) img = .ok m ∧ bytesOf m = .ok bytes ∧ bytes.length = 35 ∧
      (AnyCodec.voronoi 1).decode p bytes =
        .ok { width := img.width, height := img.height
              pixels := List.replicate img.pixels.length (floorMean img.rgbPixels) } := by
  have hpos : 0 < img.pixels.length := List.length_pos_iff.2 hne
  have hdne : dataPoints img ≠ [] := by
    intro h0
    have := dataPoints_length img
    rw [h0, List.length_nil] at this
    omega
  obtain ⟨cl, c, h1, h2, h3⟩ := cluster_one (env := posEnv p.out false) (pos_total p.out (dataPoints img)).toSound hsort
    (pos_meanOfSome _ _) (minActive_one hp.float _) hdne
    ((pos_total p.out (dataPoints img)).mean _ ⟨[], by simp⟩) fuel
  obtain ⟨c', m1, m4⟩ := pos_mean_colors (dataPoints img) hdne (by rw [dataPoints_length]; exact hsz)
  have h3 : ColorPos.mean false (dataPoints img) = .ok c := h3
  rw [m1] at h3
  cases h3
  have hcol : (dataPoints img).map (·.color) = img.rgbPixels := by
    apply List.ext_getElem?
    intro i
    rw [List.getElem?_map, dataPoints_get]
    cases img.rgbPixels[i]? <;> rfl
  rw [hcol] at m4
  refine ⟨do ser img.width; ser img.height; ser (Usize.mk 1); Proc.forEach ser (cl.intoIter.map (·.1)),
    voronoiBytes img.width img.height [c], ?_, ?_, rfl, ?_⟩
  · show voronoiEncode p.out p.chk (fuel + 2) 1 img = _
    unfold voronoiEncode
    rw [hrel, show (1 : UInt64).toNat = 1 from rfl, h1]
    rfl
  · rw [h2]
    unfold voronoiBytes
    rw [List.append_assoc, List.append_assoc]
    exact (Emits.bind (LawfulSer.emits img.width trivial) (Emits.bind (LawfulSer.emits img.height trivial)
      (Emits.bind (LawfulSer.emits (Usize.mk 1) trivial)
        (Emits.forEach [c] fun p _ => LawfulSer.emits p trivial)))).bytesOf
  · obtain ⟨px, p1, p2, p3⟩ := C48_release img.width img.height [c] [] ha (by simp) (by simp)
    rw [List.append_nil] at p1
    show voronoiDecode p.chk _ = _
    rw [hrel, p1]
    congr 2
    apply List.ext_getElem?
    intro i
    by_cases hi : i < img.width.toNat * img.height.toNat
    · obtain ⟨best, b1, l1, l2, b2, -⟩ := p3 i hi
      have hb : best = c := by
        have : best ∈ [c] := by rw [b2]; simp
        simpa using this
      rw [b1, hb, m4, List.getElem?_replicate, if_pos (by rw [img.size]; exact hi)]
    · rw [List.getElem?_eq_none (by omega), List.getElem?_eq_none]
      rw [List.length_replicate, img.size]; omega

/-! ## Concrete cases -/

namespace ExtremeExamples
open AnyCodecExamples (setup setup_lawful)

/-- Five dark colours. -/
def dark : RgbImage where
  width := 5
  height := 1
  pixels := [⟨1, 1, 0⟩, ⟨0, 1, 1⟩, ⟨1, 0, 1⟩, ⟨0, 0, 0⟩, ⟨1, 0, 0⟩]

theorem dark_size : dark.pixels.length = dark.width.toNat * dark.height.toNat := rfl

theorem dark_run : cluster (colorEnv setup.out setup.chk) 9 (colorCounts setup.orderColor (dark.toImg dark_size)) 2 =
    .ok ⟨[⟨⟨0, 0, 0⟩, 1⟩, ⟨⟨0, 0, 0⟩, 1⟩],
         [[⟨⟨0, 0, 0⟩, 1⟩, ⟨⟨1, 0, 0⟩, 1⟩], [⟨⟨1, 1, 0⟩, 1⟩, ⟨⟨0, 1, 1⟩, 1⟩, ⟨⟨1, 0, 1⟩, 1⟩]],
         [⟨0, [(1, 0)], 0⟩, ⟨1, [(0, 0)], 0⟩]⟩ := by decide +kernel

/-- Five black pixels. -/
def black5 : RgbImage where
  width := 5
  height := 1
  pixels := List.replicate 5 ⟨0, 0, 0⟩

theorem dark_generation : ∃ file, Generation setup 9 (.clusterColors 2) dark file black5 := by
  have hred : reducedImg (reducedColors ⟨[⟨⟨0, 0, 0⟩, 1⟩, ⟨⟨0, 0, 0⟩, 1⟩],
      [[⟨⟨0, 0, 0⟩, 1⟩, ⟨⟨1, 0, 0⟩, 1⟩], [⟨⟨1, 1, 0⟩, 1⟩, ⟨⟨0, 1, 1⟩, 1⟩, ⟨⟨1, 0, 1⟩, 1⟩]],
      [⟨0, [(1, 0)], 0⟩, ⟨1, [(0, 0)], 0⟩]⟩) (dark.toImg dark_size) = some black5 := by decide +kernel
  obtain ⟨bytes, he, hd⟩ := C28_hufman_lossless setup.heapRgb setup.orderRgb setup_lawful.orderRgb
    (black5.toImg (by decide)) (by unfold Addressable; decide) (by decide)
  refine ⟨bytes, dark_size, _, ?_, he.bytesOf, ?_⟩
  · show clusterColorsEncode _ _ _ _ _ 9 2 _ = _
    unfold clusterColorsEncode
    rw [show (2 : UInt64).toNat = 2 from rfl, dark_run, Ret.bind_ok_eq, hred]
    rfl
  · rw [toImg_toRgb] at hd
    exact hd

end ExtremeExamples

/-- **C79**, again: the encoder may panic on a picture that it made itself. -/
theorem C79_again_panics : ∃ (p : Setup) (fuel : Nat) (n : UInt64) (a b : RgbImage) (file : List UInt8),
    p.Lawful ∧ IsSort p.out.sort ∧ Generation p fuel (.clusterColors n) a file b ∧
      ∃ hl, ∀ fuel', (AnyCodec.clusterColors n).encode p fuel' (b.toImg hl) = .panic := by
  obtain ⟨file, h⟩ := ExtremeExamples.dark_generation
  exact ⟨AnyCodecExamples.setup, 9, 2, _, _, file, AnyCodecExamples.setup_lawful, sortByDist_isSort, h, by decide, fun fuel' =>
    C49_cluster_colors AnyCodecExamples.setup_lawful.orderColor [⟨0, 0, 0⟩] (by decide) (.inr (by decide))⟩

namespace ExtremeExamples
open AnyCodecExamples (setup setup_lawful)

theorem img_colors : Distinct [⟨255, 0, 0⟩, ⟨0, 0, 201⟩, ⟨200, 0, 0⟩, ⟨0, 0, 100⟩] ClusterExamples.img.rgbPixels :=
  ⟨by decide, fun x => by
    have : ClusterExamples.img.rgbPixels =
      [⟨255, 0, 0⟩, ⟨0, 0, 201⟩, ⟨200, 0, 0⟩, ⟨0, 0, 100⟩, ⟨255, 0, 0⟩] := rfl
    rw [this]
    simp only [List.mem_cons, List.not_mem_nil, or_false]
    tauto⟩

/-- C79: five pixels of four colours, four clusters. -/
example : ∃ m m' bytes, (AnyCodec.clusterColors 4).encode setup 2 ClusterExamples.img = .ok m ∧ bytesOf m = .ok bytes ∧
    (AnyCodec.clusterColors 4).decode setup bytes = .ok ClusterExamples.img.toRgb ∧
    AnyCodec.hufman.encode setup 0 ClusterExamples.img = .ok m' ∧ bytesOf m' = .ok bytes :=
  C79_cluster_colors setup_lawful sortByDist_isSort 0 0 ClusterExamples.img_addressable (by decide)
    img_colors rfl

/-- C79, again: a picture that keeps its pixels. -/
example : ∃ file, Generation setup 2 (.clusterColors 4) ClusterExamples.img.toRgb file ClusterExamples.img.toRgb := by
  obtain ⟨m, -, bytes, h1, h2, h3, -⟩ := C79_cluster_colors setup_lawful sortByDist_isSort 0 0
    ClusterExamples.img_addressable (by decide) img_colors (n := 4) rfl
  rw [C73_opaque] at h1
  have h : Generation setup 2 (.clusterColors 4) ClusterExamples.img.toRgb bytes ClusterExamples.img.toRgb :=
    ⟨rfl, m, h1, h2, h3⟩
  rcases C79_again setup_lawful sortByDist_isSort 0 (by unfold RgbImage.Fits; decide) h with ⟨_, h'⟩ | h'
  · rw [h1] at h'
    cases h'
  · exact h'

/-- C79, one cluster. -/
example : ∃ m bytes, (AnyCodec.clusterColors 1).encode setup 2 ClusterExamples.img = .ok m ∧ bytesOf m = .ok bytes ∧
    (AnyCodec.clusterColors 1).decode setup bytes =
      .ok { width := 5, height := 1, pixels := List.replicate 5 ⟨142, 0, 60⟩ } :=
  C79_one_color setup_lawful sortByDist_isSort 0 ClusterExamples.img_addressable (.of_small (by decide)) (by decide)

/-- Without overflow checks. -/
def release : Setup := { setup with chk := false }

theorem release_lawful : release.Lawful := ⟨setup_lawful.1, setup_lawful.2, setup_lawful.3, setup_lawful.4, setup_lawful.5⟩

/-- C79: voronoi with five clusters for five pixels. -/
example : ∃ m bytes, (AnyCodec.voronoi 5).encode release 2 ClusterExamples.img = .ok m ∧ bytesOf m = .ok bytes ∧
    (AnyCodec.voronoi 5).decode release bytes = .ok ClusterExamples.img.toRgb :=
  C79_voronoi release_lawful sortByDist_isSort rfl 0 (by decide) (by decide) (by decide) rfl

/-- C79: voronoi with one cluster. -/
example : ∃ m bytes, (AnyCodec.voronoi 1).encode release 2 ClusterExamples.img = .ok m ∧ bytesOf m = .ok bytes ∧
    bytes.length = 35 ∧ (AnyCodec.voronoi 1).decode release bytes =
      .ok { width := 5, height := 1, pixels := List.replicate 5 ⟨142, 0, 60⟩ } :=
  C79_one_voronoi release_lawful sortByDist_isSort rfl 0 ClusterExamples.img_addressable (by decide) (by decide)

/-- A black row with a white pixel at the end. -/
def row : Img where
  width := 65537
  height := 1
  pixels := List.replicate 65536 ⟨0, 0, 0, 255⟩ ++ [⟨255, 255, 255, 255⟩]
  size := by rw [List.length_append, List.length_replicate]; rfl

/-- C79, the limit: the first pixel becomes white. -/
example : ∃ m bytes px, (AnyCodec.voronoi 65537).encode release 2 row = .ok m ∧ bytesOf m = .ok bytes ∧
    (AnyCodec.voronoi 65537).decode release bytes = .ok { width := 65537, height := 1, pixels := px } ∧
    px[0]? = some ⟨255, 255, 255⟩ ∧ row.rgbPixels[0]? = some ⟨0, 0, 0⟩ := by
  obtain ⟨m, bytes, px, h1, h2, h3, h4⟩ := C79_voronoi_limit (img := row) release_lawful sortByDist_isSort rfl 0 rfl rfl
  refine ⟨m, bytes, px, h1, h2, h3, ?_, ?_⟩
  · rw [h4, Img.rgbPixels, List.getElem?_map]
    unfold row
    rw [List.getElem?_append_right (by rw [List.length_replicate]), List.length_replicate]
    rfl
  · rw [Img.rgbPixels, List.getElem?_map]
    unfold row
    rw [List.getElem?_append_left (by rw [List.length_replicate]; omega), List.getElem?_replicate, if_pos (by omega)]
    rfl

end ExtremeExamples

end Cniic
