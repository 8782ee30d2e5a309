import Verif.Proofs.Quality
import Verif.Props.Extreme

/-!
# How good lossy pictures are on average (C82)
-/

namespace Cniic
open Spec Kmeans Spec.Kmeans

theorem perm_by_key {α : Type} (key : α → Nat) (l : List α) (n : Nat) :
    (l.filter fun x => decide (key x < n)).Perm ((List.range n).flatMap fun k => l.filter fun x => key x == k) := by
  induction n with
  | zero => simp
  | succ n ih =>
    rw [List.range_succ, List.flatMap_append]
    refine List.Perm.trans ?_ (ih.append_right _)
    have h := List.filter_append_perm (fun x => decide (key x < n)) (l.filter fun x => decide (key x < n + 1))
    refine h.symm.trans (List.Perm.of_eq ?_)
    rw [List.filter_filter, List.filter_filter]
    simp only [List.flatMap_cons, List.flatMap_nil, List.append_nil]
    congr 1 <;> apply List.filter_congr <;> intro x _ <;> rw [Bool.eq_iff_iff] <;> simp <;> omega

/-- Pixels that get the mean of the pixels with the same key. -/
theorem byGroups_key {xs : List (Rgb UInt8)} {key : Rgb UInt8 → Nat} {f : Rgb UInt8 → Rgb UInt8} {n : Nat}
    (h : ∀ x ∈ xs, key x < n ∧ f x = floorMean (xs.filter fun y => key y == key x)) :
    ByGroups floorMean ((List.range n).map fun k => xs.filter fun x => key x == k) xs (xs.map f) := by
  refine ⟨by simp, ?_⟩
  have e1 : xs.zip (xs.map f) = xs.map fun x => (x, f x) := by
    clear h
    induction xs with
    | nil => rfl
    | cons x xs ih => simp [ih]
  have e2 : xs.filter (fun x => decide (key x < n)) = xs := List.filter_eq_self.2 fun x hx => by simp [(h x hx).1]
  rw [e1]
  have := (perm_by_key key xs n).map fun x => (x, f x)
  rw [e2] at this
  refine this.trans (List.Perm.of_eq ?_)
  rw [groupPairs, List.flatMap_map, List.map_flatMap]
  apply List.flatMap_congr
  intro k _
  apply List.map_congr_left
  intro x hx
  rw [List.mem_filter, beq_iff_eq] at hx
  rw [(h x hx.1).2, hx.2]

/-- **C82**, cluster-colors: on average each channel gets darker by less than one level, and the squared error is less than
that of any picture in one colour plus 3 for each pixel. -/
theorem C82_cluster_colors {p : Setup} (hp : p.Lawful) (hsort : IsSort p.out.sort) {fuel : Nat} {n : UInt64} {img : Img}
    (ha : Addressable img) (hfit : CountsFit img) {m : W Unit} {bytes : List UInt8} {out : RgbImage}
    (he : (AnyCodec.clusterColors n).encode p fuel img = .ok m) (hb : bytesOf m = .ok bytes)
    (hd : (AnyCodec.clusterColors n).decode p bytes = .ok out) :
    SlightlyDarker img.rgbPixels out.pixels ∧
      ∀ c : Rgb Rat, (squaredError img.rgbPixels out.pixels : Rat) < deviation img.rgbPixels c + 3 * img.rgbPixels.length := by
  have he' := he
  simp only [AnyCodec.encode, clusterColorsEncode] at he'
  obtain ⟨cl, hcl, -⟩ := Ret.bind_ok.1 he'
  obtain ⟨m', hm', bytes', group, palette, hem, hd', hg⟩ :=
    C47_cluster_colors (M := p.heapRgb) hsort hp.orderColor hp.orderRgb ha hfit hcl
  have h1 : m' = m := by
    have : (Ret.ok m : Ret Unit (W Unit)) = .ok m' := he.symm.trans hm'
    cases this
    rfl
  subst h1
  have h2 : bytes' = bytes := by
    have := hem.bytesOf.symm.trans hb
    cases this
    rfl
  subst h2
  have h3 := hd'.symm.trans hd
  cases h3
  have hby := byGroups_key (xs := img.rgbPixels) (key := group) (f := fun c => palette (group c)) (n := n.toNat) hg
  have hne : img.rgbPixels ≠ [] := by
    intro hn
    have hpx : ∀ c ∈ img.rgbPixels, c ∈ ([] : List (Rgb UInt8)) := by simp [hn]
    have : (AnyCodec.clusterColors n).encode p fuel img = .panic := by
      by_cases h0 : n = 0
      · exact C49_cluster_colors hp.orderColor [] hpx (.inl h0)
      · refine C49_cluster_colors hp.orderColor [] hpx (.inr ?_)
        have : n.toNat ≠ 0 := fun e => h0 (UInt64.toNat_inj.1 e)
        simp only [List.length_nil]
        omega
    rw [this] at he
    cases he
  exact ⟨hby.darker fun _ _ _ => rfl, hby.floor_error (fun _ _ _ => rfl) hne⟩

/-- Pixels along a traversal. -/
theorem byGroups_scan {scan : Scan} {img : Img} {out : RgbImage} {groups : List (List (Rgb UInt8))}
    (hs : VisitsOnce scan img.width.toNat img.height.toNat) (hw : out.width = img.width)
    (hl : out.pixels.length = img.width.toNat * img.height.toNat) (hg : groups.flatten = colorsAlong scan img)
    (ho : (scan img.width.toNat img.height.toNat).map (pixelAt out) = (averaged groups).map some) :
    ByGroups meanColor groups img.rgbPixels out.pixels := by
  refine ⟨by rw [rgbPixels_length, hl], ?_⟩
  have e1 := rgbPixels_eq img
  have e2 : out.pixels = (cells img.width.toNat img.height.toNat).map fun c => (pixelAt out c).getD black := by
    apply eq_map_cells hl
    intro x y hx hy
    have := index_lt hx hy
    rw [pixelAt, hw]
    simp only
    rw [List.getElem?_eq_getElem (by rw [hl]; exact this)]
    rfl
  rw [e1, e2]
  have e3 : ∀ (l : List (Nat × Nat)) (f g : Nat × Nat → Rgb UInt8), (l.map f).zip (l.map g) = l.map fun c => (f c, g c) := by
    intro l f g
    induction l with
    | nil => rfl
    | cons c l ih => simp [ih]
  rw [e3]
  refine (hs.map fun c => (colorAt img c, (pixelAt out c).getD black)).symm.trans (List.Perm.of_eq ?_)
  have e4 : (scan img.width.toNat img.height.toNat).map (fun c => (pixelAt out c).getD black) = averaged groups := by
    have := congrArg (List.map fun x : Option (Rgb UInt8) => x.getD black) ho
    rw [List.map_map, List.map_map] at this
    refine this.trans ?_
    conv => rhs; rw [← List.map_id (averaged groups)]
    rfl
  rw [← e3, e4, show (scan img.width.toNat img.height.toNat).map (colorAt img) = colorsAlong scan img from rfl, ← hg]
  clear * -
  induction groups with
  | nil => rfl
  | cons g gs ih =>
    rw [List.flatten_cons, averaged, List.flatMap_cons, List.zip_append (by simp), groupPairs, List.flatMap_cons]
    have ih' : gs.flatten.zip (gs.flatMap fun g => List.replicate g.length (meanColor g)) =
      gs.flatMap fun g => g.map fun x => (x, meanColor g) := ih
    rw [ih']
    congr 1
    generalize meanColor g = y
    induction g with
    | nil => rfl
    | cons x xs ih => simp [List.replicate_succ, ih]

/-- **C82**, hilbert(rle(d)): on average each channel differs by at most half a level, and the squared error is at most that of
any picture in one colour plus 3/4 for each pixel. -/
theorem C82_rle {p : Setup} (hp : p.Lawful) {fuel : Nat} {d : F64} (hd0 : d.isZero = false) {img : Img}
    (hs : VisitsOnce p.scan img.width.toNat img.height.toNat) (ha : Addressable img) :
    ∃ m bytes out, (AnyCodec.hilbert (.rle d)).encode p fuel img = .ok m ∧ bytesOf m = .ok bytes ∧
      (AnyCodec.hilbert (.rle d)).decode p bytes = .ok out ∧ SameBrightness img.rgbPixels out.pixels ∧
      ∀ c : Rgb Rat,
        (squaredError img.rgbPixels out.pixels : Rat) ≤ deviation img.rgbPixels c + 3 / 4 * img.rgbPixels.length := by
  obtain ⟨groups, bytes, out, hg, he, h1, h2, h3, h4, h5⟩ := C35_codec hp.float p.scan d hd0 img hs ha
  have hby := byGroups_scan hs h2 h4 hg.flatten h5
  exact ⟨_, bytes, out, rfl, he.bytesOf, h1, hby.brightness fun _ _ _ => rfl, hby.round_error fun _ _ _ => rfl⟩

/-! ## What does not hold -/

/-- A row of pixels that differ in red only. -/
def redRow (l : List UInt8) (h : l.length < 2 ^ 32) : Img where
  width := UInt32.ofNat l.length
  height := 1
  pixels := l.map fun v => ⟨v, 0, 0, 255⟩
  size := by
    rw [List.length_map, UInt32.toNat_ofNat', Nat.mod_eq_of_lt h]
    simp

/-- The length of the file and the squared error of the decoded picture. -/
def outcomeOf (p : Setup) (fuel : Nat) (c : AnyCodec) (img : Img) : Option (Nat × Nat) :=
  match c.encode p fuel img with
  | .ok m =>
    match bytesOf m with
    | .ok bytes =>
      match c.decode p bytes with
      | .ok out => some (bytes.length, squaredError img.rgbPixels out.pixels)
      | _ => none
    | _ => none
  | _ => none

theorem outcomeOf_some {p : Setup} {fuel : Nat} {c : AnyCodec} {img : Img} {l e : Nat}
    (h : outcomeOf p fuel c img = some (l, e)) : ∃ m bytes out, c.encode p fuel img = .ok m ∧ bytesOf m = .ok bytes ∧
      c.decode p bytes = .ok out ∧ bytes.length = l ∧ squaredError img.rgbPixels out.pixels = e := by
  unfold outcomeOf at h
  split at h
  · next m hm =>
    split at h
    · next bytes hb =>
      split at h
      · next out ho =>
        cases h
        exact ⟨m, bytes, out, hm, hb, ho, rfl, rfl⟩
      · cases h
    · cases h
  · cases h

/-- **C82**, more clusters: a picture that loses more with three colours than with two. -/
theorem C82_more_colors : ∃ (p : Setup) (img : Img) (l2 l3 e2 e3 : Nat), p.Lawful ∧ IsSort p.out.sort ∧
    outcomeOf p 9 (.clusterColors 2) img = some (l2, e2) ∧ outcomeOf p 9 (.clusterColors 3) img = some (l3, e3) ∧ e2 < e3 :=
  ⟨ExtremeExamples.release, redRow [8, 10, 5, 0, 6, 7] (by decide), 34, 48, 15, 16, ExtremeExamples.release_lawful,
    sortByDist_isSort, by decide +kernel, by decide +kernel, by decide⟩

/-- **C82**, voronoi: there is no such bound.  Two clusters may be much worse than one, and than a picture in one colour. -/
theorem C82_voronoi : ∃ (p : Setup) (img : Img) (l1 l2 e1 e2 : Nat), p.Lawful ∧ IsSort p.out.sort ∧
    outcomeOf p 9 (.voronoi 1) img = some (l1, e1) ∧ outcomeOf p 9 (.voronoi 2) img = some (l2, e2) ∧
      2 * e1 < e2 ∧ ∃ c : Rgb Rat, deviation img.rgbPixels c + 20000 * img.rgbPixels.length < e2 :=
  ⟨ExtremeExamples.release, redRow [255, 0, 255, 0, 255] (by decide), 35, 54, 78030, 195075, ExtremeExamples.release_lawful,
    sortByDist_isSort, by decide +kernel, by decide +kernel, by decide, ⟨153, 0, 0⟩, by decide +kernel⟩

/-- **C82**, larger allowances: the file may get longer, and the error smaller. -/
theorem C82_larger_allowance : ∃ (p : Setup) (img : Img) (l3 l4 e3 e4 : Nat), p.Lawful ∧
    outcomeOf p 0 (.hilbert (.rle (.fin 3))) img = some (l3, e3) ∧
      outcomeOf p 0 (.hilbert (.rle (.fin 4))) img = some (l4, e4) ∧ l3 < l4 ∧ e4 < e3 :=
  ⟨ExtremeExamples.release, redRow [0, 0, 4, 2, 6, 1] (by decide), 32, 44, 15, 12, ExtremeExamples.release_lawful,
    by decide +kernel, by decide +kernel, by decide, by decide⟩

/-! ## Concrete cases -/

namespace QualityExamples
open AnyCodecExamples (setup setup_lawful)

/-- C82: five pixels reduced to two colours. -/
example : ∃ m bytes out, (AnyCodec.clusterColors 2).encode setup 9 ClusterExamples.img = .ok m ∧ bytesOf m = .ok bytes ∧
    (AnyCodec.clusterColors 2).decode setup bytes = .ok out ∧ SlightlyDarker ClusterExamples.img.rgbPixels out.pixels ∧
    (squaredError ClusterExamples.img.rgbPixels out.pixels : Rat) <
      deviation ClusterExamples.img.rgbPixels ⟨142, 0, 60⟩ + 3 * 5 := by
  obtain ⟨m, bytes, out, h1, h2, h3, -, -⟩ := outcomeOf_some (p := setup) (fuel := 9) (c := .clusterColors 2)
    (img := ClusterExamples.img) (l := 34) (e := 7119) (by decide +kernel)
  obtain ⟨h4, h5⟩ := C82_cluster_colors setup_lawful sortByDist_isSort ClusterExamples.img_addressable (.of_small (by decide)) h1 h2 h3
  exact ⟨m, bytes, out, h1, h2, h3, h4, h5 _⟩

/-- C82: the bound for one colour. -/
example : deviation ClusterExamples.img.rgbPixels ⟨142, 0, 60⟩ = 101511 := by decide +kernel

/-- C82: runs. -/
example : ∃ m bytes out, (AnyCodec.hilbert (.rle (.fin 300))).encode setup 0 ClusterExamples.img = .ok m ∧
    bytesOf m = .ok bytes ∧ (AnyCodec.hilbert (.rle (.fin 300))).decode setup bytes = .ok out ∧
    SameBrightness ClusterExamples.img.rgbPixels out.pixels := by
  obtain ⟨m, bytes, out, h1, h2, h3, h4, -⟩ := C82_rle (fuel := 0) (d := .fin 300) setup_lawful (by decide)
    (img := ClusterExamples.img) (.refl _) ClusterExamples.img_addressable
  exact ⟨m, bytes, out, h1, h2, h3, h4⟩

end QualityExamples
end Cniic
