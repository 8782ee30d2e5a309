import Verif.Spec.Image
import Verif.Proofs.Ser

/-! # Proofs: images, traversals, painting -/

namespace Cniic
open Spec SerSpec

/-! ## Cells -/

theorem cells_length (w h : Nat) : (cells w h).length = w * h := by simp [cells]

theorem mem_cells {w h x y : Nat} : (x, y) ∈ cells w h ↔ x < w ∧ y < h := by
  simp only [cells, List.mem_map, List.mem_range, Prod.mk.injEq]
  constructor
  · rintro ⟨i, hi, rfl, rfl⟩
    have hw : 0 < w := by
      rcases Nat.eq_zero_or_pos w with rfl | hw
      · simp at hi
      · exact hw
    exact ⟨Nat.mod_lt _ hw, Nat.div_lt_of_lt_mul hi⟩
  · rintro ⟨hx, hy⟩
    refine ⟨y * w + x, ?_, ?_, ?_⟩
    · calc y * w + x < y * w + w := by omega
        _ = (y + 1) * w := by rw [Nat.succ_mul]
        _ ≤ h * w := Nat.mul_le_mul_right _ hy
        _ = w * h := Nat.mul_comm _ _
    · rw [Nat.mul_comm, Nat.mul_add_mod, Nat.mod_eq_of_lt hx]
    · rw [Nat.mul_comm, Nat.mul_add_div (by omega), Nat.div_eq_of_lt hx]; omega

theorem mem_cells' {w h : Nat} {c : Nat × Nat} : c ∈ cells w h ↔ c.1 < w ∧ c.2 < h :=
  mem_cells (x := c.1) (y := c.2)

theorem cells_nodup (w h : Nat) : (cells w h).Nodup := by
  unfold cells
  rw [List.nodup_iff_pairwise_ne, List.pairwise_map]
  refine List.Pairwise.imp_of_mem ?_ (List.nodup_iff_pairwise_ne.1 List.nodup_range)
  intro a b _ _ hne he
  apply hne
  have h1 := (Prod.mk.inj he).1
  have h2 := (Prod.mk.inj he).2
  rw [← Nat.div_add_mod a w, ← Nat.div_add_mod b w, h1, h2]

theorem index_lt {w h x y : Nat} (hx : x < w) (hy : y < h) : y * w + x < w * h := by
  calc y * w + x < y * w + w := by omega
    _ = (y + 1) * w := by rw [Nat.succ_mul]
    _ ≤ h * w := Nat.mul_le_mul_right _ hy
    _ = w * h := Nat.mul_comm _ _

theorem index_inj {w x y x' y' : Nat} (hx : x < w) (hx' : x' < w)
    (h : y * w + x = y' * w + x') : (x, y) = (x', y') := by
  have h1 : (y * w + x) % w = x := by rw [Nat.mul_comm, Nat.mul_add_mod, Nat.mod_eq_of_lt hx]
  have h2 : (y' * w + x') % w = x' := by rw [Nat.mul_comm, Nat.mul_add_mod, Nat.mod_eq_of_lt hx']
  have h3 : (y * w + x) / w = y := by
    rw [Nat.mul_comm, Nat.mul_add_div (by omega), Nat.div_eq_of_lt hx]; omega
  have h4 : (y' * w + x') / w = y' := by
    rw [Nat.mul_comm, Nat.mul_add_div (by omega), Nat.div_eq_of_lt hx']; omega
  rw [h] at h1 h3
  rw [← h1, ← h3, h2, h4]

theorem cells_getElem? {w h x y : Nat} (hx : x < w) (hy : y < h) :
    (cells w h)[y * w + x]? = some (x, y) := by
  unfold cells
  rw [List.getElem?_map, List.getElem?_range (index_lt hx hy)]
  simp only [Option.map_some, Option.some.injEq, Prod.mk.injEq]
  constructor
  · rw [Nat.mul_comm, Nat.mul_add_mod, Nat.mod_eq_of_lt hx]
  · rw [Nat.mul_comm, Nat.mul_add_div (by omega), Nat.div_eq_of_lt hx]; omega

/-- A list of the right length is determined by its values at the cells. -/
theorem eq_map_cells {T : Type} {w h : Nat} {l : List T} (hl : l.length = w * h) (f : Nat × Nat → T)
    (hf : ∀ x y, x < w → y < h → l[y * w + x]? = some (f (x, y))) : l = (cells w h).map f := by
  apply List.ext_getElem?
  intro i
  by_cases hi : i < w * h
  · have hw : 0 < w := by
      rcases Nat.eq_zero_or_pos w with rfl | hw
      · simp at hi
      · exact hw
    have hx := Nat.mod_lt i hw
    have hy : i / w < h := Nat.div_lt_of_lt_mul hi
    have e : i / w * w + i % w = i := by rw [Nat.mul_comm]; exact Nat.div_add_mod i w
    have := hf _ _ hx hy
    rw [e] at this
    rw [this, List.getElem?_map, ← e, cells_getElem? hx hy]
    simp [e]
  · rw [List.getElem?_eq_none (by omega), List.getElem?_eq_none (by simp [cells_length]; omega)]

theorem rgbPixels_length (img : Img) :
    img.rgbPixels.length = img.width.toNat * img.height.toNat := by
  simp [Img.rgbPixels, img.size]

theorem rgbPixels_eq (img : Img) :
    img.rgbPixels = (cells img.width.toNat img.height.toNat).map (colorAt img) := by
  apply eq_map_cells (rgbPixels_length img)
  intro x y hx hy
  have := index_lt hx hy
  simp only [colorAt]
  rw [List.getElem?_eq_getElem (by rw [rgbPixels_length]; exact this)]
  rfl

theorem getPixel_eq (img : Img) {x y : Nat} (hx : x < img.width.toNat) (hy : y < img.height.toNat) :
    ∃ p, img.getPixel x y = some p ∧ p.toRgb = colorAt img (x, y) := by
  have hi := index_lt hx hy
  refine ⟨img.pixels[y * img.width.toNat + x]'(by rw [img.size]; exact hi), ?_, ?_⟩
  · rw [Img.getPixel, if_pos ⟨hx, hy⟩, List.getElem?_eq_getElem (by rw [img.size]; exact hi)]
  · simp only [colorAt, Img.rgbPixels]
    rw [List.getElem?_map, List.getElem?_eq_getElem (by rw [img.size]; exact hi)]
    rfl

theorem getAll_eq (img : Img) (cs : List (Nat × Nat))
    (h : ∀ c ∈ cs, c.1 < img.width.toNat ∧ c.2 < img.height.toNat) :
    ∃ ps, getAll img cs = some ps ∧ ps.map Rgba.toRgb = cs.map (colorAt img) ∧
      ps.length = cs.length := by
  induction cs with
  | nil => exact ⟨[], rfl, rfl, rfl⟩
  | cons c cs ih =>
    obtain ⟨x, y⟩ := c
    obtain ⟨ps, h1, h2, h3⟩ := ih fun c hc => h c (by simp [hc])
    have := h (x, y) (by simp)
    obtain ⟨p, hp, hq⟩ := getPixel_eq img this.1 this.2
    exact ⟨p :: ps, by rw [getAll, hp, h1], by simp [h2, hq], by simp [h3]⟩

/-- Reading outside of the image panics. -/
theorem getAll_none (img : Img) (cs : List (Nat × Nat)) (c : Nat × Nat) (hc : c ∈ cs)
    (h : ¬ (c.1 < img.width.toNat ∧ c.2 < img.height.toNat)) : getAll img cs = none := by
  induction cs with
  | nil => simp at hc
  | cons d cs ih =>
    obtain ⟨x, y⟩ := d
    rcases List.mem_cons.1 hc with rfl | hc
    · rw [getAll, Img.getPixel, if_neg h]
    · rw [getAll, ih hc]
      cases img.getPixel x y <;> rfl

theorem linearize_eq {scan : Scan} {img : Img}
    (hs : VisitsOnce scan img.width.toNat img.height.toNat) :
    ∃ ps, linearize scan img = some ps ∧
      ps.map Rgba.toRgb = (scan img.width.toNat img.height.toNat).map (colorAt img) := by
  obtain ⟨ps, h1, h2, _⟩ := getAll_eq img (scan img.width.toNat img.height.toNat)
    (fun c hc => mem_cells'.1 (hs.mem_iff.1 hc))
  exact ⟨ps, h1, h2⟩

theorem linearize_length {scan : Scan} {img : Img}
    (hs : VisitsOnce scan img.width.toNat img.height.toNat) :
    (scan img.width.toNat img.height.toNat).length = img.width.toNat * img.height.toNat := by
  rw [hs.length_eq, cells_length]

/-! ## Dimensions and buffers -/

theorem new_eq (img : Img) (h : Addressable img) :
    RgbImage.new img.width img.height = some
      { width := img.width, height := img.height
        pixels := List.replicate (img.width.toNat * img.height.toNat) black } := by
  exact if_pos h

theorem dims_length (w h : UInt32) : (SerSpec.bytes (w, h)).length = 8 := by
  show (Spec.le 4 _ ++ Spec.le 4 _).length = 8
  simp [Spec.le]

theorem createBuffer_eq (img : Img) (h : Addressable img) (rest : List UInt8) :
    createImageBufferStandard listNext (bytes (img.width, img.height) ++ rest) =
      (.ok ((img.width, img.height),
        { width := img.width, height := img.height
          pixels := List.replicate (img.width.toNat * img.height.toNat) black }), rest) := by
  unfold createImageBufferStandard
  have hv : valid (img.width, img.height) := ⟨trivial, trivial⟩
  rw [Proc.bind_ok (LawfulSer.de_bytes (img.width, img.height) hv rest)]
  simp only [new_eq img h, orPanic]
  rfl

/-! ## Painting -/

/-- Setting the cells of a list one after the other. -/
def paintWith (w : Nat) (f : Nat × Nat → Rgb UInt8) (cs : List (Nat × Nat))
    (px : List (Rgb UInt8)) : List (Rgb UInt8) :=
  cs.foldl (fun px c => px.set (c.2 * w + c.1) (f c)) px

theorem paintWith_length (w : Nat) (f) (cs : List (Nat × Nat)) (px : List (Rgb UInt8)) :
    (paintWith w f cs px).length = px.length := by
  induction cs generalizing px with
  | nil => rfl
  | cons c cs ih => simp only [paintWith, List.foldl_cons] at ih ⊢; rw [ih]; simp

theorem paintWith_get {w h : Nat} (f) (cs : List (Nat × Nat)) (hcs : ∀ c ∈ cs, c.1 < w)
    (px : List (Rgb UInt8)) (hl : px.length = w * h) (old : Nat × Nat → Rgb UInt8)
    (ho : ∀ x y, x < w → y < h → px[y * w + x]? = some (old (x, y)))
    (x y : Nat) (hx : x < w) (hy : y < h) :
    (paintWith w f cs px)[y * w + x]? = some (if (x, y) ∈ cs then f (x, y) else old (x, y)) := by
  induction cs generalizing px old with
  | nil => simpa [paintWith] using ho x y hx hy
  | cons c cs ih =>
    have := ih (fun c hc => hcs c (by simp [hc])) (px.set (c.2 * w + c.1) (f c)) (by simpa using hl)
      (fun d => if d = c then f c else old d) (by
        intro x y hx hy
        rw [List.getElem?_set]
        by_cases he : (x, y) = c
        · subst he
          simp [hl, index_lt hx hy]
        · rw [if_neg (fun h => he (index_inj hx (hcs c (by simp)) h.symm)), ho x y hx hy, if_neg he])
    rw [show paintWith w f (c :: cs) px = paintWith w f cs (px.set (c.2 * w + c.1) (f c)) from rfl,
      this]
    congr 1
    by_cases h1 : (x, y) ∈ cs
    · rw [if_pos h1, if_pos (by simp [h1])]
    · rw [if_neg h1]
      by_cases h2 : (x, y) = c
      · rw [if_pos h2, if_pos (by simp [h2]), h2]
      · rw [if_neg h2, if_neg (by simp [h1, h2])]

/-- The pixels that have been painted, the rest being black. -/
theorem paintWith_black {w h : Nat} (f) (cs : List (Nat × Nat)) (hcs : ∀ c ∈ cs, c.1 < w) :
    paintWith w f cs (List.replicate (w * h) black) =
      (cells w h).map fun c => if c ∈ cs then f c else black := by
  apply eq_map_cells (by rw [paintWith_length]; simp)
  intro x y hx hy
  exact paintWith_get (h := h) f cs hcs _ (by simp) (fun _ => black)
    (fun x y hx hy => by simp [index_lt hx hy]) x y hx hy

section
variable {σ : Type} {next : Rd σ (Rgb UInt8)}

theorem put_eq {img : RgbImage} {c : Nat × Nat} (h : c.1 < img.width.toNat ∧ c.2 < img.height.toNat)
    (color : Rgb UInt8) :
    img.put c.1 c.2 color =
      some { img with pixels := img.pixels.set (c.2 * img.width.toNat + c.1) color } := by
  rw [RgbImage.put, if_pos h]

theorem paint_supplies (f : Nat × Nat → Rgb UInt8) (cs : List (Nat × Nat)) (img : RgbImage)
    (hcs : ∀ c ∈ cs, c.1 < img.width.toNat ∧ c.2 < img.height.toNat) (s : σ)
    (h : Supplies next s (cs.map f)) :
    (paint next cs img s).1 = .ok { img with pixels := paintWith img.width.toNat f cs img.pixels } := by
  induction cs generalizing img s with
  | nil => rfl
  | cons c cs ih =>
    obtain ⟨s', h1, h2⟩ := h
    obtain ⟨x, y⟩ := c
    rw [paint, h1]
    simp only
    rw [show img.put x y (f (x, y)) = _ from put_eq (c := (x, y)) (hcs _ (by simp)) _]
    exact ih { img with pixels := img.pixels.set (y * img.width.toNat + x) (f (x, y)) } (fun c hc => hcs c (by simp [hc])) s' h2

/-- The colours end before the traversal does. -/
theorem paint_endsAfter (f : Nat × Nat → Rgb UInt8) (cs : List (Nat × Nat)) (img : RgbImage)
    (hcs : ∀ c ∈ cs, c.1 < img.width.toNat ∧ c.2 < img.height.toNat) (s : σ) (m : Nat)
    (h : EndsAfter next s ((cs.take m).map f)) :
    (paint next cs img s).1 =
      .ok { img with pixels := paintWith img.width.toNat f (cs.take m) img.pixels } := by
  induction cs generalizing img s m with
  | nil => simp [paint, paintWith]
  | cons c cs ih =>
    obtain ⟨x, y⟩ := c
    cases m with
    | zero =>
      simp only [List.take_zero, List.map_nil, EndsAfter] at h
      rcases hn : next s with ⟨_ | _ | _, s'⟩ <;> rw [hn] at h <;> simp at h
      rw [paint, hn]; rfl
    | succ m =>
      obtain ⟨s', h1, h2⟩ := h
      rw [paint, h1]
      simp only
      rw [show img.put x y (f (x, y)) = _ from put_eq (c := (x, y)) (hcs _ (by simp)) _]
      exact ih { img with pixels := img.pixels.set (y * img.width.toNat + x) (f (x, y)) } (fun c hc => hcs c (by simp [hc])) s' m h2

/-- The colours panic before the traversal ends. -/
theorem paint_panicsAfter (f : Nat × Nat → Rgb UInt8) (cs : List (Nat × Nat)) (img : RgbImage)
    (hcs : ∀ c ∈ cs, c.1 < img.width.toNat ∧ c.2 < img.height.toNat) (s : σ) (m : Nat)
    (hm : m < cs.length) (h : PanicsAfter next s ((cs.take m).map f)) :
    (paint next cs img s).1 = .panic := by
  induction cs generalizing img s m with
  | nil => simp at hm
  | cons c cs ih =>
    obtain ⟨x, y⟩ := c
    cases m with
    | zero =>
      simp only [List.take_zero, List.map_nil, PanicsAfter] at h
      rcases hn : next s with ⟨_ | _ | _, s'⟩ <;> rw [hn] at h <;> simp at h
      rw [paint, hn]
    | succ m =>
      obtain ⟨s', h1, h2⟩ := h
      rw [paint, h1]
      simp only
      rw [show img.put x y (f (x, y)) = _ from put_eq (c := (x, y)) (hcs _ (by simp)) _]
      exact ih { img with pixels := img.pixels.set (y * img.width.toNat + x) (f (x, y)) } (fun c hc => hcs c (by simp [hc])) s' m (by simpa using hm) h2

end

/-- The whole traversal restores the whole image. -/
theorem restoredPart_all {scan : Scan} {img : Img}
    (hs : VisitsOnce scan img.width.toNat img.height.toNat) {m : Nat}
    (hm : img.width.toNat * img.height.toNat ≤ m) : restoredPart scan img m = img.toRgb := by
  unfold restoredPart Img.toRgb
  rw [List.take_of_length_le (by rw [linearize_length hs]; exact hm), rgbPixels_eq]
  congr 1
  apply List.map_congr_left
  intro c hc
  rw [if_pos (hs.mem_iff.2 hc)]

section
variable {σ : Type} {next : Rd σ (Rgb UInt8)} {scan : Scan} {img : Img}

theorem paint_all (hs : VisitsOnce scan img.width.toNat img.height.toNat) (s : σ)
    (h : Supplies next s ((scan img.width.toNat img.height.toNat).map (colorAt img))) :
    (paint next (scan img.width.toNat img.height.toNat)
      { width := img.width, height := img.height
        pixels := List.replicate (img.width.toNat * img.height.toNat) black } s).1 =
      .ok img.toRgb := by
  rw [paint_supplies (colorAt img) _ _ (fun c hc => mem_cells'.1 (hs.mem_iff.1 hc)) s h,
    ← restoredPart_all hs (Nat.le_refl _)]
  simp only [restoredPart]
  rw [paintWith_black _ _ (fun c hc => (mem_cells'.1 (hs.mem_iff.1 hc)).1),
    List.take_of_length_le (Nat.le_of_eq (linearize_length hs))]

theorem paint_part (hs : VisitsOnce scan img.width.toNat img.height.toNat) (s : σ) (m : Nat)
    (h : EndsAfter next s (((scan img.width.toNat img.height.toNat).take m).map (colorAt img))) :
    (paint next (scan img.width.toNat img.height.toNat)
      { width := img.width, height := img.height
        pixels := List.replicate (img.width.toNat * img.height.toNat) black } s).1 =
      .ok (restoredPart scan img m) := by
  rw [paint_endsAfter (colorAt img) _ _ (fun c hc => mem_cells'.1 (hs.mem_iff.1 hc)) s m h]
  simp only [restoredPart]
  rw [paintWith_black _ _ (fun c hc =>
    (mem_cells'.1 (hs.mem_iff.1 (List.mem_of_mem_take hc))).1)]

theorem paint_panics (hs : VisitsOnce scan img.width.toNat img.height.toNat) (s : σ) (m : Nat)
    (hm : m < img.width.toNat * img.height.toNat)
    (h : PanicsAfter next s (((scan img.width.toNat img.height.toNat).take m).map (colorAt img))) :
    (paint next (scan img.width.toNat img.height.toNat)
      { width := img.width, height := img.height
        pixels := List.replicate (img.width.toNat * img.height.toNat) black } s).1 = .panic :=
  paint_panicsAfter (colorAt img) _ _ (fun c hc => mem_cells'.1 (hs.mem_iff.1 hc)) s m
    (by rw [linearize_length hs]; exact hm) h

end

end Cniic
