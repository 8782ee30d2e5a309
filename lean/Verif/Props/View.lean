import Verif.Model.View
import Verif.Proofs.Image
import Verif.Props.AnyCodec
import Verif.Props.Bench

/-!
# C129: the iterator over the pixels, and pictures of width 0
-/

namespace Cniic
open Spec Bench

variable {α : Type}

/-- What the iterator yields from a state onwards. -/
theorem pixelsFrom_ok {w h : Nat} {get : Nat → Nat → Option α} {px : List α} (hl : px.length = w * h)
    (hg : ∀ x y, x < w → y < h → get x y = px[y * w + x]?) (hw : 0 < w) :
    ∀ (k fuel x y i : Nat), x ≤ w → y < h → i = y * w + x → i + k = w * h → k < fuel →
      pixelsFrom w h get fuel (x, y) =
        some (((List.range' i k).map fun j => (j % w, j / w)).zip (px.drop i) |>.map fun p => (p.1.1, p.1.2, p.2)) := by
  intro k
  induction k with
  | zero =>
    intro fuel x y i hx hy hi hk hf
    obtain ⟨fuel, rfl⟩ : ∃ f, fuel = f + 1 := ⟨fuel - 1, by omega⟩
    have hyw : (y + 1) * w ≤ h * w := Nat.mul_le_mul_right _ hy
    rw [Nat.add_mul, Nat.mul_comm h w] at hyw
    have hxw : w ≤ x := by omega
    have hyh : h ≤ y + 1 := by
      by_contra hc
      have : (y + 2) * w ≤ h * w := Nat.mul_le_mul_right _ (by omega)
      rw [Nat.add_mul, Nat.mul_comm h w] at this
      omega
    simp [pixelsFrom, pixelsNext, hxw, hyh]
  | succ k ih =>
    intro fuel x y i hx hy hi hk hf
    obtain ⟨fuel, rfl⟩ : ∃ f, fuel = f + 1 := ⟨fuel - 1, by omega⟩
    have hil : i < px.length := by omega
    obtain ⟨x', y', hn, hx', hy', hi'⟩ : ∃ x' y', (if w ≤ x then (0, y + 1) else (x, y)) = (x', y') ∧
        x' < w ∧ y' < h ∧ i = y' * w + x' := by
      by_cases hc : w ≤ x
      · refine ⟨0, y + 1, by simp [hc], hw, ?_, ?_⟩
        · by_contra hh
          have hyy : y + 1 = h := by omega
          have : (y + 1) * w = w * h := by rw [hyy, Nat.mul_comm]
          rw [Nat.add_mul] at this
          omega
        · rw [Nat.add_mul]; omega
      · exact ⟨x, y, by simp [hc], by omega, hy, hi⟩
    have hmod : i % w = x' := by
      rw [hi', Nat.mul_comm, Nat.mul_add_mod, Nat.mod_eq_of_lt hx']
    have hdiv : i / w = y' := by
      rw [hi', Nat.mul_comm, Nat.mul_add_div hw, Nat.div_eq_of_lt hx', Nat.add_zero]
    have hget : get x' y' = some px[i] := by
      rw [hg x' y' hx' hy', ← hi', List.getElem?_eq_getElem hil]
    have hnext : pixelsNext w h get (x, y) = (.ok (x', y', px[i]), (x' + 1, y')) := by
      unfold pixelsNext
      simp only [hn, hget]
      rw [if_neg (by omega)]
    rw [pixelsFrom, hnext]
    simp only
    rw [ih fuel (x' + 1) y' (i + 1) hx' hy' (by omega) (by omega) (by omega)]
    rw [List.range'_succ, List.drop_eq_getElem_cons hil]
    simp only [List.map_cons, List.zip_cons_cons, hmod, hdiv, Option.map_some]

/-- Pictures for which the iterator yields the pixels row by row. -/
def HasRows (w h : Nat) : Prop := w ≠ 0 ∨ h ≤ 1

/-- The pixels of a list with their coordinates, row by row. -/
def placed (w h : Nat) (px : List α) : List (Nat × Nat × α) :=
  ((cells w h).zip px).map fun p => (p.1.1, p.1.2, p.2)

theorem pixelsFrom_all {w h : Nat} {get : Nat → Nat → Option α} {px : List α} (hl : px.length = w * h)
    (hg : ∀ x y, x < w → y < h → get x y = px[y * w + x]?) (hr : HasRows w h) :
    pixelsFrom w h get (w * h + 1) (0, 0) = some (placed w h px) := by
  by_cases hw : w = 0
  · subst hw
    have hh : h ≤ 1 := by rcases hr with hr | hr <;> [exact absurd rfl hr; exact hr]
    simp [pixelsFrom, pixelsNext, placed, cells, hh]
  · by_cases hh : h = 0
    · subst hh
      simp [pixelsFrom, pixelsNext, placed, cells, hw]
    · rw [pixelsFrom_ok hl hg (by omega) (w * h) (w * h + 1) 0 0 0 (by omega) (by omega) (by omega) (by omega)
        (by omega)]
      simp [placed, cells, List.range_eq_range']

theorem pixelsFrom_none {h fuel : Nat} {get : Nat → Nat → Option α} (hg : get 0 1 = none) (hh : 2 ≤ h) :
    pixelsFrom 0 h get fuel (0, 0) = none := by
  cases fuel with
  | zero => rfl
  | succ fuel =>
    have : ¬ h ≤ 1 := by omega
    simp [pixelsFrom, pixelsNext, hg, this]

theorem placed_pixels {w h : Nat} {px : List α} (hl : px.length = w * h) :
    (placed w h px).map (·.2.2) = px := by
  unfold placed
  rw [List.map_map]
  show List.map (fun p : (Nat × Nat) × α => p.2) _ = px
  exact List.map_snd_zip (by rw [cells_length]; omega)

/-- **C129.**  The iterator over the pixels yields every pixel of a picture once, row by row, each with its
coordinates, if the picture has a column or at most one row. -/
theorem C129_pixels (img : Img) (hr : HasRows img.width.toNat img.height.toNat) :
    img.seen = some (placed img.width.toNat img.height.toNat img.pixels) :=
  pixelsFrom_all img.size (fun x y hx hy => by simp [Img.getPixel, hx, hy]) hr

/-- **C129.**  It panics at a picture with rows but no columns, two rows at least, and whatever the fuel. -/
theorem C129_panic (img : Img) (hr : ¬ HasRows img.width.toNat img.height.toNat) (fuel : Nat) :
    pixelsFrom img.width.toNat img.height.toNat img.getPixel fuel (0, 0) = none := by
  unfold HasRows at hr
  have hw : img.width.toNat = 0 := by omega
  rw [hw]
  exact pixelsFrom_none (by simp [Img.getPixel, hw]) (by omega)

/-- **C129.**  The points the Voronoi codec clusters are what the iterator yields. -/
theorem C129_points (img : Img) (hr : HasRows img.width.toNat img.height.toNat) :
    img.seen.map (fun l => l.map fun p => (⟨UInt32.ofNat p.1, UInt32.ofNat p.2.1, p.2.2.toRgb⟩ : ColorPos)) =
      some (dataPoints img) := by
  rw [C129_pixels img hr]
  simp only [Option.map_some, Option.some.injEq]
  apply List.ext_getElem
  · simp [placed, dataPoints, Img.rgbPixels, cells_length, img.size]
  · intro i h1 h2
    simp [placed, dataPoints, Img.rgbPixels, cells]

theorem collected_some (img : Img) (hr : HasRows img.width.toNat img.height.toNat) :
    img.collected = some img := by
  have hp := placed_pixels img.size
  unfold Img.collected
  rw [C129_pixels img hr]
  simp only [Option.bind_eq_bind, Option.bind_some]
  rw [dif_pos (by rw [hp]; exact img.size)]
  obtain ⟨w, h, px, hs⟩ := img
  simp only [Option.some.injEq, Img.mk.injEq, true_and]
  exact hp

theorem collected_none (img : Img) (hr : ¬ HasRows img.width.toNat img.height.toNat) :
    img.collected = none := by
  unfold Img.collected Img.seen
  rw [C129_panic img hr]
  rfl

/-- **C129.**  So the model with a list of pixels and the model with the iterator write the same. -/
theorem C129_same (p : Setup) (fuel : Nat) (c : AnyCodec) (img : Img)
    (hr : HasRows img.width.toNat img.height.toNat) : c.encodeSeen p fuel img = c.encode p fuel img := by
  unfold AnyCodec.encodeSeen
  rw [collected_some img hr]
  cases c <;> rfl

theorem hilbert_empty {scan : Scan} (fl : FloatOps) (m : CompressionMethod) {img : Img}
    (hs : VisitsOnce scan img.width.toNat img.height.toNat) (ha : Addressable img) (he : img.pixels = []) :
    ∃ bytes, Emits Emits.errOnly (hilbertEncode scan fl m img) bytes () ∧
      hilbertDecode scan m bytes = .ok img.toRgb := by
  cases m with
  | zip => exact C31_hilbert_zip_lossless scan fl img hs ha
  | rle d =>
    obtain ⟨bytes, h1, h2⟩ := C30_hilbert_rle_lossless scan fl (.fin 0) rfl img hs ha
    refine ⟨bytes, ?_, h2⟩
    have hscan : scan img.width.toNat img.height.toNat = [] := by
      apply List.length_eq_zero_iff.1
      rw [hs.length_eq, cells_length, ← img.size, he]
      rfl
    have hlin : linearize scan img = some [] := by
      unfold linearize
      rw [hscan]
      rfl
    unfold hilbertEncode at h1 ⊢
    rw [hlin] at h1 ⊢
    simp only [orPanic, pure_bind] at h1 ⊢
    by_cases hz : d.isZero = true
    · rw [if_pos hz]; exact h1
    · rw [if_neg hz]; exact h1

/-- **C129.**  For every codec, what becomes of a picture with two rows or more and no columns.  `Hilbert` writes a
file, from which the picture comes back.  All others panic. -/
theorem C129_zero {p : Setup} (hp : p.Lawful) (fuel : Nat) (c : AnyCodec) (img : Img)
    (hs : VisitsOnce p.scan img.width.toNat img.height.toNat)
    (hr : ¬ HasRows img.width.toNat img.height.toNat) :
    match c with
    | .hilbert m => ∃ k bytes, c.encodeSeen p fuel img = .ok k ∧ bytesOf k = .ok bytes ∧
        (AnyCodec.hilbert m).decode p bytes = .ok img.toRgb
    | c => c.encodeSeen p fuel img = .panic ∨ ∃ k, c.encodeSeen p fuel img = .ok k ∧ bytesOf k = .panic := by
  have hpx : img.pixels = [] := by
    apply List.length_eq_zero_iff.1
    rw [img.size]
    unfold HasRows at hr
    have hw : img.width.toNat = 0 := by omega
    rw [hw, Nat.zero_mul]
  have ha : Addressable img := by
    unfold Addressable
    rw [← img.size, hpx]
    decide
  have hc := collected_none img hr
  cases c with
  | hilbert m =>
    obtain ⟨bytes, he, hd⟩ := hilbert_empty p.out.fl m hs ha hpx
    exact ⟨_, bytes, by unfold AnyCodec.encodeSeen; rfl, he.bytesOf, hd⟩
  | delta =>
    exact .inr ⟨_, by unfold AnyCodec.encodeSeen; rfl, C39_delta_empty hp hs hpx⟩
  | hufman =>
    refine .inr ⟨_, by unfold AnyCodec.encodeSeen; rw [hc], ?_⟩
    obtain ⟨n, hn⟩ := (emits_dims img).run_mem []
    unfold bytesOf
    rw [Proc.bind_ok hn]
    rfl
  | zip z => exact .inr ⟨_, by unfold AnyCodec.encodeSeen; rw [hc], rfl⟩
  | clusterColors n => exact .inl (by unfold AnyCodec.encodeSeen; rw [hc])
  | voronoi n => exact .inl (by unfold AnyCodec.encodeSeen; rw [hc])

/-- **C129.**  The Hufman codec has written the size, and nothing else, when it panics there. -/
theorem C129_hufman {p : Setup} (fuel : Nat) (img : Img) (hr : ¬ HasRows img.width.toNat img.height.toNat) :
    ∃ k s, AnyCodec.encodeSeen p fuel .hufman img = .ok k ∧ k (Sink.mem []) = (.panic, s) ∧
      s.out = le 4 0 ++ le 4 img.height.toNat := by
  obtain ⟨n, hn⟩ := (emits_dims img).run_mem []
  refine ⟨(do ser (img.width, img.height); Proc.panic), _,
    by unfold AnyCodec.encodeSeen; rw [collected_none img hr], (Proc.bind_ok hn).trans rfl, ?_⟩
  have hw : img.width = 0 := by
    unfold HasRows at hr
    exact UInt32.toNat_inj.1 (by show _ = 0; omega)
  rw [hw]
  rfl

/-- **C129.**  The error of a picture against a decoded one of the same size is as in the model with lists; and the
benchmark panics at a picture with two rows or more and no columns, where that model has `NaN`. -/
theorem C129_error (fl : FloatOps) (chk : Bool) (x : Img) (y : RgbImage)
    (hd : y.width = x.width ∧ y.height = x.height) (hl : y.pixels.length = x.width.toNat * x.height.toNat) :
    computeErrorSeen fl chk x y =
      if x.width = 0 ∧ 2 ≤ x.height.toNat then none else computeError fl chk x y := by
  have hwz : x.width = 0 ↔ x.width.toNat = 0 := by
    constructor
    · intro h; rw [h]; rfl
    · intro h; exact UInt32.toNat_inj.1 h
  unfold computeErrorSeen
  split
  · next h =>
    have hr : ¬ HasRows x.width.toNat x.height.toNat := by
      unfold HasRows
      have := hwz.1 h.1
      omega
    unfold Img.seen
    rw [C129_panic x hr]
    rfl
  · next h =>
    have hr : HasRows x.width.toNat x.height.toNat := by
      unfold HasRows
      rw [hwz] at h
      omega
    rw [C129_pixels x hr]
    have hys : y.seen = some (placed x.width.toNat x.height.toNat y.pixels) := by
      unfold RgbImage.seen
      rw [hd.1, hd.2]
      exact pixelsFrom_all hl (fun a b ha hb => by simp [RgbImage.getPixel, hd.1, hd.2, ha, hb]) hr
    have key : ∀ ys, (if (placed x.width.toNat x.height.toNat x.pixels).isEmpty then some [] else y.seen) = some ys →
        (((placed x.width.toNat x.height.toNat x.pixels).zip ys).map fun (px, py) =>
          fl.powi2 (rgbDist fl px.2.2.toRgb py.2.2)) =
        (x.rgbPixels.zip y.pixels).map fun (px, py) => fl.powi2 (rgbDist fl px py) := by
      intro ys hy
      rw [hys] at hy
      split at hy
      · next he =>
        have h0 := List.isEmpty_iff.1 he
        have hp := placed_pixels x.size
        rw [h0] at hp ⊢
        simp [Img.rgbPixels, ← hp]
      · obtain rfl := Option.some.inj hy
        apply List.ext_getElem
        · simp [placed, Img.rgbPixels, cells_length, x.size, hl]
        · intro i h1 h2
          simp [placed, Img.rgbPixels]
    unfold computeError
    by_cases he : (placed x.width.toNat x.height.toNat x.pixels).isEmpty = true
    · have hk := key [] (by rw [if_pos he])
      simp only [Option.bind_eq_bind, Option.bind_some, if_pos he]
      rw [hk]
    · have hk := key _ (by rw [if_neg he, hys])
      simp only [Option.bind_eq_bind, Option.bind_some, if_neg he, hys]
      rw [hk]

theorem drawRows_eq {β : Type} {w : Nat} (f : Nat → Nat → Option β) (l : List α) :
    ∀ x y, (w = 0 → l = []) → x ≤ w →
      drawRows w f l x y = optMap (fun j => f (j % w) (j / w)) (List.range' (y * w + x) l.length) := by
  induction l with
  | nil => intro x y _ _; rfl
  | cons a l ih =>
    intro x y hw hx
    have hw0 : 0 < w := by
      rcases Nat.eq_zero_or_pos w with h | h
      · cases hw h
      · exact h
    obtain ⟨x', y', hn, hx', hi⟩ : ∃ x' y', (if w ≤ x then (0, y + 1) else (x, y)) = (x', y') ∧
        x' < w ∧ y * w + x = y' * w + x' := by
      by_cases hc : w ≤ x
      · exact ⟨0, y + 1, by simp [hc], hw0, by rw [Nat.add_mul]; omega⟩
      · exact ⟨x, y, by simp [hc], by omega, rfl⟩
    have hmod : (y * w + x) % w = x' := by
      rw [hi, Nat.mul_comm, Nat.mul_add_mod, Nat.mod_eq_of_lt hx']
    have hdiv : (y * w + x) / w = y' := by
      rw [hi, Nat.mul_comm, Nat.mul_add_div hw0, Nat.div_eq_of_lt hx', Nat.add_zero]
    rw [List.length_cons, List.range'_succ]
    simp only [drawRows, optMap, hn, hmod, hdiv]
    rw [ih (x' + 1) y' (fun h => by omega) hx', hi]
    rfl

/-- **C129.**  Decoding voronoi files draws every pixel with its own coordinates, for pictures of any size; no iterator
panics here. -/
theorem C129_drawn (chk : Bool) (bytes : List UInt8) : voronoiDecodeRows chk bytes = voronoiDecode chk bytes := by
  have key : ∀ (d : UInt32 × UInt32) (img : RgbImage) (cs : List ColorPos), RgbImage.new d.1 d.2 = some img →
      drawRows d.1.toNat (fun x y => pixelColor chk cs (UInt32.ofNat x) (UInt32.ofNat y)) img.pixels 0 0 =
        optMap (fun i => pixelColor chk cs (UInt32.ofNat (i % d.1.toNat)) (UInt32.ofNat (i / d.1.toNat)))
          (List.range (d.1.toNat * d.2.toNat)) := by
    intro d img cs h
    unfold RgbImage.new at h
    split at h
    · cases h
      rw [drawRows_eq _ _ 0 0 (fun h0 => by rw [h0]; simp) (Nat.zero_le _), List.length_replicate,
        List.range_eq_range']
      simp
    · cases h
  unfold voronoiDecodeRows voronoiDecode
  congr 2
  funext l
  rcases h1 : (de listNext l : Ret Unit (UInt32 × UInt32) × List UInt8) with ⟨d | _ | _, l1⟩
  · rw [Proc.bind_ok h1, Proc.bind_ok h1]
    rcases h2 : RgbImage.new d.1 d.2 with _ | img
    · rfl
    · simp only [orPanic, pure_bind]
      simp only [key d img _ h2]
  · rw [Proc.bind_err h1, Proc.bind_err h1]
  · rw [Proc.bind_panic h1, Proc.bind_panic h1]

theorem optMap_comp {β γ : Type} (f : β → Option γ) (g : α → β) (l : List α) :
    optMap f (l.map g) = optMap (fun a => f (g a)) l := by
  induction l with
  | nil => rfl
  | cons a l ih => simp only [List.map_cons, optMap, ih]

/-- **C129.**  The picture with fewer colours is the given one with each colour replaced, for pictures of any size. -/
theorem C129_reduced (map : List (Rgb UInt8 × Rgb UInt8)) (img : Img) :
    reducedImgRows map img = reducedImg map img := by
  have key : ∀ buf, RgbImage.new img.width img.height = some buf →
      drawRows img.width.toNat (fun x y => (img.getPixel x y).bind fun c => lastLookup map c.toRgb) buf.pixels 0 0 =
        optMap (lastLookup map) img.rgbPixels := by
    intro buf h
    unfold RgbImage.new at h
    split at h
    · cases h
      have e1 : optMap (lastLookup map) img.rgbPixels =
          optMap (fun o : Option Rgba => o.bind fun c => lastLookup map c.toRgb) (img.pixels.map some) := by
        rw [Img.rgbPixels, optMap_comp, optMap_comp]
        rfl
      rw [drawRows_eq _ _ 0 0 (fun h0 => by rw [h0]; simp) (Nat.zero_le _), List.length_replicate, e1,
        ← cells_getPixel, optMap_comp, cells, optMap_comp, List.range_eq_range']
      simp
    · cases h
  unfold reducedImgRows reducedImg
  rcases h : RgbImage.new img.width img.height with _ | buf
  · rfl
  · simp only [Option.bind_eq_bind, Option.bind_some]
    rw [key buf h]

/-! ## Examples -/

namespace ViewExamples
open AnyCodecExamples

/-- No columns, `h` rows. -/
def rows (h : UInt32) : Img := { width := 0, height := h, pixels := [], size := by simp }

/-- Columns without rows. -/
def columns : Img := { width := 5, height := 0, pixels := [], size := rfl }

/-- A picture of 3 × 2 pixels. -/
def small : Img :=
  { width := 3, height := 2, pixels := (List.range 6).map fun i => ⟨UInt8.ofNat i, 0, 0, 255⟩, size := by decide }

/-- The iterator over it; what `C129_pixels` says it yields. -/
example : small.seen = some [(0, 0, ⟨0, 0, 0, 255⟩), (1, 0, ⟨1, 0, 0, 255⟩), (2, 0, ⟨2, 0, 0, 255⟩),
    (0, 1, ⟨3, 0, 0, 255⟩), (1, 1, ⟨4, 0, 0, 255⟩), (2, 1, ⟨5, 0, 0, 255⟩)] := by decide +kernel

example : HasRows small.width.toNat small.height.toNat := by unfold HasRows; decide
example : HasRows columns.width.toNat columns.height.toNat := by unfold HasRows; decide
example : HasRows (rows 1).width.toNat (rows 1).height.toNat := by unfold HasRows; decide
example : ¬ HasRows (rows 2).width.toNat (rows 2).height.toNat := by unfold HasRows; decide

example : small.seen = some (placed 3 2 small.pixels) := C129_pixels small (by unfold HasRows; decide)
example : columns.seen = some [] ∧ (rows 0).seen = some [] ∧ (rows 1).seen = some [] ∧ (rows 2).seen = none := by
  decide +kernel

example (c : AnyCodec) (fuel : Nat) : c.encodeSeen setup fuel small = c.encode setup fuel small :=
  C129_same setup fuel c small (by unfold HasRows; decide)

/-- With two rows and no columns: the approximate run-length code writes a file, the zip codecs panic ... -/
example : ∃ k bytes, AnyCodec.encodeSeen setup 0 (.hilbert (.rle (.fin 3))) (rows 2) = .ok k ∧
    bytesOf k = .ok bytes ∧ AnyCodec.decode setup (.hilbert (.rle (.fin 3))) bytes = .ok (rows 2).toRgb :=
  C129_zero setup_lawful 0 (.hilbert (.rle (.fin 3))) (rows 2) (.refl _) (by unfold HasRows; decide)
example : AnyCodec.encodeSeen setup 0 (.zip .back) (rows 2) = .panic ∨
    ∃ k, AnyCodec.encodeSeen setup 0 (.zip .back) (rows 2) = .ok k ∧ bytesOf k = .panic :=
  C129_zero setup_lawful 0 (.zip .back) (rows 2) (.refl _) (by unfold HasRows; decide)

example : ∃ k s, AnyCodec.encodeSeen setup 0 .hufman (rows 2) = .ok k ∧ k (Sink.mem []) = (.panic, s) ∧
    s.out = [0, 0, 0, 0, 2, 0, 0, 0] := C129_hufman 0 (rows 2) (by unfold HasRows; decide)

/-- ... and with lists of pixels instead of the iterator they would not. -/
example : (match AnyCodec.encode setup 0 (.zip .back) (rows 2) with
    | .ok k => (match bytesOf k with | .ok _ => true | _ => false)
    | _ => false) = true := by decide +kernel

/-- The error against itself. -/
example : computeErrorSeen Ieee.ops true small small.toRgb = computeError Ieee.ops true small small.toRgb :=
  (C129_error Ieee.ops true small small.toRgb ⟨rfl, rfl⟩ (by decide)).trans (if_neg (by decide))
example : computeErrorSeen Ieee.ops true (rows 2) (rows 2).toRgb = none ∧
    computeError Ieee.ops true (rows 2) (rows 2).toRgb = some .nan :=
  ⟨(C129_error Ieee.ops true (rows 2) (rows 2).toRgb ⟨rfl, rfl⟩ (by decide)).trans (if_pos (by decide)),
    C51_empty rfl⟩

/-- Drawing 3 × 2 pixels: the coordinates; and a voronoi file of that size with two centroids. -/
example : drawRows 3 (fun x y => some (x, y)) (List.replicate 6 ()) 0 0 =
    some [(0, 0), (1, 0), (2, 0), (0, 1), (1, 1), (2, 1)] := by decide
example : voronoiDecodeRows false (voronoiBytes 3 2 [⟨0, 0, ⟨1, 0, 0⟩⟩, ⟨2, 1, ⟨2, 0, 0⟩⟩]) =
    .ok { width := 3, height := 2
          pixels := [⟨1, 0, 0⟩, ⟨1, 0, 0⟩, ⟨2, 0, 0⟩, ⟨1, 0, 0⟩, ⟨2, 0, 0⟩, ⟨2, 0, 0⟩] } := by decide +kernel
example : (reducedImgRows [(⟨0, 0, 0⟩, ⟨9, 9, 9⟩), (⟨1, 0, 0⟩, ⟨9, 9, 9⟩), (⟨2, 0, 0⟩, ⟨9, 9, 9⟩), (⟨3, 0, 0⟩, ⟨8, 8, 8⟩),
    (⟨4, 0, 0⟩, ⟨8, 8, 8⟩), (⟨5, 0, 0⟩, ⟨7, 7, 7⟩)] small).map (·.pixels) =
    some [⟨9, 9, 9⟩, ⟨9, 9, 9⟩, ⟨9, 9, 9⟩, ⟨8, 8, 8⟩, ⟨8, 8, 8⟩, ⟨7, 7, 7⟩] := by decide +kernel

end ViewExamples

end Cniic
