import Verif.Proofs.Symmetry
import Verif.Props.Quality

/-!
# C94: what the size of a file does not depend on

The size of a hufman file does not depend on where the pixels are and which colours they have, as long as different colours
stay different; the size of a file with exact runs does not depend on which colours there are; and exchanging the channels of
all pixels keeps the size of the files of hufman, delta and hilbert(rle).  Nothing of this holds for the other lossless codecs.
-/

namespace Cniic
open Spec

/-- **C94**, hufman: moving the pixels, and replacing the colours by others. -/
theorem C94_hufman {p q : Setup} (hp : p.Lawful) (hq : q.Lawful) {fuel fuel' : Nat} {img img' : Img}
    {f : Rgb UInt8 → Rgb UInt8} (hf : InjOn f img.rgbPixels) (hperm : (img.rgbPixels.map f).Perm img'.rgbPixels)
    {m m' : W Unit} {file file' : List UInt8} (hm : AnyCodec.hufman.encode p fuel img = .ok m)
    (hm' : AnyCodec.hufman.encode q fuel' img' = .ok m') (hb : bytesOf m = .ok file) (hb' : bytesOf m' = .ok file') :
    file.length = file'.length := by
  by_cases hne : img.pixels = []
  · cases hm
    rw [C28_empty_image_panics p.heapRgb p.orderRgb hp.orderRgb img hne] at hb
    cases hb
  · have hne' : img'.pixels ≠ [] := by
      intro h
      have h0 : img'.rgbPixels = [] := by rw [Img.rgbPixels, h]; rfl
      rw [h0] at hperm
      have := hperm.eq_nil
      simp only [Img.rgbPixels, List.map_eq_nil_iff] at this
      exact hne this
    obtain ⟨S, hS⟩ := distinct_exists img.rgbPixels
    obtain ⟨m1, b1, B1, e1, e2, e3, e4, -⟩ := C77_hufman hp fuel hne hS
    obtain ⟨m2, b2, B2, f1, f2, f3, f4, -⟩ := C77_hufman hq fuel' hne' (distinct_perm (distinct_map hf hS) hperm)
    rw [e1] at hm; cases hm
    rw [f1] at hm'; cases hm'
    rw [e2] at hb; cases hb
    rw [f2] at hb'; cases hb'
    rw [e4, f4, FewestBits.unique f3 (fewestBits_perm (fewestBits_map hf e3) hperm), List.length_map]

theorem rle_le {p q : Setup} {fuel fuel' : Nat} {d d' : F64} (hd : d.isZero = true) (hd' : d'.isZero = true) {img img' : Img}
    (hs : VisitsOnce p.scan img.width.toNat img.height.toNat) (hs' : VisitsOnce q.scan img'.width.toNat img'.height.toNat)
    {f : Rgb UInt8 → Rgb UInt8} (hc : colorsAlong q.scan img' = (colorsAlong p.scan img).map f) {m m' : W Unit}
    {file file' : List UInt8} (hm : (AnyCodec.hilbert (.rle d)).encode p fuel img = .ok m)
    (hm' : (AnyCodec.hilbert (.rle d')).encode q fuel' img' = .ok m') (hb : bytesOf m = .ok file)
    (hb' : bytesOf m' = .ok file') : file'.length ≤ file.length := by
  obtain ⟨runs, -, h2, -, he⟩ := hilbertEncode_exact p.out.fl hs hd
  obtain ⟨m1, b1, e1, e2, e3⟩ := C77_hilbert_rle_fewest (p := q) fuel' hd' hs'
  rw [e1] at hm'; cases hm'
  rw [e2] at hb'; cases hb'
  cases hm
  rw [he.bytesOf] at hb; cases hb
  have := e3 (runs.map fun r => (r.1, f r.2)) (by rw [expandRuns_map, h2, hc])
  rw [List.length_append, dims_length, runs_bytes_length]
  simpa using this

/-- **C94**, hilbert with exact runs: replacing the colours by others. -/
theorem C94_hilbert_rle {p q : Setup} (hscan : p.scan = q.scan) {fuel fuel' : Nat} {d d' : F64} (hd : d.isZero = true)
    (hd' : d'.isZero = true) {img img' : Img} (hs : VisitsOnce p.scan img.width.toNat img.height.toNat)
    (hw : img'.width = img.width) (hh : img'.height = img.height) {f : Rgb UInt8 → Rgb UInt8} (hf : InjOn f img.rgbPixels)
    (hpx : img'.rgbPixels = img.rgbPixels.map f) {m m' : W Unit} {file file' : List UInt8}
    (hm : (AnyCodec.hilbert (.rle d)).encode p fuel img = .ok m) (hm' : (AnyCodec.hilbert (.rle d')).encode q fuel' img' = .ok m')
    (hb : bytesOf m = .ok file) (hb' : bytesOf m' = .ok file') : file.length = file'.length := by
  have hs' : VisitsOnce q.scan img'.width.toNat img'.height.toNat := by rw [hw, hh, ← hscan]; exact hs
  have hg : ∃ g : Rgb UInt8 → Rgb UInt8, ∀ x ∈ img.rgbPixels, g (f x) = x := by
    classical
    refine ⟨fun u => if hu : ∃ x ∈ img.rgbPixels, f x = u then hu.choose else u, fun x hx => ?_⟩
    have hu : ∃ y ∈ img.rgbPixels, f y = f x := ⟨x, hx, rfl⟩
    show (if hu : ∃ y ∈ img.rgbPixels, f y = f x then hu.choose else _) = x
    rw [dif_pos hu]
    exact hf _ hu.choose_spec.1 x hx hu.choose_spec.2
  obtain ⟨g, hg⟩ := hg
  have hback : img.rgbPixels = img'.rgbPixels.map g := by
    rw [hpx, List.map_map]
    conv => lhs; rw [← List.map_id img.rgbPixels]
    exact List.map_congr_left fun x hx => (hg x hx).symm
  have h1 := rle_le hd hd' hs hs' (f := f) (by rw [← hscan]; exact colorsAlong_map hw hh hs hpx) hm hm' hb hb'
  have h2 := rle_le hd' hd hs' hs (f := g) (by rw [hscan]; exact colorsAlong_map hw.symm hh.symm hs' hback) hm' hm hb' hb
  omega

/-- **C94**, delta: replacing the colours by others such that differences are replaced by differences. -/
theorem C94_delta {p q : Setup} (hp : p.Lawful) (hq : q.Lawful) (hscan : p.scan = q.scan) {fuel fuel' : Nat} {img img' : Img}
    (hs : VisitsOnce p.scan img.width.toNat img.height.toNat) (hw : img'.width = img.width) (hh : img'.height = img.height)
    {f : Rgb UInt8 → Rgb UInt8} {g : SignedColor → SignedColor} (hg : ∀ a b, g a = g b → a = b)
    (hfg : ∀ a b, diffOf (f a) (f b) = g (diffOf a b)) (hblack : f black = black)
    (hpx : img'.rgbPixels = img.rgbPixels.map f) {m m' : W Unit} {file file' : List UInt8}
    (hm : AnyCodec.delta.encode p fuel img = .ok m) (hm' : AnyCodec.delta.encode q fuel' img' = .ok m')
    (hb : bytesOf m = .ok file) (hb' : bytesOf m' = .ok file') : file.length = file'.length := by
  have hs' : VisitsOnce q.scan img'.width.toNat img'.height.toNat := by rw [hw, hh, ← hscan]; exact hs
  by_cases hne : img.pixels = []
  · cases hm
    rw [C39_delta_empty hp hs hne] at hb; cases hb
  · have hne' : img'.pixels ≠ [] := by
      intro h
      have h0 : img'.rgbPixels = [] := by rw [Img.rgbPixels, h]; rfl
      rw [h0] at hpx
      have := hpx.symm
      simp only [Img.rgbPixels, List.map_eq_nil_iff] at this
      exact hne this
    have hd : diffs black (colorsAlong q.scan img') = (diffs black (colorsAlong p.scan img)).map g := by
      rw [← hscan, colorsAlong_map hw hh hs hpx]
      conv => lhs; rw [← hblack]
      exact diffs_map hfg _ _
    have hi : InjOn g (diffs black (colorsAlong p.scan img)) := fun x _ y _ h => hg x y h
    obtain ⟨S, hS⟩ := distinct_exists (diffs black (colorsAlong p.scan img))
    obtain ⟨m1, b1, B1, e1, e2, e3, e4, -⟩ := C77_delta hp fuel hs hne hS
    obtain ⟨m2, b2, B2, f1, f2, f3, f4, -⟩ := C77_delta hq fuel' hs' hne' (by rw [hd]; exact distinct_map hi hS)
    rw [e1] at hm; rw [f1] at hm'; cases hm; cases hm'
    rw [e2] at hb; rw [f2] at hb'; cases hb; cases hb'
    rw [hd] at f3
    rw [e4, f4, FewestBits.unique f3 (fewestBits_map hi e3), List.length_map]

/-- The first two channels exchanged. -/
def Rgb.swap {α : Type} (c : Rgb α) : Rgb α := ⟨c.g, c.r, c.b⟩

/-- The channels moved on by one. -/
def Rgb.rotate {α : Type} (c : Rgb α) : Rgb α := ⟨c.g, c.b, c.r⟩

/-- **C94**, channels: exchanging the channels of all pixels.  (All orders of the channels are made of these two.) -/
theorem C94_channels {p q : Setup} (hp : p.Lawful) (hq : q.Lawful) (hscan : p.scan = q.scan) {fuel fuel' : Nat} {c : AnyCodec}
    (hc : c = .hufman ∨ c = .delta ∨ ∃ d : F64, d.isZero = true ∧ c = .hilbert (.rle d)) {img img' : Img}
    (hs : VisitsOnce p.scan img.width.toNat img.height.toNat) (hw : img'.width = img.width) (hh : img'.height = img.height)
    (hpx : img'.rgbPixels = img.rgbPixels.map Rgb.swap ∨ img'.rgbPixels = img.rgbPixels.map Rgb.rotate) {m m' : W Unit}
    {file file' : List UInt8} (hm : c.encode p fuel img = .ok m) (hm' : c.encode q fuel' img' = .ok m')
    (hb : bytesOf m = .ok file) (hb' : bytesOf m' = .ok file') : file.length = file'.length := by
  have key : ∃ (f : Rgb UInt8 → Rgb UInt8) (g : SignedColor → SignedColor), (∀ a b, f a = f b → a = b) ∧
      (∀ a b, g a = g b → a = b) ∧ (∀ a b, diffOf (f a) (f b) = g (diffOf a b)) ∧ f black = black ∧
      img'.rgbPixels = img.rgbPixels.map f := by
    rcases hpx with h | h
    · refine ⟨Rgb.swap, fun c => ⟨c.g, c.r, c.b⟩, ?_, ?_, fun _ _ => rfl, rfl, h⟩
      · rintro ⟨_, _, _⟩ ⟨_, _, _⟩ h; simp only [Rgb.swap, Rgb.mk.injEq] at h ⊢; tauto
      · rintro ⟨_, _, _⟩ ⟨_, _, _⟩ h; simp only [SignedColor.mk.injEq] at h ⊢; tauto
    · refine ⟨Rgb.rotate, fun c => ⟨c.g, c.b, c.r⟩, ?_, ?_, fun _ _ => rfl, rfl, h⟩
      · rintro ⟨_, _, _⟩ ⟨_, _, _⟩ h; simp only [Rgb.rotate, Rgb.mk.injEq] at h ⊢; tauto
      · rintro ⟨_, _, _⟩ ⟨_, _, _⟩ h; simp only [SignedColor.mk.injEq] at h ⊢; tauto
  obtain ⟨f, g, hf, hg, hfg, hbl, hpx⟩ := key
  rcases hc with rfl | rfl | ⟨d, hd, rfl⟩
  · exact C94_hufman hp hq (fun x _ y _ => hf x y) (hpx ▸ .refl _) hm hm' hb hb'
  · exact C94_delta hp hq hscan hs hw hh hg hfg hbl hpx hm hm' hb hb'
  · exact C94_hilbert_rle hscan hd hd hs hw hh (fun x _ y _ => hf x y) hpx hm hm' hb hb'

/-! ## What does not hold -/

/-- A row of pixels. -/
def rgbRow (l : List (Rgb UInt8)) (h : l.length < 2 ^ 32) : Img where
  width := UInt32.ofNat l.length
  height := 1
  pixels := l.map fun v => ⟨v.r, v.g, v.b, 255⟩
  size := by
    rw [List.length_map, UInt32.toNat_ofNat', Nat.mod_eq_of_lt h]
    simp

/-- **C94**, order: with all lossless codecs but hufman, moving pixels may change the size of the file. -/
theorem C94_order : ∀ c ∈ [AnyCodec.delta, .hilbert (.rle (.fin 0)), .hilbert .zip, .zip .dict, .zip .back],
    ∃ (p : Setup) (img img' : Img) (l l' : Nat), p.Lawful ∧ img'.width = img.width ∧ img'.height = img.height ∧
      img.rgbPixels.Perm img'.rgbPixels ∧ outcomeOf p 0 c img = some (l, 0) ∧ outcomeOf p 0 c img' = some (l', 0) ∧ l ≠ l' := by
  intro c hc
  simp only [List.mem_cons, List.not_mem_nil, or_false] at hc
  rcases hc with rfl | rfl | rfl | rfl | rfl
  · exact ⟨ExtremeExamples.release, redRow [1, 1, 2, 2, 3, 3] (by decide), redRow [1, 2, 3, 3, 2, 1] (by decide), 24, 33,
      ExtremeExamples.release_lawful, rfl, rfl, by decide +kernel, by decide +kernel, by decide +kernel, by decide⟩
  · exact ⟨ExtremeExamples.release, redRow [1, 1, 2, 2, 3, 3] (by decide), redRow [1, 2, 3, 3, 2, 1] (by decide), 44, 68,
      ExtremeExamples.release_lawful, rfl, rfl, by decide +kernel, by decide +kernel, by decide +kernel, by decide⟩
  · exact ⟨ExtremeExamples.release, redRow [3, 2, 1, 0] (by decide), redRow [0, 1, 2, 3] (by decide), 44, 48,
      ExtremeExamples.release_lawful, rfl, rfl, by decide +kernel, by decide +kernel, by decide +kernel, by decide⟩
  · exact ⟨ExtremeExamples.release, redRow [3, 2, 1, 0] (by decide), redRow [0, 1, 2, 3] (by decide), 52, 48,
      ExtremeExamples.release_lawful, rfl, rfl, by decide +kernel, by decide +kernel, by decide +kernel, by decide⟩
  · exact ⟨ExtremeExamples.release, redRow [3, 2, 1, 0] (by decide), redRow [0, 1, 2, 3] (by decide), 51, 43,
      ExtremeExamples.release_lawful, rfl, rfl, by decide +kernel, by decide +kernel, by decide +kernel, by decide⟩

/-- **C94**, colours: with all lossless codecs but hufman and exact runs, replacing the colours may change the size of the file. -/
theorem C94_colors : ∀ c ∈ [AnyCodec.delta, .hilbert .zip, .zip .dict, .zip .back],
    ∃ (p : Setup) (img img' : Img) (f : Rgb UInt8 → Rgb UInt8) (l l' : Nat), p.Lawful ∧ img'.width = img.width ∧
      img'.height = img.height ∧ InjOn f img.rgbPixels ∧ img'.rgbPixels = img.rgbPixels.map f ∧
      outcomeOf p 0 c img = some (l, 0) ∧ outcomeOf p 0 c img' = some (l', 0) ∧ l ≠ l' := by
  intro c hc
  simp only [List.mem_cons, List.not_mem_nil, or_false] at hc
  rcases hc with rfl | rfl | rfl | rfl
  · exact ⟨ExtremeExamples.release, redRow [1, 1, 2, 2, 3, 3] (by decide), redRow [1, 1, 200, 200, 3, 3] (by decide),
      fun c => if c = ⟨2, 0, 0⟩ then ⟨200, 0, 0⟩ else c, 24, 41,
      ExtremeExamples.release_lawful, rfl, rfl, by unfold InjOn; decide +kernel, by decide +kernel,
      by decide +kernel, by decide +kernel, by decide⟩
  · exact ⟨ExtremeExamples.release, redRow [1, 2, 1, 2] (by decide), redRow [0, 3, 0, 3] (by decide),
      fun c => if c = ⟨1, 0, 0⟩ then ⟨0, 0, 0⟩ else ⟨3, 0, 0⟩, 48, 44,
      ExtremeExamples.release_lawful, rfl, rfl, by unfold InjOn; decide +kernel, by decide +kernel,
      by decide +kernel, by decide +kernel, by decide⟩
  · exact ⟨ExtremeExamples.release, redRow [1, 2, 1, 2] (by decide), redRow [0, 3, 0, 3] (by decide),
      fun c => if c = ⟨1, 0, 0⟩ then ⟨0, 0, 0⟩ else ⟨3, 0, 0⟩, 48, 40,
      ExtremeExamples.release_lawful, rfl, rfl, by unfold InjOn; decide +kernel, by decide +kernel,
      by decide +kernel, by decide +kernel, by decide⟩
  · exact ⟨ExtremeExamples.release, redRow [1, 2, 1, 2] (by decide), redRow [0, 3, 0, 3] (by decide),
      fun c => if c = ⟨1, 0, 0⟩ then ⟨0, 0, 0⟩ else ⟨3, 0, 0⟩, 38, 33,
      ExtremeExamples.release_lawful, rfl, rfl, by unfold InjOn; decide +kernel, by decide +kernel,
      by decide +kernel, by decide +kernel, by decide⟩

/-- **C94**, channels: with the other lossless codecs, exchanging red and green may change the size of the file. -/
theorem C94_channels_matter : ∀ c ∈ [AnyCodec.hilbert .zip, .zip .dict, .zip .back],
    ∃ (p : Setup) (img img' : Img) (l l' : Nat), p.Lawful ∧ img'.width = img.width ∧ img'.height = img.height ∧
      img'.rgbPixels = img.rgbPixels.map Rgb.swap ∧
      outcomeOf p 0 c img = some (l, 0) ∧ outcomeOf p 0 c img' = some (l', 0) ∧ l ≠ l' := by
  intro c hc
  simp only [List.mem_cons, List.not_mem_nil, or_false] at hc
  rcases hc with rfl | rfl | rfl
  · exact ⟨ExtremeExamples.release, rgbRow [⟨0, 2, 1⟩, ⟨2, 1, 5⟩, ⟨0, 1, 1⟩, ⟨0, 2, 1⟩] (by decide),
      rgbRow [⟨2, 0, 1⟩, ⟨1, 2, 5⟩, ⟨1, 0, 1⟩, ⟨2, 0, 1⟩] (by decide), 52, 56,
      ExtremeExamples.release_lawful, rfl, rfl, by decide +kernel, by decide +kernel, by decide +kernel, by decide⟩
  · exact ⟨ExtremeExamples.release, rgbRow [⟨0, 1, 0⟩, ⟨0, 1, 0⟩] (by decide),
      rgbRow [⟨1, 0, 0⟩, ⟨1, 0, 0⟩] (by decide), 32, 36,
      ExtremeExamples.release_lawful, rfl, rfl, by decide +kernel, by decide +kernel, by decide +kernel, by decide⟩
  · exact ⟨ExtremeExamples.release, rgbRow [⟨0, 2, 1⟩, ⟨2, 1, 5⟩, ⟨0, 1, 1⟩, ⟨0, 2, 1⟩] (by decide),
      rgbRow [⟨2, 0, 1⟩, ⟨1, 2, 5⟩, ⟨1, 0, 1⟩, ⟨2, 0, 1⟩] (by decide), 46, 47,
      ExtremeExamples.release_lawful, rfl, rfl, by decide +kernel, by decide +kernel, by decide +kernel, by decide⟩

/-! ## Concrete cases -/

namespace SymmetryExamples
open ExtremeExamples (release release_lawful)

theorem visits (w h : Nat) : VisitsOnce release.scan w h := .refl _

/-- C94, hufman: four pixels in another order and other colours. -/
example : ∃ m m' file file', AnyCodec.hufman.encode release 0 (redRow [1, 1, 2, 7] (by decide)) = .ok m ∧
    AnyCodec.hufman.encode release 0 (redRow [200, 7, 7, 9] (by decide)) = .ok m' ∧ bytesOf m = .ok file ∧
    bytesOf m' = .ok file' ∧ file.length = file'.length := by
  obtain ⟨m, file, -, h1, h2, -, -, -⟩ := outcomeOf_some (p := release) (fuel := 0) (c := .hufman)
    (img := redRow [1, 1, 2, 7] (by decide)) (l := 47) (e := 0) (by decide +kernel)
  obtain ⟨m', file', -, h3, h4, -, -, -⟩ := outcomeOf_some (p := release) (fuel := 0) (c := .hufman)
    (img := redRow [200, 7, 7, 9] (by decide)) (l := 47) (e := 0) (by decide +kernel)
  exact ⟨m, m', file, file', h1, h3, h2, h4, C94_hufman release_lawful release_lawful
    (f := fun c => if c.r = 1 then ⟨7, 0, 0⟩ else if c.r = 2 then ⟨200, 0, 0⟩ else ⟨9, 0, 0⟩)
    (by unfold InjOn; decide +kernel) (by decide +kernel) h1 h3 h2 h4⟩

/-- C94, runs: other colours. -/
example : ∃ m m' file file', (AnyCodec.hilbert (.rle (.fin 0))).encode release 0 (redRow [1, 1, 2, 1] (by decide)) = .ok m ∧
    (AnyCodec.hilbert (.rle (.fin 0))).encode release 0 (redRow [9, 9, 1, 9] (by decide)) = .ok m' ∧ bytesOf m = .ok file ∧
    bytesOf m' = .ok file' ∧ file.length = file'.length := by
  obtain ⟨m, file, -, h1, h2, -, -, -⟩ := outcomeOf_some (p := release) (fuel := 0) (c := .hilbert (.rle (.fin 0)))
    (img := redRow [1, 1, 2, 1] (by decide)) (l := 44) (e := 0) (by decide +kernel)
  obtain ⟨m', file', -, h3, h4, -, -, -⟩ := outcomeOf_some (p := release) (fuel := 0) (c := .hilbert (.rle (.fin 0)))
    (img := redRow [9, 9, 1, 9] (by decide)) (l := 44) (e := 0) (by decide +kernel)
  exact ⟨m, m', file, file', h1, h3, h2, h4, C94_hilbert_rle (p := release) (img := redRow [1, 1, 2, 1] (by decide))
    (img' := redRow [9, 9, 1, 9] (by decide)) rfl rfl rfl (visits _ _) rfl rfl
    (f := fun c => if c.r = 1 then ⟨9, 0, 0⟩ else ⟨1, 0, 0⟩) (by unfold InjOn; decide +kernel) (by decide +kernel) h1 h3 h2 h4⟩

/-- C94, delta: red made blue. -/
example : ∃ m m' file file', AnyCodec.delta.encode release 0 (rgbRow [⟨1, 2, 3⟩, ⟨4, 4, 9⟩] (by decide)) = .ok m ∧
    AnyCodec.delta.encode release 0 (rgbRow [⟨3, 2, 1⟩, ⟨9, 4, 4⟩] (by decide)) = .ok m' ∧ bytesOf m = .ok file ∧
    bytesOf m' = .ok file' ∧ file.length = file'.length := by
  obtain ⟨m, file, -, h1, h2, -, -, -⟩ := outcomeOf_some (p := release) (fuel := 0) (c := .delta)
    (img := rgbRow [⟨1, 2, 3⟩, ⟨4, 4, 9⟩] (by decide)) (l := 24) (e := 0) (by decide +kernel)
  obtain ⟨m', file', -, h3, h4, -, -, -⟩ := outcomeOf_some (p := release) (fuel := 0) (c := .delta)
    (img := rgbRow [⟨3, 2, 1⟩, ⟨9, 4, 4⟩] (by decide)) (l := 24) (e := 0) (by decide +kernel)
  exact ⟨m, m', file, file', h1, h3, h2, h4, C94_delta (img := rgbRow [⟨1, 2, 3⟩, ⟨4, 4, 9⟩] (by decide))
    (img' := rgbRow [⟨3, 2, 1⟩, ⟨9, 4, 4⟩] (by decide)) release_lawful release_lawful rfl (visits _ _) rfl rfl
    (f := fun c => ⟨c.b, c.g, c.r⟩) (g := fun c => ⟨c.b, c.g, c.r⟩)
    (fun ⟨_, _, _⟩ ⟨_, _, _⟩ h => by simp only [SignedColor.mk.injEq] at h ⊢; exact ⟨h.2.2, h.2.1, h.1⟩)
    (fun _ _ => rfl) rfl (by decide +kernel) h1 h3 h2 h4⟩

/-- C94, channels: red and green exchanged, with hufman. -/
example : ∃ m m' file file', AnyCodec.hufman.encode release 0 (rgbRow [⟨1, 2, 3⟩, ⟨4, 4, 9⟩] (by decide)) = .ok m ∧
    AnyCodec.hufman.encode release 0 (rgbRow [⟨2, 1, 3⟩, ⟨4, 4, 9⟩] (by decide)) = .ok m' ∧ bytesOf m = .ok file ∧
    bytesOf m' = .ok file' ∧ file.length = file'.length := by
  obtain ⟨m, file, -, h1, h2, -, -, -⟩ := outcomeOf_some (p := release) (fuel := 0) (c := .hufman)
    (img := rgbRow [⟨1, 2, 3⟩, ⟨4, 4, 9⟩] (by decide)) (l := 34) (e := 0) (by decide +kernel)
  obtain ⟨m', file', -, h3, h4, -, -, -⟩ := outcomeOf_some (p := release) (fuel := 0) (c := .hufman)
    (img := rgbRow [⟨2, 1, 3⟩, ⟨4, 4, 9⟩] (by decide)) (l := 34) (e := 0) (by decide +kernel)
  exact ⟨m, m', file, file', h1, h3, h2, h4, C94_channels (img := rgbRow [⟨1, 2, 3⟩, ⟨4, 4, 9⟩] (by decide))
    (img' := rgbRow [⟨2, 1, 3⟩, ⟨4, 4, 9⟩] (by decide)) release_lawful release_lawful rfl (.inl rfl) (visits _ _) rfl rfl
    (.inl (by decide +kernel)) h1 h3 h2 h4⟩

end SymmetryExamples
end Cniic
