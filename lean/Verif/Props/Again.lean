import Verif.Spec.Again
import Verif.Proofs.Again
import Verif.Props.Alpha
import Verif.Props.Approx

/-!
# Encoding decoded pictures again (C78)
-/

namespace Cniic
open Spec SerSpec

/-- The picture fits in the address space. -/
def RgbImage.Fits (a : RgbImage) : Prop := 3 * (a.width.toNat * a.height.toNat) < 2 ^ 63

theorem toImg_toRgb (a : RgbImage) (h : a.pixels.length = a.width.toNat * a.height.toNat) : (a.toImg h).toRgb = a := by
  obtain ⟨w, hh, px⟩ := a
  simp only [Img.toRgb, RgbImage.toImg, Img.rgbPixels, List.map_map]
  congr 1
  exact (List.map_congr_left (fun _ _ => rfl)).trans (List.map_id _)

/-- **C78**, lossless codecs: the decoded picture is the same, -/
theorem C78_lossless {p : Setup} (hp : p.Lawful) {fuel : Nat} {c : AnyCodec} (hc : c.isLossless = true) {a b : RgbImage}
    {file : List UInt8} (hs : VisitsOnce p.scan a.width.toNat a.height.toNat) (ha : a.Fits)
    (h : Generation p fuel c a file b) : b = a := by
  obtain ⟨hl, m, h1, h2, h3⟩ := h
  have := C39_lossless_flag hp hc (img := a.toImg hl) hs ha h1 h2
  rw [h3, toImg_toRgb] at this
  exact Ret.ok.inj this

/-- and so is the file that is written when it is encoded again. -/
theorem C78_lossless_file {p : Setup} (hp : p.Lawful) {fuel : Nat} {c : AnyCodec} (hc : c.isLossless = true)
    {a b b' : RgbImage} {file file' : List UInt8} (hs : VisitsOnce p.scan a.width.toNat a.height.toNat) (ha : a.Fits)
    (h : Generation p fuel c a file b) (h' : Generation p fuel c b file' b') : file' = file := by
  have := C78_lossless hp hc hs ha h
  subst this
  obtain ⟨_, m, h1, h2, -⟩ := h
  obtain ⟨_, m', h1', h2', -⟩ := h'
  rw [h1] at h1'
  cases h1'
  rw [h2] at h2'
  exact (Ret.ok.inj h2').symm

/-- **C78**, a file of a lossless codec comes from one picture only. -/
theorem C78_injective {p : Setup} (hp : p.Lawful) {fuel fuel' : Nat} {c : AnyCodec} (hc : c.isLossless = true)
    {a b : Img} (hsa : VisitsOnce p.scan a.width.toNat a.height.toNat)
    (hsb : VisitsOnce p.scan b.width.toNat b.height.toNat) (ha : Addressable a) (hb : Addressable b) {m m' : W Unit}
    {file : List UInt8} (h1 : c.encode p fuel a = .ok m) (h2 : c.encode p fuel' b = .ok m') (hf : bytesOf m = .ok file)
    (hf' : bytesOf m' = .ok file) : a.toRgb = b.toRgb := by
  have e1 := C39_lossless_flag hp hc hsa ha h1 hf
  have e2 := C39_lossless_flag hp hc hsb hb h2 hf'
  rw [e1] at e2
  exact Ret.ok.inj e2

/-! ## hilbert(rle) -/

theorem mem_scan_of_lt {scan : Scan} {w h : Nat} (hs : VisitsOnce scan w h) {i : Nat} (hi : i < w * h) :
    (i % w, i / w) ∈ scan w h :=
  hs.mem_iff.2 (List.mem_map.2 ⟨i, List.mem_range.2 hi, rfl⟩)

/-- A picture is determined by its colours along the traversal. -/
theorem eq_of_colorsAlong {scan : Scan} {a b : RgbImage} (ha : a.pixels.length = a.width.toNat * a.height.toNat)
    (hb : b.pixels.length = b.width.toNat * b.height.toNat) (hs : VisitsOnce scan a.width.toNat a.height.toNat)
    (hw : a.width = b.width) (hh : a.height = b.height)
    (h : colorsAlong scan (a.toImg ha) = colorsAlong scan (b.toImg hb)) : a = b := by
  obtain ⟨w, ht, px⟩ := a
  obtain ⟨w', ht', py⟩ := b
  simp only at hw hh ha hb
  subst hw hh
  congr 1
  have h' := List.map_inj_left.1 h
  apply List.ext_getElem?
  intro i
  by_cases hi : i < w.toNat * ht.toNat
  · have h1 := h' _ (mem_scan_of_lt hs hi)
    have e : ∀ (l : List (Rgb UInt8)) (hl : l.length = w.toNat * ht.toNat),
        colorAt (RgbImage.toImg { width := w, height := ht, pixels := l } hl) (i % w.toNat, i / w.toNat) =
          l[i]?.getD black := by
      intro l hl
      have : (RgbImage.toImg { width := w, height := ht, pixels := l } hl).rgbPixels = l :=
        congrArg RgbImage.pixels (toImg_toRgb { width := w, height := ht, pixels := l } hl)
      unfold colorAt
      rw [this]
      show l[i / w.toNat * w.toNat + i % w.toNat]?.getD black = _
      rw [Nat.div_add_mod']
    have h2 := (e px ha).symm.trans (h1.trans (e py hb))
    rw [List.getElem?_eq_getElem (by omega), List.getElem?_eq_getElem (by omega)] at h2 ⊢
    exact congrArg some h2
  · rw [List.getElem?_eq_none (by omega), List.getElem?_eq_none (by omega)]

/-- One generation in terms of groups. -/
theorem generation_groups {p : Setup} (hp : p.Lawful) {fuel : Nat} {d : F64} (hd : d.isZero = false) {a b : RgbImage}
    {file : List UInt8} (hs : VisitsOnce p.scan a.width.toNat a.height.toNat) (ha : a.Fits)
    (h : Generation p fuel (.hilbert (.rle d)) a file b) :
    ∃ hl hl' groups, Greedy (joins p.out.fl d) (colorsAlong p.scan (a.toImg hl)) groups ∧
      b.width = a.width ∧ b.height = a.height ∧ colorsAlong p.scan (b.toImg hl') = averaged groups ∧
      file.length = 8 + 12 * groups.length := by
  obtain ⟨hl, m, h1, h2, h3⟩ := h
  cases h1
  obtain ⟨groups, bytes, out, hg, he, hdec, hw, hh, hpl, hpx⟩ := C35_codec hp.float p.scan d hd (a.toImg hl) hs ha
  obtain ⟨groups', hg', he'⟩ := hilbertEncode_approx (img := a.toImg hl) hp.float hs hd
  rw [hg'.unique hg] at he'
  have hfile : file = bytes := by rw [he.bytesOf] at h2; exact (Ret.ok.inj h2).symm
  subst hfile
  have hlen : file.length = 8 + 12 * groups.length := by
    rw [he'.bytesOf] at h2
    rw [← Ret.ok.inj h2, List.length_append, dims_length, runs_bytes_length, List.length_map]
  have hout : out = b := by
    have h3' : hilbertDecode p.scan (.rle d) file = .ok b := h3
    rw [hdec] at h3'
    exact Ret.ok.inj h3'
  subst hout
  have hw' : out.width = a.width := hw
  have hh' : out.height = a.height := hh
  have hl' : out.pixels.length = out.width.toNat * out.height.toNat := by rw [hw', hh']; exact hpl
  refine ⟨hl, hl', groups, hg, hw', hh', ?_, hlen⟩
  have hrgb : (out.toImg hl').rgbPixels = out.pixels := congrArg RgbImage.pixels (toImg_toRgb out hl')
  have : (colorsAlong p.scan (out.toImg hl')) = ((p.scan a.width.toNat a.height.toNat).map (pixelAt out)).map (·.getD black) := by
    unfold colorsAlong
    rw [List.map_map]
    show List.map _ (p.scan out.width.toNat out.height.toNat) = _
    rw [hw', hh']
    apply List.map_congr_left
    intro c _
    unfold colorAt
    rw [hrgb]
    rfl
  rw [this]
  have hpx' : (p.scan a.width.toNat a.height.toNat).map (pixelAt out) = (averaged groups).map some := hpx
  rw [hpx', List.map_map]
  exact (List.map_congr_left (fun _ _ => rfl)).trans (List.map_id _)

/-- An allowance is zero, or at least zero, or nothing is within it. -/
theorem allowance_cases (d : F64) : d.isZero = true ∨
    (d.isZero = false ∧ (d = .posInf ∨ ∃ q, 0 ≤ q ∧ d = .fin q)) ∨ (d = .nan ∨ d = .negInf ∨ ∃ q < 0, d = .fin q) := by
  cases hz : d.isZero with
  | true => exact .inl rfl
  | false =>
    right
    cases d with
    | nan => exact .inr (.inl rfl)
    | negInf => exact .inr (.inr (.inl rfl))
    | posInf => exact .inl ⟨rfl, .inl rfl⟩
    | fin q =>
      rcases lt_or_ge q 0 with h | h
      · exact .inr (.inr (.inr ⟨q, h, rfl⟩))
      · exact .inl ⟨rfl, .inr ⟨q, h, rfl⟩⟩

theorem generation_same {p : Setup} (hp : p.Lawful) {fuel : Nat} {d : F64}
    (hd : d.isZero = true ∨ (d = .nan ∨ d = .negInf ∨ ∃ q < 0, d = .fin q)) {a b : RgbImage}
    {file : List UInt8} (hs : VisitsOnce p.scan a.width.toNat a.height.toNat) (ha : a.Fits)
    (h : Generation p fuel (.hilbert (.rle d)) a file b) : b = a := by
  rcases hd with hd | hd
  · exact C78_lossless hp (c := .hilbert (.rle d)) hd hs ha h
  · obtain ⟨hl, m, h1, h2, h3⟩ := h
    cases h1
    obtain ⟨bytes, he, -, hdec⟩ := C56_lossless hp.float p.scan d hd (a.toImg hl) hs ha
    have hfile : file = bytes := by rw [he.bytesOf] at h2; exact (Ret.ok.inj h2).symm
    subst hfile
    rw [toImg_toRgb] at hdec
    have h3' : hilbertDecode p.scan (.rle d) file = .ok b := h3
    rw [hdec] at h3'
    exact (Ret.ok.inj h3').symm

/-- **C78**, hilbert(rle) with any allowance: encoding the decoded picture again never gives a longer file. -/
theorem C78_not_longer {p : Setup} (hp : p.Lawful) {fuel : Nat} {d : F64} {a b b' : RgbImage} {file file' : List UInt8}
    (hs : VisitsOnce p.scan a.width.toNat a.height.toNat) (ha : a.Fits)
    (h : Generation p fuel (.hilbert (.rle d)) a file b) (h' : Generation p fuel (.hilbert (.rle d)) b file' b') :
    file'.length ≤ file.length := by
  have same : b = a → file'.length ≤ file.length := by
    intro hab
    subst hab
    obtain ⟨_, m, h1, h2, -⟩ := h
    obtain ⟨_, m', h1', h2', -⟩ := h'
    rw [h1] at h1'
    cases h1'
    rw [h2] at h2'
    rw [Ret.ok.inj h2']
  rcases allowance_cases d with hd | ⟨hz, hd⟩ | hd
  · exact same (generation_same hp (.inl hd) hs ha h)
  · obtain ⟨hl, hl', gs, hg, hw, hh, hc, hlen⟩ := generation_groups hp hz hs ha h
    obtain ⟨_, _, gs', hg', -, -, -, hlen'⟩ := generation_groups hp hz (by rw [hw, hh]; exact hs)
      (by unfold RgbImage.Fits; rw [hw, hh]; exact ha) h'
    rw [hc] at hg'
    have := averaging_fewer hp.float hd hg hg'
    omega
  · exact same (generation_same hp (.inr hd) hs ha h)

/-- **C78**, hilbert(rle) with any allowance: after at most `(w h)² + 1` generations the picture does not change any more. -/
theorem C78_settles {p : Setup} (hp : p.Lawful) {fuel : Nat} {d : F64} {s : Nat → RgbImage} {file : Nat → List UInt8}
    (hs : VisitsOnce p.scan (s 0).width.toNat (s 0).height.toNat) (ha : (s 0).Fits)
    (h : ∀ t, Generation p fuel (.hilbert (.rle d)) (s t) (file t) (s (t + 1))) :
    ∃ N, N ≤ ((s 0).width.toNat * (s 0).height.toNat) ^ 2 + 1 ∧ ∀ k, N ≤ k → s k = s N := by
  have same : (∀ t, (s t).width = (s 0).width → (s t).height = (s 0).height → s (t + 1) = s t) →
      ∃ N, N ≤ ((s 0).width.toNat * (s 0).height.toNat) ^ 2 + 1 ∧ ∀ k, N ≤ k → s k = s N := by
    intro hst
    refine ⟨0, by omega, fun k _ => ?_⟩
    induction k with
    | zero => rfl
    | succ k ih =>
      have ih := ih (by omega)
      rw [hst k (by rw [ih]) (by rw [ih]), ih]
  rcases allowance_cases d with hd | ⟨hz, hd⟩ | hd
  · exact same fun t hw hh => generation_same hp (.inl hd) (by rw [hw, hh]; exact hs)
      (by unfold RgbImage.Fits; rw [hw, hh]; exact ha) (h t)
  · have hdim : ∀ t, (s t).width = (s 0).width ∧ (s t).height = (s 0).height := by
      intro t
      induction t with
      | zero => exact ⟨rfl, rfl⟩
      | succ t ih =>
        obtain ⟨_, _, _, -, hw, hh, -, -⟩ := generation_groups hp hz (by rw [ih.1, ih.2]; exact hs)
          (by unfold RgbImage.Fits; rw [ih.1, ih.2]; exact ha) (h t)
        exact ⟨hw.trans ih.1, hh.trans ih.2⟩
    have hgen : ∀ t, ∃ hl hl' groups, Greedy (joins p.out.fl d) (colorsAlong p.scan ((s t).toImg hl)) groups ∧
        colorsAlong p.scan ((s (t + 1)).toImg hl') = averaged groups := by
      intro t
      obtain ⟨hl, hl', gs, hg, -, -, hc, -⟩ := generation_groups hp hz (by rw [(hdim t).1, (hdim t).2]; exact hs)
          (by unfold RgbImage.Fits; rw [(hdim t).1, (hdim t).2]; exact ha) (h t)
      exact ⟨hl, hl', gs, hg, hc⟩
    choose hl hl' gs hg hc using hgen
    obtain ⟨N, hN, hk⟩ := averaging_settles hp.float hd (xs := fun t => colorsAlong p.scan ((s t).toImg (hl t))) hg hc
    refine ⟨N, ?_, fun k hNk => ?_⟩
    · have e : (colorsAlong p.scan ((s 0).toImg (hl 0))).length = (s 0).width.toNat * (s 0).height.toNat := by
        rw [colorsAlong, List.length_map, linearize_length (img := (s 0).toImg (hl 0)) hs]
        rfl
      rw [e] at hN
      exact hN
    · exact eq_of_colorsAlong (hl k) (hl N) (by rw [(hdim k).1, (hdim k).2]; exact hs)
        ((hdim k).1.trans (hdim N).1.symm) ((hdim k).2.trans (hdim N).2.symm) (hk k hNk)
  · exact same fun t hw hh => generation_same hp (.inr hd) (by rw [hw, hh]; exact hs)
      (by unfold RgbImage.Fits; rw [hw, hh]; exact ha) (h t)

/-- There always is a next generation. -/
theorem generation_exists {p : Setup} (hp : p.Lawful) (fuel : Nat) (d : F64) {a : RgbImage}
    (hl : a.pixels.length = a.width.toNat * a.height.toNat)
    (hs : VisitsOnce p.scan a.width.toNat a.height.toNat) (ha : a.Fits) :
    ∃ file b, Generation p fuel (.hilbert (.rle d)) a file b := by
  cases hd : d.isZero with
  | true =>
    obtain ⟨bytes, he, hdec⟩ := C30_hilbert_rle_lossless p.scan p.out.fl d hd (a.toImg hl) hs ha
    exact ⟨bytes, _, hl, _, rfl, he.bytesOf, hdec⟩
  | false =>
    obtain ⟨groups, bytes, out, -, he, hdec, -⟩ := C35_codec hp.float p.scan d hd (a.toImg hl) hs ha
    exact ⟨bytes, out, hl, _, rfl, he.bytesOf, hdec⟩

namespace AgainExamples

def shades (l : List UInt8) : List (Rgb UInt8) := l.map fun r => ⟨r, 0, 0⟩

/-- Three shades of red. -/
def reds3 : RgbImage := { width := 3, height := 1, pixels := shades [10, 11, 13] }

/-- The third shade is too far from the mean 10.5 of the first two, -/
theorem first : Greedy (joins Ieee.ops (.fin (9 / 4))) (shades [10, 11, 13]) [shades [10, 11], shades [13]] := by
  have h3 : Greedy (joins Ieee.ops (.fin (9 / 4))) (shades [13] ++ []) [shades [13]] :=
    .group (by simp [shades]) (by simp [shades]) (joins_all (by
      intro i h0 hi
      simp [shades] at hi
      omega)) (.inr (by simp)) .nil
  refine .group (g := shades [10, 11]) (rest := shades [13]) (by simp [shades]) (by simp [shades]) (joins_all ?_) (.inr ?_) h3
  · intro i h0 hi
    have : i = 1 := by simp [shades] at hi; omega
    subst this
    exact near_joins Ieee.lawful (e := 1) (by simp [shades]) (by norm_num) (by norm_num) ⟨by clear * -; decide +kernel +revert⟩
  · intro x hx h
    cases hx
    have := (C36_joins_within Ieee.lawful _ _ (by simp [shades]) _ h).2.le
    revert this
    decide +kernel

/-- but not from their rounded mean 11. -/
theorem second : Greedy (joins Ieee.ops (.fin (9 / 4))) (shades [11, 11, 13]) [shades [11, 11, 13]] := by
  have h : Greedy (joins Ieee.ops (.fin (9 / 4))) (shades [11, 11, 13] ++ []) [shades [11, 11, 13]] := by
    refine .group (by simp [shades]) (by simp [shades]) (joins_all ?_) (.inr (by simp)) .nil
    intro i h0 hi
    have : i = 1 ∨ i = 2 := by simp [shades] at hi; omega
    rcases this with rfl | rfl <;>
      exact near_joins Ieee.lawful (e := 2) (by simp [shades]) (by norm_num) (by norm_num) ⟨by clear * -; decide +kernel +revert⟩
  simpa using h

end AgainExamples

open AgainExamples in
/-- **C78**, the expectation that a decoded picture is encoded without further loss is refuted: for hilbert(rle(9/4)) the
second generation of a picture of three pixels differs from the first, and its file is shorter. -/
theorem C78_refuted : ∃ (p : Setup) (a b b' : RgbImage) (file file' : List UInt8), p.Lawful ∧
    Generation p 0 (.hilbert (.rle (.fin (9 / 4)))) a file b ∧ Generation p 0 (.hilbert (.rle (.fin (9 / 4)))) b file' b' ∧
    b'.pixels ≠ b.pixels ∧ file'.length < file.length := by
  have hp := AnyCodecExamples.setup_lawful
  have hz : (F64.fin (9 / 4)).isZero = false := by decide +kernel
  have hl : reds3.pixels.length = reds3.width.toNat * reds3.height.toNat := rfl
  have hs : ∀ w h, VisitsOnce AnyCodecExamples.setup.scan w h := fun _ _ => .refl _
  have ha : reds3.Fits := by unfold RgbImage.Fits; decide
  obtain ⟨file, b, h1⟩ := generation_exists hp 0 (.fin (9 / 4)) hl (hs _ _) ha
  obtain ⟨_, hlb, gs, hg, hw, hh, hc, hf⟩ := generation_groups hp hz (hs _ _) ha h1
  have hab : b.Fits := by unfold RgbImage.Fits; rw [hw, hh]; exact ha
  obtain ⟨file', b', h2⟩ := generation_exists hp 0 (.fin (9 / 4)) hlb (hs _ _) hab
  obtain ⟨_, hlb', gs', hg', hw', hh', hc', hf'⟩ := generation_groups hp hz (hs _ _) hab h2
  have e0 : colorsAlong AnyCodecExamples.setup.scan (reds3.toImg hl) = shades [10, 11, 13] := by
    show colorsAlong cells (reds3.toImg rfl) = _
    decide +kernel
  rw [e0] at hg
  have egs := hg.unique first
  have e1 : averaged gs = shades [11, 11, 13] := by rw [egs]; decide +kernel
  rw [hc, e1] at hg'
  have egs' := hg'.unique second
  have e2 : averaged gs' = shades [12, 12, 12] := by rw [egs']; decide +kernel
  refine ⟨_, _, b, b', file, file', hp, h1, h2, ?_, by rw [hf, hf', egs, egs']; decide⟩
  intro hpx
  have hbb : b' = b := by
    obtain ⟨w, h, px⟩ := b
    obtain ⟨w', h', px'⟩ := b'
    cases hw'; cases hh'; cases hpx; rfl
  subst hbb
  rw [hc, e1, e2] at hc'
  exact absurd hc' (by decide)

/-- A sequence of generations as in `C78_settles`: the three shades, 11 11 13, and then 12 12 12 for ever. -/
example : ∃ (s : Nat → RgbImage) (file : Nat → List UInt8), s 0 = AgainExamples.reds3 ∧
    ∀ t, Generation AnyCodecExamples.setup 0 (.hilbert (.rle (.fin (9 / 4)))) (s t) (file t) (s (t + 1)) := by
  have step : ∀ a : { a : RgbImage // a.pixels.length = a.width.toNat * a.height.toNat ∧ a.Fits },
      ∃ (file : List UInt8) (b : { a : RgbImage // a.pixels.length = a.width.toNat * a.height.toNat ∧ a.Fits }),
        Generation AnyCodecExamples.setup 0 (.hilbert (.rle (.fin (9 / 4)))) a.1 file b.1 := by
    rintro ⟨a, hl, ha⟩
    obtain ⟨file, b, h⟩ := generation_exists AnyCodecExamples.setup_lawful 0 (.fin (9 / 4)) hl (.refl _) ha
    obtain ⟨_, hlb, gs, hg, hw, hh, hc, hf⟩ :=
      generation_groups AnyCodecExamples.setup_lawful (by decide +kernel) (.refl _) ha h
    exact ⟨file, ⟨b, hlb, by unfold RgbImage.Fits; rw [hw, hh]; exact ha⟩, h⟩
  choose file next h using step
  let s := fun t => Nat.rec (motive := fun _ => { a : RgbImage // a.pixels.length = a.width.toNat * a.height.toNat ∧ a.Fits })
    ⟨AgainExamples.reds3, rfl, by unfold RgbImage.Fits; decide⟩ (fun _ a => next a) t
  exact ⟨fun t => (s t).1, fun t => file (s t), rfl, fun t => h (s t)⟩

end Cniic
