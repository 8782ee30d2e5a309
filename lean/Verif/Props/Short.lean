import Verif.Props.Files
import Verif.Props.Extreme

/-!
# Which pictures have short files (C121)

Only few pictures can have files that are shorter than their pixels (3 bytes each); and for the codecs whose file sizes have a
formula (C77) it takes few colours, few differences or few runs.
-/

namespace Cniic
open Spec SerSpec

/-- **C121.** At most `256 ^ n` different pictures have files of at most `n` bytes, whatever their sizes. -/
theorem C121_few {scan : Scan} (hs : ∀ w h, VisitsOnce scan w h) {c : AnyCodec} (hc : c.isLossless = true)
    {entries : List (Img × List UInt8)} (hw : ∀ e ∈ entries, Addressable e.1 ∧ Writes scan c e.1 e.2)
    (hd : (entries.map fun e => e.1.toRgb).Nodup) {n : Nat} (hn : ∀ e ∈ entries, e.2.length ≤ n) :
    entries.length ≤ 256 ^ n := by
  have hp : NoneBegins (entries.map Prod.snd) := by
    rw [NoneBegins, List.pairwise_map]
    rw [List.Nodup, List.pairwise_map] at hd
    refine hd.imp_of_mem fun {a b} ha hb hne => ⟨fun h => hne ?_, fun h => hne ?_⟩
    · exact C90_prefix hs hc (hw a ha).1 (hw b hb).1 (hw a ha).2 (hw b hb).2 h
    · exact (C90_prefix hs hc (hw b hb).1 (hw a ha).1 (hw b hb).2 (hw a ha).2 h).symm
  have hk := kraft_bytes n (entries.map Prod.snd) hp fun a ha => by
    obtain ⟨e, he, rfl⟩ := List.mem_map.1 ha
    exact hn e he
  refine Nat.le_trans ?_ hk
  have : ∀ l : List (List UInt8), l.length ≤ (l.map fun a => 256 ^ (n - a.length)).sum := by
    intro l
    induction l with
    | nil => simp
    | cons a l ih =>
      have : 0 < 256 ^ (n - a.length) := Nat.pow_pos (by decide)
      rw [List.map_cons, List.sum_cons, List.length_cons]
      omega
  simpa using this (entries.map Prod.snd)

/-- **C121.** Of all pictures of one size, at most one out of `256 ^ k` has a file that is `k` bytes shorter than its
pixels. -/
theorem C121_share {scan : Scan} (hs : ∀ w h, VisitsOnce scan w h) {c : AnyCodec} (hc : c.isLossless = true) {w h : UInt32}
    (ha : 3 * (w.toNat * h.toNat) < 2 ^ 63) {short : List (List (Rgb UInt8))} (hnd : short.Nodup)
    (hl : ∀ px ∈ short, px.length = w.toNat * h.toNat) {file : List (Rgb UInt8) → List UInt8}
    (hf : ∀ px (hm : px ∈ short), Writes scan c (RgbImage.toImg ⟨w, h, px⟩ (hl px hm)) (file px)) {k : Nat}
    (hk : ∀ px ∈ short, (file px).length + k ≤ 3 * (w.toNat * h.toNat)) :
    short.length * 256 ^ k ≤ (allPixels (w.toNat * h.toNat)).length := by
  rw [allPixels_length]
  cases short with
  | nil => simp
  | cons px0 short' =>
    have hk0 := hk px0 (by simp)
    have := C121_few hs hc (n := 3 * (w.toNat * h.toNat) - k)
      (entries := (px0 :: short').pmap (fun px hl => (RgbImage.toImg ⟨w, h, px⟩ hl, file px)) hl) ?_ ?_ ?_
    · rw [List.length_pmap] at this
      refine Nat.le_trans (Nat.mul_le_mul_right _ this) (Nat.le_of_eq ?_)
      rw [← Nat.pow_add]
      congr 1
      omega
    · intro e he
      obtain ⟨px, hpx, rfl⟩ := List.mem_pmap.1 he
      exact ⟨ha, hf px hpx⟩
    · rw [List.map_pmap]
      have : (px0 :: short').pmap (fun px hl => (RgbImage.toImg ⟨w, h, px⟩ hl).toRgb) hl =
          (px0 :: short').map fun px => (⟨w, h, px⟩ : RgbImage) := by
        rw [← List.pmap_eq_map (p := fun px => px.length = w.toNat * h.toNat) (H := hl)]
        exact List.pmap_congr_left _ fun px _ h1 h2 => toImg_toRgb _ _
      rw [this, List.Nodup, List.pairwise_map]
      exact hnd.imp fun hne e => hne (by injection e)
    · intro e he
      obtain ⟨px, hpx, rfl⟩ := List.mem_pmap.1 he
      have := hk px hpx
      show (file px).length ≤ _
      omega

/-- **C121**, hufman: shorter than the pixels only with fewer different colours than 3/13 of the pixels; and surely if there
are at most `2 ^ L` colours, `13 · 2 ^ L + 8` bytes and `L` bits per pixel being less than the pixels. -/
theorem C121_hufman {p : Setup} (hp : p.Lawful) (fuel : Nat) {img : Img} (hne : img.pixels ≠ [])
    {S : List (Rgb UInt8)} (hS : Distinct S img.rgbPixels) :
    ∃ m bytes, AnyCodec.hufman.encode p fuel img = .ok m ∧ bytesOf m = .ok bytes ∧
      (bytes.length < 3 * img.pixels.length → 13 * S.length + 7 < 3 * img.pixels.length) ∧
      ∀ L, S.length ≤ 2 ^ L → 8 * (13 * 2 ^ L + 8) + img.pixels.length * L ≤ 24 * img.pixels.length →
        bytes.length < 3 * img.pixels.length := by
  obtain ⟨m, bytes, B, h1, h2, -, h4, h5⟩ := C77_hufman hp fuel hne hS
  refine ⟨m, bytes, h1, h2, fun h => by omega, fun L hL h => ?_⟩
  have := h5 L hL
  omega

/-- **C121**, delta: the same with fewer different differences than 3/8 of the pixels. -/
theorem C121_delta {p : Setup} (hp : p.Lawful) (fuel : Nat) {img : Img}
    (hs : VisitsOnce p.scan img.width.toNat img.height.toNat) (hne : img.pixels ≠ []) {S : List SignedColor}
    (hS : Distinct S (diffs black (colorsAlong p.scan img))) :
    ∃ m bytes, AnyCodec.delta.encode p fuel img = .ok m ∧ bytesOf m = .ok bytes ∧
      (bytes.length < 3 * img.pixels.length → 8 * S.length + 7 < 3 * img.pixels.length) ∧
      ∀ L, S.length ≤ 2 ^ L → 8 * (8 * 2 ^ L + 8) + img.pixels.length * L ≤ 24 * img.pixels.length →
        bytes.length < 3 * img.pixels.length := by
  obtain ⟨m, bytes, B, h1, h2, -, h4, h5⟩ := C77_delta hp fuel hs hne hS
  refine ⟨m, bytes, h1, h2, fun h => by omega, fun L hL h => ?_⟩
  have := h5 L hL
  omega

/-- **C121**, hilbert-rle without allowance: shorter than the pixels if and only if the pixels along the curve can be split
into runs of at most 255 equal ones, more than 4 pixels long on average (by 8 bytes in total). -/
theorem C121_rle {p : Setup} (fuel : Nat) {d : F64} (hd : d.isZero = true) {img : Img}
    (hs : VisitsOnce p.scan img.width.toNat img.height.toNat) :
    ∃ m bytes, (AnyCodec.hilbert (.rle d)).encode p fuel img = .ok m ∧ bytesOf m = .ok bytes ∧
      (bytes.length < 3 * img.pixels.length ↔
        ∃ runs, expandRuns runs = colorsAlong p.scan img ∧ 8 + 12 * runs.length < 3 * img.pixels.length) := by
  obtain ⟨runs, h1, h2, h3, he⟩ := hilbertEncode_exact p.out.fl hs hd
  refine ⟨_, _, rfl, he.bytesOf, ?_⟩
  rw [List.length_append, dims_length, runs_bytes_length]
  constructor
  · intro h
    exact ⟨runs, h2, h⟩
  · rintro ⟨rs, hr, h⟩
    have := maximal_fewest rs 0 runs h1 h3 (by rw [h2, hr]; rfl)
    omega

/-! ## Concrete cases -/

section
open AnyCodecExamples Kmeans

/-- Of the pictures with 640 × 480 pixels, at most one out of `256 ^ 100` becomes 100 bytes shorter with zip(dict). -/
example {short : List (List (Rgb UInt8))} (hnd : short.Nodup)
    (hl : ∀ px ∈ short, px.length = (640 : UInt32).toNat * (480 : UInt32).toNat) {file : List (Rgb UInt8) → List UInt8}
    (hf : ∀ px (hm : px ∈ short), Writes setup.scan (.zip .dict) (RgbImage.toImg ⟨640, 480, px⟩ (hl px hm)) (file px))
    (hk : ∀ px ∈ short, (file px).length + 100 ≤ 3 * ((640 : UInt32).toNat * (480 : UInt32).toNat)) :
    short.length * 256 ^ 100 ≤ (allPixels ((640 : UInt32).toNat * (480 : UInt32).toNat)).length :=
  C121_share (scan := setup.scan) (fun _ _ => .refl _) (c := .zip .dict) rfl (by decide) hnd hl hf hk

/-- Two pictures of one pixel each, with files of at most 100 bytes. -/
example {m m' : W Unit} {a b : List UInt8} (h : AnyCodec.hufman.encode setup 0 (RgbImage.toImg ⟨1, 1, [⟨1, 2, 3⟩]⟩ rfl) = .ok m)
    (hm : bytesOf m = .ok a) (h' : AnyCodec.hufman.encode setup 0 (RgbImage.toImg ⟨1, 1, [⟨1, 2, 4⟩]⟩ rfl) = .ok m')
    (hm' : bytesOf m' = .ok b) (hl : a.length ≤ 100 ∧ b.length ≤ 100) : 2 ≤ 256 ^ 100 :=
  C121_few (scan := setup.scan) (fun _ _ => .refl _) (c := .hufman) rfl
    (entries := [(RgbImage.toImg ⟨1, 1, [⟨1, 2, 3⟩]⟩ rfl, a), (RgbImage.toImg ⟨1, 1, [⟨1, 2, 4⟩]⟩ rfl, b)])
    (by
      intro e he
      simp only [List.mem_cons, List.not_mem_nil, or_false] at he
      rcases he with rfl | rfl
      · exact ⟨show 3 * (1 * 1) < 2 ^ 63 by decide, setup, 0, m, setup_lawful, sortByDist_isSort, rfl, h, hm⟩
      · exact ⟨show 3 * (1 * 1) < 2 ^ 63 by decide, setup, 0, m', setup_lawful, sortByDist_isSort, rfl, h', hm'⟩)
    (show [(⟨1, 1, [⟨1, 2, 3⟩]⟩ : RgbImage), ⟨1, 1, [⟨1, 2, 4⟩]⟩].Nodup by decide) (by simpa using hl)

/-- A picture in one colour, 6 × 4 pixels. -/
def plain : Img := { width := 6, height := 4, pixels := List.replicate 24 ⟨9, 9, 9, 255⟩, size := by decide }

example : ∃ m bytes, AnyCodec.hufman.encode setup 0 plain = .ok m ∧ bytesOf m = .ok bytes ∧ bytes.length < 72 := by
  obtain ⟨m, bytes, h1, h2, -, h4⟩ := C121_hufman setup_lawful 0 (img := plain) (by decide) (S := [⟨9, 9, 9⟩])
    ⟨by decide, fun x => by
      rw [show plain.rgbPixels = List.replicate 24 ⟨9, 9, 9⟩ by decide, List.mem_replicate, List.mem_singleton]; simp⟩
  exact ⟨m, bytes, h1, h2, h4 0 (by decide) (by decide)⟩

example : ∃ m bytes, (AnyCodec.hilbert (.rle (.fin 0))).encode setup 0 plain = .ok m ∧ bytesOf m = .ok bytes ∧
    bytes.length < 72 := by
  obtain ⟨m, bytes, h1, h2, h3⟩ := C121_rle (p := setup) 0 (d := .fin 0) rfl (img := plain) (.refl _)
  exact ⟨m, bytes, h1, h2, h3.2 ⟨[(24, ⟨9, 9, 9⟩)], by decide +kernel, by decide⟩⟩

/-- The differences of the same picture: the first pixel, and zero. -/
example : ∃ m bytes, AnyCodec.delta.encode ExtremeExamples.release 0 plain = .ok m ∧ bytesOf m = .ok bytes ∧
    bytes.length < 72 := by
  have e : diffs black (colorsAlong ExtremeExamples.release.scan plain) = ⟨9, 9, 9⟩ :: List.replicate 23 ⟨0, 0, 0⟩ := by
    decide +kernel
  obtain ⟨m, bytes, h1, h2, -, h4⟩ := C121_delta ExtremeExamples.release_lawful 0 (img := plain) (.refl _) (by decide)
    (S := [⟨9, 9, 9⟩, ⟨0, 0, 0⟩]) ⟨by decide, fun x => by rw [e]; simp⟩
  exact ⟨m, bytes, h1, h2, h4 1 (by decide) (by decide)⟩

end

end Cniic
