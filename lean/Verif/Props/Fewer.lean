import Verif.Proofs.Fewer
import Verif.Props.Clusterc

/-!
# C107: leaving out pixels and merging colours

A picture made of some of the pixels of another one, in any order, with the colours replaced in any way (also different
colours by the same one) has a hufman file that is no larger.  So cluster-colors files are never larger than the hufman file of
the same picture.  The same holds for exact runs if the pixels keep their order along the traversal.  It holds for none of the
other lossless codecs.
-/

namespace Cniic
open Spec Kmeans

/-- **C107**, hufman: pixels left out and moved, colours replaced, also different ones by the same. -/
theorem C107_hufman {p q : Setup} (hp : p.Lawful) (hq : q.Lawful) {fuel fuel' : Nat} {img img' : Img}
    {f : Rgb UInt8 → Rgb UInt8} (hpart : PartOf f img.rgbPixels img'.rgbPixels) {m m' : W Unit} {file file' : List UInt8}
    (hm : AnyCodec.hufman.encode p fuel img = .ok m) (hm' : AnyCodec.hufman.encode q fuel' img' = .ok m')
    (hb : bytesOf m = .ok file) (hb' : bytesOf m' = .ok file') : file'.length ≤ file.length := by
  by_cases hne' : img'.pixels = []
  · cases hm'
    rw [C28_empty_image_panics q.heapRgb q.orderRgb hq.orderRgb img' hne'] at hb'
    cases hb'
  · have hne : img.pixels ≠ [] := by
      have := hpart.ne_nil (by simpa [Img.rgbPixels] using hne')
      simpa [Img.rgbPixels] using this
    obtain ⟨S, hS⟩ := distinct_exists img.rgbPixels
    obtain ⟨S', hS'⟩ := distinct_exists img'.rgbPixels
    obtain ⟨m1, b1, B1, e1, e2, e3, e4, -⟩ := C77_hufman hp fuel hne hS
    obtain ⟨m2, b2, B2, f1, f2, f3, f4, -⟩ := C77_hufman hq fuel' hne' hS'
    rw [e1] at hm; cases hm
    rw [f1] at hm'; cases hm'
    rw [e2] at hb; cases hb
    rw [f2] at hb'; cases hb'
    have h1 := fewestBits_partOf hpart e3 f3
    have h2 := distinct_partOf hpart hS hS'
    rw [e4, f4]
    omega

/-- **C107**, cluster-colors: never larger than the hufman file of the same picture. -/
theorem C107_cluster_colors {p q : Setup} (hp : p.Lawful) (hsort : IsSort p.out.sort) (hq : q.Lawful) {fuel fuel' : Nat}
    {n : UInt64} {img : Img} (ha : Addressable img) {m : W Unit}
    (hm : (AnyCodec.clusterColors n).encode p fuel img = .ok m) :
    ∃ file m' file', bytesOf m = .ok file ∧ AnyCodec.hufman.encode q fuel' img = .ok m' ∧ bytesOf m' = .ok file' ∧
      file.length ≤ file'.length := by
  obtain ⟨bytes, out, S, B, h1, h2, h3, -, h5, h6, -⟩ := C77_cluster_colors hp hsort ha hm
  have hmap : ∃ g : Rgb UInt8 → Rgb UInt8, out.pixels = img.rgbPixels.map g := by
    have hm0 := hm
    simp only [AnyCodec.encode, clusterColorsEncode] at hm0
    obtain ⟨cl, hcl, -⟩ := Ret.bind_ok.1 hm0
    obtain ⟨m1, e1, bytes1, group, palette, e2, e3, -⟩ :=
      clusterColors_groups (M := p.heapRgb) hsort hp.orderColor hp.orderRgb ha hcl
    have : m1 = m := by
      have h : (AnyCodec.clusterColors n).encode p fuel img = .ok m1 := e1
      rw [hm] at h
      exact (Ret.ok.inj h).symm
    subst this
    have hbb : bytes1 = bytes := by
      rw [e2.bytesOf] at h1
      exact Ret.ok.inj h1
    subst hbb
    have h : clusterColorsDecode bytes1 = .ok out := h2
    rw [e3] at h
    have := Ret.ok.inj h
    subst this
    exact ⟨_, rfl⟩
  obtain ⟨g, hg⟩ := hmap
  have hpart : PartOf g img.rgbPixels out.pixels := ⟨_, .refl _, by rw [hg]⟩
  have hne : img.pixels ≠ [] := by
    intro h
    simp only [AnyCodec.encode, clusterColorsEncode] at hm
    obtain ⟨cl, -, hm⟩ := Ret.bind_ok.1 hm
    obtain ⟨red, hred, hm⟩ := Ret.bind_ok.1 hm
    split at hm
    · rename_i hlen
      cases hm
      have hdim : red.width = img.width ∧ red.height = img.height := by
        unfold reducedImg at hred
        rw [new_eq img ha] at hred
        simp only [Option.bind_eq_bind, Option.bind_some] at hred
        cases ho : optMap (lastLookup (reducedColors cl)) img.rgbPixels with
        | none => rw [ho] at hred; cases hred
        | some px => rw [ho] at hred; cases hred; exact ⟨rfl, rfl⟩
      have h0 : (red.toImg hlen).pixels = [] := by
        rw [← List.length_eq_zero_iff, (red.toImg hlen).size]
        show red.width.toNat * red.height.toNat = 0
        rw [hdim.1, hdim.2, ← img.size, h, List.length_nil]
      rw [C28_empty_image_panics p.heapRgb p.orderRgb hp.orderRgb _ h0] at h1
      cases h1
    · cases hm
  obtain ⟨S', hS'⟩ := distinct_exists img.rgbPixels
  obtain ⟨m2, b2, B2, f1, f2, f3, f4, -⟩ := C77_hufman hq fuel' hne hS'
  have k1 := fewestBits_partOf hpart f3 h5
  have k2 := distinct_partOf hpart hS' h3
  exact ⟨bytes, m2, b2, h1, f1, f2, by omega⟩

/-- **C107**, exact runs: pixels left out along the traversal, and colours replaced. -/
theorem C107_hilbert_rle {p q : Setup} {fuel fuel' : Nat} {d d' : F64} (hd : d.isZero = true) (hd' : d'.isZero = true)
    {img img' : Img} (hs : VisitsOnce p.scan img.width.toNat img.height.toNat)
    (hs' : VisitsOnce q.scan img'.width.toNat img'.height.toNat) {f : Rgb UInt8 → Rgb UInt8}
    (hc : (colorsAlong q.scan img').Sublist ((colorsAlong p.scan img).map f)) {m m' : W Unit}
    {file file' : List UInt8} (hm : (AnyCodec.hilbert (.rle d)).encode p fuel img = .ok m)
    (hm' : (AnyCodec.hilbert (.rle d')).encode q fuel' img' = .ok m') (hb : bytesOf m = .ok file)
    (hb' : bytesOf m' = .ok file') : file'.length ≤ file.length := by
  obtain ⟨runs, -, h2, -, he⟩ := hilbertEncode_exact p.out.fl hs hd
  obtain ⟨m1, b1, e1, e2, e3⟩ := C77_hilbert_rle_fewest (p := q) fuel' hd' hs'
  rw [e1] at hm'; cases hm'
  rw [e2] at hb'; cases hb'
  cases hm
  rw [he.bytesOf] at hb; cases hb
  obtain ⟨runs', k1, k2⟩ := runs_sublist (runs.map fun r => (r.1, f r.2)) (colorsAlong q.scan img') (by rw [expandRuns_map, h2]; exact hc)
  have := e3 runs' k1
  rw [List.length_append, dims_length, runs_bytes_length]
  simpa [k2] using this

/-- **C107**, exact runs: replacing the colours in a picture, also different ones by the same. -/
theorem C107_hilbert_rle_recolor {p q : Setup} (hscan : p.scan = q.scan) {fuel fuel' : Nat} {d d' : F64} (hd : d.isZero = true)
    (hd' : d'.isZero = true) {img img' : Img} (hs : VisitsOnce p.scan img.width.toNat img.height.toNat)
    (hw : img'.width = img.width) (hh : img'.height = img.height) {f : Rgb UInt8 → Rgb UInt8}
    (hpx : img'.rgbPixels = img.rgbPixels.map f) {m m' : W Unit} {file file' : List UInt8}
    (hm : (AnyCodec.hilbert (.rle d)).encode p fuel img = .ok m) (hm' : (AnyCodec.hilbert (.rle d')).encode q fuel' img' = .ok m')
    (hb : bytesOf m = .ok file) (hb' : bytesOf m' = .ok file') : file'.length ≤ file.length := by
  have hs' : VisitsOnce q.scan img'.width.toNat img'.height.toNat := by rw [hw, hh, ← hscan]; exact hs
  exact C107_hilbert_rle hd hd' hs hs' (f := f) (by rw [← hscan, colorsAlong_map hw hh hs hpx]) hm hm' hb hb'

/-! ## What does not hold -/

/-- **C107**, with the other lossless codecs leaving out a pixel of a row may give a larger file. -/
theorem C107_left_out : ∀ c ∈ [AnyCodec.delta, .hilbert .zip, .zip .dict, .zip .back],
    ∃ (p : Setup) (img img' : Img) (l l' : Nat), p.Lawful ∧ img'.rgbPixels.Sublist img.rgbPixels ∧
      img'.height = 1 ∧ img.height = 1 ∧
      outcomeOf p 0 c img = some (l, 0) ∧ outcomeOf p 0 c img' = some (l', 0) ∧ l < l' := by
  intro c hc
  simp only [List.mem_cons, List.not_mem_nil, or_false] at hc
  rcases hc with rfl | rfl | rfl | rfl
  · exact ⟨ExtremeExamples.release, redRow [1, 0, 1, 0] (by decide), redRow [1, 1, 0] (by decide), 24, 32,
      ExtremeExamples.release_lawful, by decide +kernel, rfl, rfl, by decide +kernel, by decide +kernel, by decide⟩
  · exact ⟨ExtremeExamples.release, redRow [1, 0, 0, 1, 0, 0, 0] (by decide), redRow [1, 0, 1, 0, 0, 0] (by decide), 48, 52,
      ExtremeExamples.release_lawful, by decide +kernel, rfl, rfl, by decide +kernel, by decide +kernel, by decide⟩
  · exact ⟨ExtremeExamples.release, redRow [0, 1, 0, 0, 0] (by decide), redRow [1, 0, 0, 0] (by decide), 40, 44,
      ExtremeExamples.release_lawful, by decide +kernel, rfl, rfl, by decide +kernel, by decide +kernel, by decide⟩
  · exact ⟨ExtremeExamples.release, redRow [0, 0, 0] (by decide), redRow [0, 0] (by decide), 26, 27,
      ExtremeExamples.release_lawful, by decide +kernel, rfl, rfl, by decide +kernel, by decide +kernel, by decide⟩

/-- **C107**, with the other lossless codecs replacing one of the colours by another one of the picture may give a larger file. -/
theorem C107_merged : ∀ c ∈ [AnyCodec.delta, .hilbert .zip, .zip .dict, .zip .back],
    ∃ (p : Setup) (img img' : Img) (a b : Rgb UInt8) (l l' : Nat), p.Lawful ∧ img'.width = img.width ∧
      img'.height = img.height ∧ a ∈ img.rgbPixels ∧ b ∈ img.rgbPixels ∧
      img'.rgbPixels = img.rgbPixels.map (fun c => if c = a then b else c) ∧
      outcomeOf p 0 c img = some (l, 0) ∧ outcomeOf p 0 c img' = some (l', 0) ∧ l < l' := by
  intro c hc
  simp only [List.mem_cons, List.not_mem_nil, or_false] at hc
  rcases hc with rfl | rfl | rfl | rfl
  · exact ⟨ExtremeExamples.release, redRow [2, 1, 0] (by decide), redRow [1, 1, 0] (by decide), ⟨2, 0, 0⟩, ⟨1, 0, 0⟩, 24, 32,
      ExtremeExamples.release_lawful, rfl, rfl, by decide +kernel, by decide +kernel, by decide +kernel, by decide +kernel,
      by decide +kernel, by decide⟩
  · exact ⟨ExtremeExamples.release, redRow [2, 0, 2, 1] (by decide), redRow [2, 1, 2, 1] (by decide), ⟨0, 0, 0⟩, ⟨1, 0, 0⟩, 44, 48,
      ExtremeExamples.release_lawful, rfl, rfl, by decide +kernel, by decide +kernel, by decide +kernel, by decide +kernel,
      by decide +kernel, by decide⟩
  · exact ⟨ExtremeExamples.release, redRow [0, 0, 2] (by decide), redRow [2, 2, 2] (by decide), ⟨0, 0, 0⟩, ⟨2, 0, 0⟩, 36, 40,
      ExtremeExamples.release_lawful, rfl, rfl, by decide +kernel, by decide +kernel, by decide +kernel, by decide +kernel,
      by decide +kernel, by decide⟩
  · exact ⟨ExtremeExamples.release, redRow [0, 1, 0] (by decide), redRow [1, 1, 1] (by decide), ⟨0, 0, 0⟩, ⟨1, 0, 0⟩, 30, 38,
      ExtremeExamples.release_lawful, rfl, rfl, by decide +kernel, by decide +kernel, by decide +kernel, by decide +kernel,
      by decide +kernel, by decide⟩

/-! ## Concrete cases -/

namespace FewerExamples
open ExtremeExamples (release release_lawful)

/-- C107, hufman: three of five pixels in another order, and two colours made one. -/
example : ∃ m m' file file', AnyCodec.hufman.encode release 0 (redRow [1, 1, 2, 7, 9] (by decide)) = .ok m ∧
    AnyCodec.hufman.encode release 0 (redRow [7, 1, 1] (by decide)) = .ok m' ∧ bytesOf m = .ok file ∧
    bytesOf m' = .ok file' ∧ file'.length ≤ file.length := by
  obtain ⟨m, file, -, h1, h2, -, -, -⟩ := outcomeOf_some (p := release) (fuel := 0) (c := .hufman)
    (img := redRow [1, 1, 2, 7, 9] (by decide)) (l := 61) (e := 0) (by decide +kernel)
  obtain ⟨m', file', -, h3, h4, -, -, -⟩ := outcomeOf_some (p := release) (fuel := 0) (c := .hufman)
    (img := redRow [7, 1, 1] (by decide)) (l := 34) (e := 0) (by decide +kernel)
  exact ⟨m, m', file, file', h1, h3, h2, h4, C107_hufman release_lawful release_lawful
    (f := fun c => if c.r = 2 then ⟨1, 0, 0⟩ else c) ⟨[⟨1, 0, 0⟩, ⟨1, 0, 0⟩, ⟨7, 0, 0⟩], by decide +kernel, by decide +kernel⟩ h1 h3 h2 h4⟩

/-- C107, runs: two of six pixels left out and two colours made one. -/
example : ∃ m m' file file', (AnyCodec.hilbert (.rle (.fin 0))).encode release 0 (redRow [1, 1, 2, 1, 3, 3] (by decide)) = .ok m ∧
    (AnyCodec.hilbert (.rle (.fin 0))).encode release 0 (redRow [1, 1, 1, 3] (by decide)) = .ok m' ∧ bytesOf m = .ok file ∧
    bytesOf m' = .ok file' ∧ file'.length ≤ file.length := by
  obtain ⟨m, file, -, h1, h2, -, -, -⟩ := outcomeOf_some (p := release) (fuel := 0) (c := .hilbert (.rle (.fin 0)))
    (img := redRow [1, 1, 2, 1, 3, 3] (by decide)) (l := 56) (e := 0) (by decide +kernel)
  obtain ⟨m', file', -, h3, h4, -, -, -⟩ := outcomeOf_some (p := release) (fuel := 0) (c := .hilbert (.rle (.fin 0)))
    (img := redRow [1, 1, 1, 3] (by decide)) (l := 32) (e := 0) (by decide +kernel)
  exact ⟨m, m', file, file', h1, h3, h2, h4, C107_hilbert_rle (p := release) (q := release)
    (img := redRow [1, 1, 2, 1, 3, 3] (by decide)) (img' := redRow [1, 1, 1, 3] (by decide)) rfl rfl
    (SymmetryExamples.visits _ _) (SymmetryExamples.visits _ _)
    (f := fun c => if c.r = 2 then ⟨1, 0, 0⟩ else c) (by decide +kernel) h1 h3 h2 h4⟩

/-- C107, runs: another colour made black. -/
example : ∃ m m' file file', (AnyCodec.hilbert (.rle (.fin 0))).encode release 0 (redRow [0, 0, 2, 0] (by decide)) = .ok m ∧
    (AnyCodec.hilbert (.rle (.fin 0))).encode release 0 (redRow [0, 0, 0, 0] (by decide)) = .ok m' ∧ bytesOf m = .ok file ∧
    bytesOf m' = .ok file' ∧ file'.length ≤ file.length := by
  obtain ⟨m, file, -, h1, h2, -, -, -⟩ := outcomeOf_some (p := release) (fuel := 0) (c := .hilbert (.rle (.fin 0)))
    (img := redRow [0, 0, 2, 0] (by decide)) (l := 44) (e := 0) (by decide +kernel)
  obtain ⟨m', file', -, h3, h4, -, -, -⟩ := outcomeOf_some (p := release) (fuel := 0) (c := .hilbert (.rle (.fin 0)))
    (img := redRow [0, 0, 0, 0] (by decide)) (l := 20) (e := 0) (by decide +kernel)
  exact ⟨m, m', file, file', h1, h3, h2, h4, C107_hilbert_rle_recolor (p := release) (q := release)
    (img := redRow [0, 0, 2, 0] (by decide)) (img' := redRow [0, 0, 0, 0] (by decide)) rfl rfl rfl
    (SymmetryExamples.visits _ _) rfl rfl (f := fun _ => ⟨0, 0, 0⟩) (by decide +kernel) h1 h3 h2 h4⟩

/-- C107, cluster-colors: five pixels of four colours made one. -/
example : ∃ m m' file file', (AnyCodec.clusterColors 1).encode AnyCodecExamples.setup 2 ClusterExamples.img = .ok m ∧
    AnyCodec.hufman.encode release 0 ClusterExamples.img = .ok m' ∧ bytesOf m = .ok file ∧ bytesOf m' = .ok file' ∧
    file.length ≤ file'.length := by
  obtain ⟨m, -, h1, -⟩ := C79_one_color AnyCodecExamples.setup_lawful sortByDist_isSort 0 ClusterExamples.img_addressable
    (.of_small (by decide)) (by decide)
  obtain ⟨file, m', file', h2, h3, h4, h5⟩ := C107_cluster_colors (q := release) (fuel' := 0) AnyCodecExamples.setup_lawful
    sortByDist_isSort release_lawful ClusterExamples.img_addressable h1
  exact ⟨m, m', file, file', h1, h3, h2, h4, h5⟩

end FewerExamples
end Cniic
