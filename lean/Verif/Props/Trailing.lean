import Verif.Proofs.Trailing
import Verif.Props.AnyCodec

/-!
# Bytes after the end of a file (C74)
-/

namespace Cniic
open Spec SerSpec Kmeans Spec.Kmeans

/-- The codecs whose decoders paint along a traversal. -/
def AnyCodec.paints : AnyCodec → Bool
  | .delta | .hilbert _ => true
  | _ => false

/-- **C74**, every file: if one of the codecs cluster-colors, voronoi, hufman, zip decodes a file, whether or not it was
written by the encoder, then it decodes the file with further bytes after its end into the same image. -/
theorem C74_accepted {p : Setup} {c : AnyCodec} (hc : c.paints = false) {bytes : List UInt8} {out : RgbImage}
    (h : c.decode p bytes = .ok out) (rest : List UInt8) : c.decode p (bytes ++ rest) = .ok out := by
  cases c with
  | delta => cases hc
  | hilbert m => cases hc
  | clusterColors n => exact hufmanDecode_more h rest
  | hufman => exact hufmanDecode_more h rest
  | voronoi n => exact voronoiDecode_more h rest
  | zip z => exact zipDecode_more h rest

theorem paint_same {σ τ : Type} {next : Rd σ (Rgb UInt8)} {next' : Rd τ (Rgb UInt8)} (cs : List (Nat × Nat))
    (img : RgbImage) {s : σ} {t : τ} {xs : List (Rgb UInt8)} (hl : cs.length ≤ xs.length)
    (h : Supplies next s xs) (h' : Supplies next' t xs) : (paint next cs img s).1 = (paint next' cs img t).1 := by
  induction cs generalizing img s t xs with
  | nil => rfl
  | cons c cs ih =>
    obtain ⟨x, y⟩ := c
    cases xs with
    | nil => simp at hl
    | cons a xs =>
      obtain ⟨s', h1, h2⟩ := h
      obtain ⟨t', h1', h2'⟩ := h'
      rw [paint, paint, h1, h1']
      simp only
      cases img.put x y a with
      | none => rfl
      | some img => exact ih img (by simpa using hl) h2 h2'

/-- What hufman writes can be decoded. -/
theorem hufman_decodes (M : MinHeap (Rgb UInt8)) {ho : List (Rgb UInt8 × Nat) → List (Rgb UInt8 × Nat)}
    (hho : IsOrder ho) {img : Img} (ha : Addressable img) {bs : List UInt8}
    (hb : bytesOf (hufmanEncode M ho img) = .ok bs) : hufmanDecode bs = .ok img.toRgb := by
  by_cases hne : img.pixels = []
  · rw [C28_empty_image_panics M ho hho img hne] at hb; cases hb
  · obtain ⟨b, he, hd⟩ := C28_hufman_lossless M ho hho img ha hne
    rw [he.bytesOf] at hb
    cases hb
    exact hd

/-- **C74.** Each codec decodes the file it has written in the same way when any bytes follow the file. -/
theorem C74_written {p : Setup} (hp : p.Lawful) (hsort : IsSort p.out.sort) {fuel : Nat} {c : AnyCodec}
    {img : Img} (hs : VisitsOnce p.scan img.width.toNat img.height.toNat) (ha : Addressable img)
    {m : W Unit} (hm : c.encode p fuel img = .ok m) {bytes : List UInt8} (hb : bytesOf m = .ok bytes)
    (rest : List UInt8) : c.decode p (bytes ++ rest) = c.decode p bytes := by
  have ok : ∀ out, c.paints = false → c.decode p bytes = .ok out → c.decode p (bytes ++ rest) = c.decode p bytes := by
    intro out h1 h2
    rw [C74_accepted h1 h2, h2]
  have hlen : (p.scan img.width.toNat img.height.toNat).length ≤ (colorsAlong p.scan img).length := by
    rw [colorsAlong, List.length_map]
  cases c with
  | clusterColors n =>
    simp only [AnyCodec.encode, clusterColorsEncode] at hm
    obtain ⟨cl, hcl, hm⟩ := Ret.bind_ok.1 hm
    obtain ⟨red, hred, hm⟩ := Ret.bind_ok.1 hm
    split at hm
    · cases hm
      refine ok _ rfl (hufman_decodes p.heapRgb hp.orderRgb ?_ hb)
      show 3 * (red.width.toNat * red.height.toNat) < 2 ^ 63
      cases hr : reducedImg (reducedColors cl) img with
      | none => rw [hr] at hred; cases hred
      | some r =>
        rw [hr] at hred
        cases hred
        unfold reducedImg at hr
        rw [new_eq img ha] at hr
        simp only [Option.bind_eq_bind, Option.bind_some] at hr
        cases ho : optMap (lastLookup (reducedColors cl)) img.rgbPixels with
        | none => rw [ho] at hr; cases hr
        | some px => rw [ho] at hr; cases hr; exact ha
    · cases hm
  | voronoi n =>
    simp only [AnyCodec.encode, voronoiEncode] at hm
    obtain ⟨cl, hcl, hm⟩ := Ret.bind_ok.1 hm
    cases hm
    obtain ⟨hcount, -⟩ := C43_points (env := posEnv p.out p.chk) hsort hcl
    have hu : SerSpec.bytes (Usize.mk n) = le 8 (cl.intoIter.map (·.1)).length := by
      rw [List.length_map, hcount]; rfl
    have he : Emits Emits.errOnly (do
        ser img.width
        ser img.height
        ser (Usize.mk n)
        Proc.forEach ser (cl.intoIter.map (·.1))) (voronoiBytes img.width img.height (cl.intoIter.map (·.1))) () := by
      unfold voronoiBytes
      rw [← hu, List.append_assoc, List.append_assoc]
      exact Emits.bind (LawfulSer.emits img.width trivial) (Emits.bind (LawfulSer.emits img.height trivial)
        (Emits.bind (LawfulSer.emits (Usize.mk n) trivial) (Emits.forEach _ fun p _ => LawfulSer.emits p trivial)))
    rw [he.bytesOf] at hb
    cases hb
    have hl : (cl.intoIter.map (·.1)).length < 2 ^ 64 := by
      rw [List.length_map, hcount]; exact n.toNat_lt
    have h0 := voronoiDecode_eq p.chk img.width img.height (cl.intoIter.map (·.1)) [] ha hl
    rw [List.append_nil] at h0
    exact (voronoiDecode_eq p.chk img.width img.height _ rest ha hl).trans h0.symm
  | delta =>
    cases hm
    by_cases hne : img.pixels = []
    · rw [C39_delta_empty hp hs hne] at hb; cases hb
    · obtain ⟨tree, payload, he, ⟨ds, hd, hsup⟩, -⟩ := encodeAll_truncated p.heapDiff p.orderDiff hp.orderDiff _
        (delta_ne hs hne) fun (x : SignedColor) _ => signedColor_valid x
      have hall : Emits Emits.anyWay (deltaEncode p.chk p.scan p.heapDiff p.orderDiff img)
          (SerSpec.bytes (img.width, img.height) ++ (tree ++ payload)) () := by
        rw [deltaEncode_eq p.chk p.heapDiff p.orderDiff hs]
        exact Emits.bind (anyWay_of_err (emits_dims img)) he
      rw [hall.bytesOf] at hb
      cases hb
      obtain ⟨-, hd'⟩ := decodeAll_more hd rest
      simp only [AnyCodec.decode]
      rw [List.append_assoc, deltaDecode_eq p.chk p.scan img ha, deltaDecode_eq p.chk p.scan img ha, hd, hd']
      exact paint_same _ _ hlen (fromDiff_supplies p.chk black _ (supplies_more hsup rest))
        (fromDiff_supplies p.chk black _ hsup)
  | hilbert method =>
    cases hm
    cases method with
    | rle d =>
      have key : ∃ runs, (∀ r ∈ runs, 1 ≤ r.1.toNat) ∧
          (p.scan img.width.toNat img.height.toNat).length ≤ (expandRuns runs).length ∧
          Emits Emits.errOnly (hilbertEncode p.scan p.out.fl (.rle d) img)
            (SerSpec.bytes (img.width, img.height) ++ runs.flatMap runBytes) () := by
        cases hd : d.isZero with
        | true =>
          obtain ⟨runs, h1, h2, -, he⟩ := hilbertEncode_exact p.out.fl hs hd
          exact ⟨runs, h1, by rw [h2]; exact hlen, he⟩
        | false =>
          obtain ⟨groups, hg, he⟩ := hilbertEncode_approx hp.float hs hd
          obtain ⟨r1, r2⟩ := averaged_runs hg.sizes
          exact ⟨_, r2, by rw [r1, averaged_length, hg.flatten]; exact hlen, he⟩
      obtain ⟨runs, h1, h2, he⟩ := key
      rw [he.bytesOf] at hb
      cases hb
      simp only [AnyCodec.decode]
      rw [List.append_assoc, hilbertDecode_rle p.scan d img ha, hilbertDecode_rle p.scan d img ha]
      exact paint_same _ _ h2 (rleDecoder_supplies runs h1 rest) (by simpa using rleDecoder_supplies runs h1 [])
    | zip =>
      obtain ⟨syms, hpar, he⟩ := hilbertEncode_zip p.out.fl hs
      rw [he.bytesOf] at hb
      cases hb
      simp only [AnyCodec.decode]
      rw [List.append_assoc, hilbertDecode_zip p.scan img ha, hilbertDecode_zip p.scan img ha]
      have h0 := meaning_more oneByteSeqs (symBytes syms) rest
      have h1 := dict_stops (symBytes syms)
      have h2 := dict_stops (symBytes syms ++ rest)
      rw [hpar.meaning goodDict_start.le] at h0 h1
      obtain ⟨q, hq⟩ := h0
      simp only at hq h1
      rw [← hq] at h2
      exact paint_same _ _ hlen (deser_supplies _ h2) (deser_supplies (q := []) _ (by simpa using h1))
  | hufman =>
    cases hm
    exact ok _ rfl (hufman_decodes p.heapRgb hp.orderRgb ha hb)
  | zip z =>
    have hz : (AnyCodec.zip z).isLossless = true := by cases z <;> rfl
    exact ok _ (by cases z <;> rfl) (C39_lossless_flag hp hz hs ha hm hb)

/-- **C74**, the other codecs: the decoders that paint accept an incomplete file, so bytes after its end may change
the image.  Here the file consists of the dimensions only. -/
theorem C74_incomplete (d : F64) :
    hilbertDecode cells (.rle d) [1, 0, 0, 0, 1, 0, 0, 0] = .ok { width := 1, height := 1, pixels := [⟨0, 0, 0⟩] } ∧
    hilbertDecode cells (.rle d) ([1, 0, 0, 0, 1, 0, 0, 0] ++ [1, 3, 0, 0, 0, 0, 0, 0, 0, 7, 8, 9]) =
      .ok { width := 1, height := 1, pixels := [⟨7, 8, 9⟩] } ∧
    hilbertDecode cells (.rle d) ([1, 0, 0, 0, 1, 0, 0, 0] ++ [0]) = .panic := by
  refine ⟨rfl, rfl, rfl⟩

/-! ## Examples -/

/-- A file of two pixels with a one-symbol tree, not one that the encoder writes (it has a byte too many). -/
example : hufmanDecode ([2, 0, 0, 0, 1, 0, 0, 0, 0, 3, 0, 0, 0, 0, 0, 0, 0, 1, 2, 3] ++ [77]) =
    .ok { width := 2, height := 1, pixels := [⟨1, 2, 3⟩, ⟨1, 2, 3⟩] } :=
  hufmanDecode_more (by rfl) _

open AnyCodecExamples in
/-- The hypotheses are met by each of the lossless codecs; the file is followed by two bytes. -/
example : ∀ c ∈ [AnyCodec.delta, .hilbert (.rle (.fin 0)), .hilbert .zip, .hufman, .zip .dict],
    ∃ m bytes, c.encode setup 0 example43 = .ok m ∧ bytesOf m = .ok bytes ∧
      c.decode setup (bytes ++ [0, 0]) = .ok example43.toRgb := by
  intro c hc
  have ha : Addressable example43 := by unfold Addressable; decide
  obtain ⟨m, bytes, h1, h2, h3⟩ := C39_completes setup_lawful 0 (c := c) (img := example43) (by
    simp only [List.mem_cons, List.not_mem_nil, or_false] at hc
    rcases hc with rfl | rfl | rfl | rfl | rfl <;> rfl) (by rintro rfl; simp at hc) (.refl _) ha (by decide)
  exact ⟨m, bytes, h1, h2, by rw [C74_written setup_lawful sortByDist_isSort (.refl _) ha h1 h2, h3]⟩

end Cniic
