import Verif.Proofs.Trunc
import Verif.Proofs.Hilbert
import Verif.Props.ZipBack

/-!
# Properties of the codecs (C28 - C34, C37, C52)

A traversal (`scan`) is any function that visits each cell of the image exactly once.  `M`, `ho` are as
in the properties of Huffman coding.
-/

namespace Cniic
open Spec SerSpec

/-! ## Lossless codecs -/

/-- **C28.** The hufman codec is lossless on every image with at least one pixel. -/
theorem C28_hufman_lossless (M : MinHeap (Rgb UInt8)) (ho : List (Rgb UInt8 × Nat) → List (Rgb UInt8 × Nat))
    (hho : IsOrder ho) (img : Img) (ha : Addressable img) (hne : img.pixels ≠ []) :
    ∃ bytes, Emits Emits.anyWay (hufmanEncode M ho img) bytes () ∧ hufmanDecode bytes = .ok img.toRgb := by
  have hpx : img.rgbPixels ≠ [] := by simpa [Img.rgbPixels] using hne
  obtain ⟨tree, payload, he, ⟨ds, hd, hs⟩, _⟩ :=
    encodeAll_truncated M ho hho img.rgbPixels hpx fun x _ => rgb_valid x
  refine ⟨_, Emits.bind (anyWay_of_err (emits_dims img)) he, ?_⟩
  rw [hufmanDecode_eq img ha, hd]
  simp only
  rw [← rgbPixels_length img, hufmanFill_supplies hs]
  rfl

/-- On an image without pixels encoding panics. -/
theorem C28_empty_image_panics (M : MinHeap (Rgb UInt8))
    (ho : List (Rgb UInt8 × Nat) → List (Rgb UInt8 × Nat)) (hho : IsOrder ho) (img : Img)
    (he : img.pixels = []) : bytesOf (hufmanEncode M ho img) = .panic := by
  have hpx : img.rgbPixels = [] := by simp [Img.rgbPixels, he]
  obtain ⟨n, hn⟩ := (emits_dims img).run_mem []
  have h0 : ho (countFreqs []) = [] := (hho _).eq_nil
  have hlen : M.len (M.fromIter []) = 0 := by
    rw [M.len_eq, (M.contents_fromIter []).eq_nil]; rfl
  unfold bytesOf hufmanEncode
  rw [Proc.bind_ok hn, hpx]
  simp [encodeAll, build, buildDec, h0, hlen]

/-- **C29.** The delta codec is lossless on every image with at least one pixel, with and without
overflow checks. -/
theorem C29_delta_lossless (chk : Bool) (scan : Scan) (M : MinHeap SignedColor)
    (ho : List (SignedColor × Nat) → List (SignedColor × Nat)) (hho : IsOrder ho) (img : Img)
    (hs : VisitsOnce scan img.width.toNat img.height.toNat) (ha : Addressable img)
    (hne : img.pixels ≠ []) :
    ∃ bytes, Emits Emits.anyWay (deltaEncode chk scan M ho img) bytes () ∧
      deltaDecode chk scan bytes = .ok img.toRgb := by
  have hd : diffs black (colorsAlong scan img) ≠ [] := by
    intro h
    have h1 := congrArg List.length h
    rw [diffs_length, colorsAlong, List.length_map, linearize_length hs, ← img.size] at h1
    exact hne (List.length_eq_zero_iff.1 h1)
  obtain ⟨tree, payload, he, ⟨ds, hd, hsup⟩, _⟩ :=
    encodeAll_truncated M ho hho _ hd fun (x : SignedColor) _ => signedColor_valid x
  rw [deltaEncode_eq chk M ho hs]
  refine ⟨_, Emits.bind (anyWay_of_err (emits_dims img)) he, ?_⟩
  rw [deltaDecode_eq chk scan img ha, hd]
  exact paint_all hs _ (fromDiff_supplies chk black _ hsup)

/-- **C29**, the differences: each difference of two channel values fits in 16 bits, so both modes of
compilation write the same file. -/
theorem C29_differences_fit (x y : UInt8) :
    (Int16.ofNat x.toNat - Int16.ofNat y.toNat).toInt = (x.toNat : Int) - y.toNat ∧
    -255 ≤ (x.toNat : Int) - y.toNat ∧ (x.toNat : Int) - y.toNat ≤ 255 := by
  refine ⟨toInt_sub_u8 x y, ?_, ?_⟩ <;>
  · have := x.toNat_lt; have := y.toNat_lt; omega

theorem C29_modes_agree (scan : Scan) (M : MinHeap SignedColor)
    (ho : List (SignedColor × Nat) → List (SignedColor × Nat)) (img : Img)
    (hs : VisitsOnce scan img.width.toNat img.height.toNat) :
    deltaEncode true scan M ho img = deltaEncode false scan M ho img := by
  rw [deltaEncode_eq true M ho hs, deltaEncode_eq false M ho hs]

/-- **C30.** The hilbert codec with run-length encoding and zero allowance is lossless on every image. -/
theorem C30_hilbert_rle_lossless (scan : Scan) (fl : FloatOps) (d : F64) (hd : d.isZero = true)
    (img : Img) (hs : VisitsOnce scan img.width.toNat img.height.toNat) (ha : Addressable img) :
    ∃ bytes, Emits Emits.errOnly (hilbertEncode scan fl (.rle d) img) bytes () ∧
      hilbertDecode scan (.rle d) bytes = .ok img.toRgb := by
  obtain ⟨runs, h1, h2, _, he⟩ := hilbertEncode_exact fl hs hd
  refine ⟨_, he, ?_⟩
  rw [hilbertDecode_rle scan d img ha]
  apply paint_all hs
  have := (rleDecoder_yields runs h1).supplies
  rw [h2] at this
  exact this

/-- **C31.** The hilbert codec with dictionary compression is lossless on every image. -/
theorem C31_hilbert_zip_lossless (scan : Scan) (fl : FloatOps) (img : Img)
    (hs : VisitsOnce scan img.width.toNat img.height.toNat) (ha : Addressable img) :
    ∃ bytes, Emits Emits.errOnly (hilbertEncode scan fl .zip img) bytes () ∧
      hilbertDecode scan .zip bytes = .ok img.toRgb := by
  obtain ⟨syms, hp, he⟩ := hilbertEncode_zip fl hs
  refine ⟨_, he, ?_⟩
  rw [hilbertDecode_zip scan img ha]
  apply paint_all hs
  have h := zipDictDecode_outcome (symBytes syms)
  rw [hp.meaning goodDict_start.le] at h
  exact (yields_deserStream _ (fun x _ => rgb_valid x) rgb_de_nil h).supplies

/-- **C32.** The zip(dict) codec is lossless on every image. -/
theorem C32_zip_dict_lossless (cap : Back.Caps) (img : Img) (ha : Addressable img) :
    ∃ bytes, Emits Emits.errOnly (zipEncode cap .dict img) bytes () ∧
      zipDecode .dict bytes = .ok img.toRgb := by
  obtain ⟨syms, hp, he⟩ := zipDictEncode_spec (zipData img)
  rw [zipEncode_dict]
  refine ⟨_, he, ?_⟩
  have h := zipDictDecode_outcome (symBytes syms)
  rw [hp.meaning goodDict_start.le] at h
  exact rebuildImage_yields img ha h

/-- **C33.** The zip(back) codec is lossless whenever encoding completes. -/
theorem C33_zip_back_lossless (cap : Back.Caps) (hcap : ∀ i, Back.repBufInit ≤ cap i) (img : Img)
    (ha : Addressable img) (bytes : List UInt8) (h : bytesOf (zipEncode cap .back img) = .ok bytes) :
    zipDecode .back bytes = .ok img.toRgb := by
  rw [zipEncode_back] at h
  obtain ⟨syms, hf, he⟩ := Back.zipBackEncode_spec (show 0 < Back.ringSize by decide) hcap (zipData img)
  rw [he] at h
  obtain ⟨hfit, rfl⟩ := Back.bytesOf_syms h
  have := Back.yields_meaning (show 0 < Back.ringSize by decide) syms hfit (Factor.meaning hf [] rfl)
    (Factor.nonempty hf) (Back.DecInv.new Back.ringSize _)
  exact rebuildImage_yields img ha (by simpa using this)

/-- **C33**, images of up to 2978 pixels can always be encoded. -/
theorem C33_small_images (cap : Back.Caps) (hcap : ∀ i, Back.repBufInit ≤ cap i) (img : Img)
    (hl : img.pixels.length ≤ 2978) :
    ∃ bytes, Emits Emits.errOnly (zipEncode cap .back img) bytes () := by
  rw [zipEncode_back]
  obtain ⟨syms, hf, he⟩ := Back.zipBackEncode_spec (show 0 < Back.ringSize by decide) hcap (zipData img)
  have hlen : ([] : List UInt8).length + (zipData img).length ≤ 32767 := by
    simp only [zipData, List.length_append, List.length_nil, dims_length, rgbs_bytes_length,
      Img.rgbPixels, List.length_map]
    omega
  exact ⟨_, by rw [he]; exact Back.emits_syms (hf.fits (by decide) hlen)⟩

/-- **C54.** Encoding with zip(back) panics on every image of a single colour that has 8937 pixels or
more (for example 100 × 90). -/
theorem C54_zip_back_uniform_images (cap : Back.Caps) (hcap : ∀ i, Back.repBufInit ≤ cap i) (img : Img)
    (c : Rgb UInt8) (hc : img.rgbPixels = List.replicate img.pixels.length c)
    (hn : 8937 ≤ img.pixels.length) : bytesOf (zipEncode cap .back img) = .panic := by
  rw [zipEncode_back]
  obtain ⟨syms, hf, _, hp⟩ := C22_completes_iff cap hcap (zipData img)
  have hlen : (zipData img).length = 8 + 11 * img.pixels.length := by
    rw [zipData, List.length_append, dims_length, hc, rgbs_bytes_length, List.length_replicate]
  have hflat : ∀ n i, i < 11 * n →
      ((List.replicate n c).flatMap bytes)[i]? = (bytes c)[i % 11]? := by
    intro n
    induction n with
    | zero => intro i hi; omega
    | succ n ih =>
      intro i hi
      rw [List.replicate_succ, List.flatMap_cons]
      by_cases h : i < 11
      · rw [List.getElem?_append_left (by rw [rgb_bytes_length]; exact h), Nat.mod_eq_of_lt h]
      · rw [List.getElem?_append_right (by rw [rgb_bytes_length]; omega), rgb_bytes_length,
          ih _ (by omega)]
        congr 1
        omega
  refine hp (Back.factor_periodic (X := zipData img) (s := 8) (back := 32769) (by decide) (by decide) ?_ (by omega) hf
    rfl (by simp))
  intro i hi hlt
  rw [hlen] at hlt
  rw [zipData, hc, List.getElem?_append_right (by rw [dims_length]; exact hi),
    List.getElem?_append_right (by rw [dims_length]; omega), dims_length,
    hflat _ _ (by omega), hflat _ _ (by omega)]
  congr 1
  omega

/-- A white image of 8937 pixels. -/
example : ∃ img : Img, img.rgbPixels = List.replicate img.pixels.length ⟨255, 255, 255⟩ ∧
    8937 ≤ img.pixels.length :=
  ⟨{ width := 8937, height := 1, pixels := List.replicate 8937 ⟨255, 255, 255, 255⟩
     size := by rw [List.length_replicate]; rfl },
    by simp only [Img.rgbPixels, List.map_replicate, List.length_replicate]; rfl,
    by simp only [List.length_replicate]; decide⟩

/-! ## Runs -/

/-- **C34.** The runs have counts between 1 and 255, stand for exactly the input, and two neighbouring
runs have different values unless the first one is full.  Then the iterator ends for good. -/
theorem C34_runs {T : Type} [DecidableEq T] (xs : List T) :
    ∃ runs, Yields (AbstractRle.next Exact) (rleExact xs) runs ∧
      (∀ r ∈ runs, 1 ≤ r.1.toNat ∧ r.1.toNat ≤ 255) ∧ expandRuns runs = xs ∧ Maximal runs := by
  cases xs with
  | nil =>
    refine ⟨[], ⟨fun t => t.rest = [], rfl, ?_⟩, by simp, rfl, trivial⟩
    intro t ht
    rw [rle_next_nil ht]
    exact ⟨rfl, by obtain ⟨i, c, l⟩ := t; cases l <;> simp [AbstractRle.rest] at ht ⊢; exact ht⟩
  | cons d xs =>
    obtain ⟨groups, hg, hy⟩ := rle_groups (exact_represents d) (d :: xs) none
    obtain ⟨h1, h2, h3⟩ := exact_runs (d := d) hg
    refine ⟨_, hy, fun r hr => ⟨h1 r hr, ?_⟩, h2, h3⟩
    have := r.1.toNat_lt; omega

/-- **C34**, no other sequence of runs has these properties. -/
theorem C34_unique {T : Type} [DecidableEq T] (xs : List T) (runs : List (UInt8 × T))
    (h1 : ∀ r ∈ runs, 1 ≤ r.1.toNat) (h2 : expandRuns runs = xs) (h3 : Maximal runs) :
    Yields (AbstractRle.next Exact) (rleExact xs) runs := by
  obtain ⟨runs', hy, h1', h2', h3'⟩ := C34_runs xs
  rw [maximal_runs_unique h1 (fun r hr => (h1' r hr).1) h3 h3' (h2.trans h2'.symm)]
  exact hy

/-- The runs of 257 equal values, then two others. -/
example : Yields (AbstractRle.next Exact)
    (rleExact (List.replicate 257 'a' ++ ['b', 'a'])) [(255, 'a'), (2, 'a'), (1, 'b'), (1, 'a')] := by
  apply C34_unique
  · decide
  · decide +kernel
  · simp [Maximal]

/-! ## Truncated files -/

/-- **C37**, hufman: a strict prefix of a file is rejected. -/
theorem C37_hufman (M : MinHeap (Rgb UInt8)) (ho : List (Rgb UInt8 × Nat) → List (Rgb UInt8 × Nat))
    (hho : IsOrder ho) (img : Img) (ha : Addressable img) (hne : img.pixels ≠ []) (file : List UInt8)
    (hf : bytesOf (hufmanEncode M ho img) = .ok file) (p : List UInt8) (hp : p <+: file) (hpn : p ≠ file) :
    hufmanDecode p = .err () := by
  have hpx : img.rgbPixels ≠ [] := by simpa [Img.rgbPixels] using hne
  obtain ⟨tree, payload, he, _, htree, hpay⟩ :=
    encodeAll_truncated M ho hho img.rgbPixels hpx fun x _ => rgb_valid x
  have hall : Emits Emits.anyWay (hufmanEncode M ho img) _ () :=
    Emits.bind (anyWay_of_err (emits_dims img)) he
  rw [hall.bytesOf] at hf
  cases hf
  rcases prefix_split hp hpn with ⟨h1, h2⟩ | ⟨q, rfl, hq, hqn⟩
  · exact hufmanDecode_short img h1 h2
  · rw [hufmanDecode_eq img ha]
    rcases prefix_split hq hqn with ⟨h1, h2⟩ | ⟨q', rfl, hq', hqn'⟩
    · have := htree q h1 h2
      rcases hd : (decodeAll q : Ret Unit (DecStream (Rgb UInt8)) × List UInt8) with ⟨_ | _ | _, _⟩ <;>
        rw [hd] at this <;> simp at this
    · obtain ⟨ds, m, hd, hm, hend⟩ := hpay q' hq' hqn'
      rw [hd]
      simp only
      rw [← rgbPixels_length img, hufmanFill_short _ hend]
      rw [List.length_take]; omega

/-- **C37**, zip(dict): a strict prefix of a file is never decoded into an image. -/
theorem C37_zip_dict (cap : Back.Caps) (img : Img) (ha : Addressable img) (file : List UInt8)
    (hf : bytesOf (zipEncode cap .dict img) = .ok file) (p : List UInt8) (hp : p <+: file)
    (hpn : p ≠ file) (x : RgbImage) : zipDecode .dict p ≠ .ok x := by
  obtain ⟨syms, hpar, he⟩ := zipDictEncode_spec (zipData img)
  rw [zipEncode_dict, he.bytesOf] at hf
  cases hf
  obtain ⟨h1, h2, _⟩ := parse_truncated hpar goodDict_start.le hp hpn
  have ho := zipDictDecode_outcome p
  unfold zipDecode
  unfold Outcome at ho
  split at ho
  · have := rebuildImage_ends img ha h1 h2 ho.endsAfter
    simp only
    rw [this]; simp
  · exact rebuildImage_panics img ha h1 h2 ho x

/-- **C37**, zip(back): likewise. -/
theorem C37_zip_back (cap : Back.Caps) (hcap : ∀ i, Back.repBufInit ≤ cap i) (img : Img)
    (ha : Addressable img) (file : List UInt8) (hf : bytesOf (zipEncode cap .back img) = .ok file)
    (p : List UInt8) (hp : p <+: file) (hpn : p ≠ file) (x : RgbImage) : zipDecode .back p ≠ .ok x := by
  rw [zipEncode_back] at hf
  obtain ⟨syms, hfac, he⟩ := Back.zipBackEncode_spec (show 0 < Back.ringSize by decide) hcap (zipData img)
  rw [he] at hf
  obtain ⟨hfit, rfl⟩ := Back.bytesOf_syms hf
  obtain ⟨out, e, hr, h1, h2⟩ := reads_truncated syms hfit (Factor.nonempty hfac)
    (Factor.meaning hfac [] rfl) hp hpn
  have ho := Back.reads_outcome (show 0 < Back.ringSize by decide) hr (Back.DecInv.new Back.ringSize p)
  simp only [List.nil_append] at ho
  unfold zipDecode
  cases e with
  | none =>
    have := rebuildImage_ends img ha h1 h2 (ho.1 rfl)
    simp only
    rw [this]; simp
  | panic => exact rebuildImage_panics img ha h1 h2 (ho.2 rfl) x

/-- **C37**, hilbert(rle): the claim fails.  A file that is cut between two runs is decoded into an image
whose missing pixels are black; one that is cut inside a run makes the decoder panic; only a file without
complete dimensions is rejected. -/
theorem C37_hilbert_rle (scan : Scan) (fl : FloatOps) (d : F64) (hd : d.isZero = true) (img : Img)
    (hs : VisitsOnce scan img.width.toNat img.height.toNat) (ha : Addressable img) (file : List UInt8)
    (hf : bytesOf (hilbertEncode scan fl (.rle d) img) = .ok file) (p : List UInt8) (hp : p <+: file)
    (hpn : p ≠ file) :
    (p.length < 8 → hilbertDecode scan (.rle d) p = .err ()) ∧
    (8 ≤ p.length → p.length % 12 = 8 → ∃ m, m < img.pixels.length ∧
      hilbertDecode scan (.rle d) p = .ok (restoredPart scan img m)) ∧
    (8 ≤ p.length → p.length % 12 ≠ 8 → hilbertDecode scan (.rle d) p = .panic) := by
  obtain ⟨runs, h1, h2, h3, he⟩ := hilbertEncode_exact fl hs hd
  rw [he.bytesOf] at hf
  cases hf
  rcases prefix_split hp hpn with ⟨h4, h5⟩ | ⟨q, rfl, hq, hqn⟩
  · have hlt : p.length < 8 := by
      rcases Nat.lt_or_ge p.length 8 with h | h
      · exact h
      · exact absurd (h4.eq_of_length_le (by rw [dims_length]; exact h)) h5
    exact ⟨fun _ => hilbertDecode_short scan _ img h4 h5, by omega, by omega⟩
  · obtain ⟨m, r, q', hm, hr, rfl, hq', hqn'⟩ := flatMap_prefix runs hq hqn
    have hl : ((runs.take m).flatMap runBytes ++ q').length = 12 * m + q'.length := by
      rw [List.length_append, runs_bytes_length, List.length_take, Nat.min_eq_left (by omega)]
    have hq12 : q'.length < 12 := by
      have := hq'.length_le
      rw [runBytes_length] at this
      rcases Nat.lt_or_ge q'.length 12 with h | h
      · exact h
      · exact absurd (hq'.eq_of_length_le (by rw [runBytes_length]; exact h)) hqn'
    have hrm : r ∈ runs := List.mem_of_getElem? hr
    have hexp : expandRuns runs = expandRuns (runs.take m) ++ expandRuns (runs.drop m) := by
      rw [expandRuns, expandRuns, expandRuns, ← List.flatMap_append, List.take_append_drop]
    have hpos : 0 < (expandRuns (runs.drop m)).length := by
      rw [List.drop_eq_getElem_cons hm, expandRuns_cons, List.length_append, List.length_replicate]
      have := h1 _ (List.getElem_mem hm)
      omega
    have hlen : (expandRuns (runs.take m)).length < img.width.toNat * img.height.toNat := by
      have := congrArg List.length hexp
      rw [h2, colorsAlong, List.length_map, linearize_length hs, List.length_append] at this
      omega
    have hpre : expandRuns (runs.take m) =
        ((scan img.width.toNat img.height.toNat).take (expandRuns (runs.take m)).length).map
          (colorAt img) := by
      rw [List.map_take, show List.map (colorAt img) _ = colorsAlong scan img from rfl, ← h2, hexp,
        List.take_left]
    simp only [List.length_append, dims_length] at hl ⊢
    rw [hilbertDecode_rle scan d img ha]
    refine ⟨by omega, fun _ h8 => ?_, fun _ h8 => ?_⟩
    · obtain rfl : q' = [] := List.length_eq_zero_iff.1 (by omega)
      refine ⟨_, by rw [img.size]; exact hlen, ?_⟩
      apply paint_part hs
      rw [← hpre, List.append_nil]
      exact rleDecoder_endsAfter _ fun r hr => h1 r (List.mem_of_mem_take hr)
    · apply paint_panics hs _ _ hlen
      rw [← hpre]
      exact rleDecoder_panicsAfter _ (fun r hr => h1 r (List.mem_of_mem_take hr)) r (h1 r hrm) q' hq'
        (by rintro rfl; simp at h8 hl; omega) hqn'

/-- **C37**, hilbert(zip): the claim fails.  If the file is cut after the first symbol of a pair or later
within the pair, the decoder panics; otherwise the missing pixels are black. -/
theorem C37_hilbert_zip (scan : Scan) (fl : FloatOps) (img : Img)
    (hs : VisitsOnce scan img.width.toNat img.height.toNat) (ha : Addressable img) (file : List UInt8)
    (hf : bytesOf (hilbertEncode scan fl .zip img) = .ok file) (p : List UInt8) (hp : p <+: file)
    (hpn : p ≠ file) :
    (p.length < 8 → hilbertDecode scan .zip p = .err ()) ∧
    (8 ≤ p.length → p.length % 4 < 2 → ∃ m, m < img.pixels.length ∧
      hilbertDecode scan .zip p = .ok (restoredPart scan img m)) ∧
    (8 ≤ p.length → 2 ≤ p.length % 4 → hilbertDecode scan .zip p = .panic) := by
  obtain ⟨syms, hpar, he⟩ := hilbertEncode_zip fl hs
  rw [he.bytesOf] at hf
  cases hf
  rcases prefix_split hp hpn with ⟨h4, h5⟩ | ⟨q, rfl, hq, hqn⟩
  · have hlt : p.length < 8 := by
      rcases Nat.lt_or_ge p.length 8 with h | h
      · exact h
      · exact absurd (h4.eq_of_length_le (by rw [dims_length]; exact h)) h5
    exact ⟨fun _ => hilbertDecode_short scan _ img h4 h5, by omega, by omega⟩
  · obtain ⟨h1, h2, h3⟩ := parse_truncated hpar goodDict_start.le hq hqn
    obtain ⟨m, c, q', hm, hc, hq', hqc, hqcn⟩ := flatMap_prefix _ h1 h2
    have ho := zipDictDecode_outcome q
    rw [h3, hq'] at ho
    rw [colorsAlong, List.length_map, linearize_length hs] at hm
    have hpre : (colorsAlong scan img).take m =
        ((scan img.width.toNat img.height.toNat).take m).map (colorAt img) := by
      rw [List.map_take]; rfl
    have hlen : (bytes (img.width, img.height) ++ q).length = 8 + q.length := by
      rw [List.length_append, dims_length]
    rw [hlen, hilbertDecode_zip scan img ha]
    refine ⟨by omega, fun _ h8 => ⟨m, by rw [img.size]; exact hm, ?_⟩, fun _ h8 => ?_⟩
    · rw [decide_eq_true (by omega)] at ho
      apply paint_part hs
      rw [← hpre]
      exact deser_endsAfter _ (fun x _ => rgb_valid x) (de_truncated (rgb_valid c) hqc hqcn) ho
    · rw [decide_eq_false (by omega)] at ho
      apply paint_panics hs _ m hm
      rw [← hpre]
      exact deser_panicsAfter _ hqc hqcn ho

/-- **C37**, delta: the claim fails.  The file consists of the dimensions, a tree and a payload.  Cut
inside the payload it is decoded into an image whose missing pixels are black; cut inside the tree it
makes the decoder panic; only without complete dimensions it is rejected. -/
theorem C37_delta (chk : Bool) (scan : Scan) (M : MinHeap SignedColor)
    (ho : List (SignedColor × Nat) → List (SignedColor × Nat)) (hho : IsOrder ho) (img : Img)
    (hs : VisitsOnce scan img.width.toNat img.height.toNat) (ha : Addressable img)
    (hne : img.pixels ≠ []) :
    ∃ dims tree payload, bytesOf (deltaEncode chk scan M ho img) = .ok (dims ++ tree ++ payload) ∧
      dims.length = 8 ∧
      (∀ p, p <+: dims → p ≠ dims → deltaDecode chk scan p = .err ()) ∧
      (∀ p, p <+: tree → p ≠ tree → deltaDecode chk scan (dims ++ p) = .panic) ∧
      (∀ p, p <+: payload → p ≠ payload → ∃ m, m < img.pixels.length ∧
        deltaDecode chk scan (dims ++ tree ++ p) = .ok (restoredPart scan img m)) := by
  have hlen : (diffs black (colorsAlong scan img)).length = img.pixels.length := by
    rw [diffs_length, colorsAlong, List.length_map, linearize_length hs, ← img.size]
  have hd : diffs black (colorsAlong scan img) ≠ [] := by
    intro h
    rw [h] at hlen
    exact hne (List.length_eq_zero_iff.1 hlen.symm)
  obtain ⟨tree, payload, he, _, htree, hpay⟩ :=
    encodeAll_truncated M ho hho _ hd fun (x : SignedColor) _ => signedColor_valid x
  refine ⟨bytes (img.width, img.height), tree, payload, ?_, dims_length _ _,
    fun p hp hpn => deltaDecode_short chk scan img hp hpn, ?_, ?_⟩
  · rw [deltaEncode_eq chk M ho hs, List.append_assoc]
    exact (Emits.bind (anyWay_of_err (emits_dims img)) he).bytesOf
  · intro p hp hpn
    rw [deltaDecode_eq chk scan img ha]
    have := htree p hp hpn
    rcases hd : (decodeAll p : Ret Unit (DecStream SignedColor) × List UInt8) with ⟨_ | _ | _, _⟩ <;>
      rw [hd] at this <;> simp at this
  · intro p hp hpn
    obtain ⟨ds, m, hd, hm, hend⟩ := hpay p hp hpn
    refine ⟨m, by rw [← hlen]; exact hm, ?_⟩
    rw [List.append_assoc, deltaDecode_eq chk scan img ha, hd]
    apply paint_part hs
    rw [diffs_take] at hend
    have := fromDiff_endsAfter chk black _ hend
    rw [List.map_take]
    exact this

/-! ## Square traversals -/

/-- **C52**, `linearize`: the default linearization visits each pixel of the image exactly once. -/
theorem C52_linearize (scan : Scan) (img : Img)
    (hs : VisitsOnce scan img.width.toNat img.height.toNat) :
    ∃ ps, linearize scan img = some ps ∧ ps.Perm img.pixels := getAll_perm img _ hs

/-- **C52**, `linearize_large`: each pixel of the image is visited exactly once, in the order of the
traversal of the smallest square that contains the image and whose side is a power of two. -/
theorem C52_linearize_large (chk : Bool) (img : Img) (hw : img.width.toNat ≤ 2 ^ 31)
    (hh : img.height.toNat ≤ 2 ^ 31) :
    ∃ k, (∀ j, k ≤ j ↔ img.width.toNat ≤ 2 ^ j ∧ img.height.toNat ≤ 2 ^ j) ∧
      ∀ scan, VisitsOnce scan (2 ^ k) (2 ^ k) → ∃ ps, linearizeLarge scan chk img = some ps ∧
        ps.Perm img.pixels ∧
        ((scan (2 ^ k) (2 ^ k)).filter fun c => c.1 < img.width.toNat ∧ c.2 < img.height.toNat).map
          (fun c => img.getPixel c.1 c.2) = ps.map some := by
  obtain ⟨a, a1, a2, a3, a4⟩ := nextPowerOfTwo_spec chk hw
  obtain ⟨b, b1, b2, b3, b4⟩ := nextPowerOfTwo_spec chk hh
  have hmax : max (2 ^ a) (2 ^ b) = 2 ^ max a b := by
    rcases Nat.le_total a b with h | h
    · rw [Nat.max_eq_right h, Nat.max_eq_right (Nat.pow_le_pow_right (by omega) h)]
    · rw [Nat.max_eq_left h, Nat.max_eq_left (Nat.pow_le_pow_right (by omega) h)]
  have hwk : img.width.toNat ≤ 2 ^ max a b :=
    Nat.le_trans a3 (Nat.pow_le_pow_right (by omega) (Nat.le_max_left _ _))
  have hhk : img.height.toNat ≤ 2 ^ max a b :=
    Nat.le_trans b3 (Nat.pow_le_pow_right (by omega) (Nat.le_max_right _ _))
  refine ⟨max a b, fun j => ⟨fun h => ?_, fun h => ?_⟩, fun scan hs => ?_⟩
  · have := Nat.pow_le_pow_right (n := 2) (by omega) h
    omega
  · have h1 := (Nat.pow_le_pow_iff_right (a := 2) (by omega)).1 (pow2_le_of_le a4 h.1)
    have h2 := (Nat.pow_le_pow_iff_right (a := 2) (by omega)).1 (pow2_le_of_le b4 h.2)
    omega
  · unfold linearizeLarge
    rw [a2, b2]
    simp only [hmax]
    obtain ⟨ps, h1, h2⟩ := getAll_perm img _ ((hs.filter _).trans (filter_cells hwk hhk))
    exact ⟨ps, h1, h2, getAll_get _ _ _ h1⟩

/-- **C52**, larger dimensions: with overflow checks `linearize_large` panics. -/
theorem C52_linearize_large_overflow (scan : Scan) (img : Img)
    (h : 2 ^ 31 < img.width.toNat ∨ 2 ^ 31 < img.height.toNat) :
    linearizeLarge scan true img = none := by
  unfold linearizeLarge
  have h1 := img.width.toNat_lt
  have h2 := img.height.toNat_lt
  rcases h with h | h
  · rw [nextPowerOfTwo_large h h1]
    simp
  · rw [nextPowerOfTwo_large h h2]
    cases nextPowerOfTwo true img.width.toNat <;> simp

/-- **C52**, `linearize_small`, both dimensions at least 2: the square traversed has as its side the
largest power of two that is strictly smaller than both dimensions.  So it lies inside the image, and
when the smaller dimension is a power of two its side is only half of it. -/
theorem C52_linearize_small (chk : Bool) (img : Img) (hw : img.width.toNat ≤ 2 ^ 31)
    (hh : img.height.toNat ≤ 2 ^ 31) (hw2 : 2 ≤ img.width.toNat) (hh2 : 2 ≤ img.height.toNat) :
    ∃ k, (∀ j, j ≤ k ↔ 2 ^ j < img.width.toNat ∧ 2 ^ j < img.height.toNat) ∧
      ∀ scan, VisitsOnce scan (2 ^ k) (2 ^ k) → ∃ ps, linearizeSmall scan chk img = some ps ∧
        (scan (2 ^ k) (2 ^ k)).map (fun c => img.getPixel c.1 c.2) = ps.map some := by
  obtain ⟨a, a1, a2, a3, a4⟩ := nextPowerOfTwo_spec chk hw
  obtain ⟨b, b1, b2, b3, b4⟩ := nextPowerOfTwo_spec chk hh
  obtain ⟨a, rfl⟩ : ∃ i, a = i + 1 := ⟨a - 1, by
    rcases Nat.eq_zero_or_pos a with rfl | h
    · simp at a3; omega
    · omega⟩
  obtain ⟨b, rfl⟩ : ∃ i, b = i + 1 := ⟨b - 1, by
    rcases Nat.eq_zero_or_pos b with rfl | h
    · simp at b3; omega
    · omega⟩
  simp only [Nat.add_sub_cancel, Nat.add_eq_zero_iff, Nat.one_ne_zero, and_false, false_or] at a4 b4
  have hmin : min (2 ^ (a + 1) / 2) (2 ^ (b + 1) / 2) = 2 ^ min a b := by
    rw [Nat.pow_succ, Nat.pow_succ, Nat.mul_div_cancel _ (by omega), Nat.mul_div_cancel _ (by omega)]
    rcases Nat.le_total a b with h | h
    · rw [Nat.min_eq_left h, Nat.min_eq_left (Nat.pow_le_pow_right (by omega) h)]
    · rw [Nat.min_eq_right h, Nat.min_eq_right (Nat.pow_le_pow_right (by omega) h)]
  have hin : ∀ j, j ≤ min a b → 2 ^ j < img.width.toNat ∧ 2 ^ j < img.height.toNat := by
    intro j hj
    have h1 := Nat.pow_le_pow_right (n := 2) (by omega) (Nat.le_trans hj (Nat.min_le_left _ _))
    have h2 := Nat.pow_le_pow_right (n := 2) (by omega) (Nat.le_trans hj (Nat.min_le_right _ _))
    omega
  refine ⟨min a b, fun j => ⟨hin j, fun h => ?_⟩, fun scan hs => ?_⟩
  · have h1 := (Nat.pow_lt_pow_iff_right (a := 2) (by omega)).1 (Nat.lt_of_lt_of_le h.1 a3)
    have h2 := (Nat.pow_lt_pow_iff_right (a := 2) (by omega)).1 (Nat.lt_of_lt_of_le h.2 b3)
    omega
  · unfold linearizeSmall
    rw [a2, b2]
    simp only [hmin]
    obtain ⟨ps, h1, _⟩ := getAll_eq img _ fun c hc => by
      have h3 := mem_cells'.1 (hs.mem_iff.1 hc)
      have h4 := hin _ (Nat.le_refl _)
      omega
    exact ⟨ps, h1, getAll_get _ _ _ h1⟩

/-- **C52**, `linearize_small`, a dimension below 2: nothing is visited. -/
theorem C52_linearize_small_thin (chk : Bool) (img : Img) (hw : img.width.toNat ≤ 2 ^ 31)
    (hh : img.height.toNat ≤ 2 ^ 31) (h : img.width.toNat < 2 ∨ img.height.toNat < 2) (scan : Scan)
    (hs : VisitsOnce scan 0 0) : linearizeSmall scan chk img = some [] := by
  obtain ⟨a, a1, a2, a3, a4⟩ := nextPowerOfTwo_spec chk hw
  obtain ⟨b, b1, b2, b3, b4⟩ := nextPowerOfTwo_spec chk hh
  have key : ∀ {n k : Nat}, n < 2 → (k = 0 ∨ 2 ^ (k - 1) < n) → 2 ^ k / 2 = 0 := by
    intro n k hn hk
    rcases hk with rfl | hk
    · rfl
    · have := Nat.one_le_two_pow (n := k - 1); omega
  have hmin : min (2 ^ a / 2) (2 ^ b / 2) = 0 := by
    rcases h with h | h
    · rw [key h a4]; omega
    · rw [key h b4]; omega
  unfold linearizeSmall
  rw [a2, b2]
  simp only [hmin]
  have : scan 0 0 = [] := List.Perm.eq_nil (show (scan 0 0).Perm [] from hs)
  rw [this]; rfl

/-- Row by row is a traversal that visits each cell once. -/
example (w h : Nat) : VisitsOnce cells w h := .refl _

/-- An image of 4 × 3 pixels. -/
def example43 : Img :=
  { width := 4, height := 3
    pixels := (List.range 12).map fun i => ⟨UInt8.ofNat i, 0, 0, 255⟩, size := by decide }

/-- The small square has side 2, the large one has side 4. -/
example : linearizeSmall cells true example43 =
    some [⟨0, 0, 0, 255⟩, ⟨1, 0, 0, 255⟩, ⟨4, 0, 0, 255⟩, ⟨5, 0, 0, 255⟩] := by decide
example : linearizeLarge cells true example43 = some example43.pixels := by decide +kernel

/-! ## A complete run

A 3 × 1 image: red, red, white. -/

def example31 : Img :=
  { width := 3, height := 1
    pixels := [⟨255, 0, 0, 255⟩, ⟨255, 0, 0, 255⟩, ⟨255, 255, 255, 255⟩], size := by decide }

example : Addressable example31 ∧ example31.pixels ≠ [] := by
  constructor
  · unfold Addressable; decide
  · decide

/-- The hypotheses of the lossless theorems are met. -/
example : (∃ bytes, Emits Emits.anyWay (hufmanEncode (listHeap _) id example31) bytes () ∧
      hufmanDecode bytes = .ok example31.toRgb) ∧
    (∃ bytes, Emits Emits.anyWay (deltaEncode true cells (listHeap _) id example31) bytes () ∧
      deltaDecode true cells bytes = .ok example31.toRgb) ∧
    (∃ bytes, bytesOf (zipEncode (fun _ => 16) .back example31) = .ok bytes ∧
      zipDecode .back bytes = .ok example31.toRgb) := by
  have ha : Addressable example31 := by unfold Addressable; decide
  refine ⟨C28_hufman_lossless _ _ (fun _ => .refl _) _ ha (by decide),
    C29_delta_lossless _ _ _ _ (fun _ => .refl _) _ (.refl _) ha (by decide), ?_⟩
  obtain ⟨bytes, h⟩ := C33_small_images (fun _ => 16) (fun _ => by decide) example31 (by decide)
  exact ⟨bytes, h.bytesOf, C33_zip_back_lossless _ (fun _ => by decide) _ ha _ h.bytesOf⟩

/-- The file that hilbert(rle) writes. -/
theorem example31_file (fl : FloatOps) :
    bytesOf (hilbertEncode cells fl (.rle (.fin 0)) example31) = .ok
      [3, 0, 0, 0, 1, 0, 0, 0, 2, 3, 0, 0, 0, 0, 0, 0, 0, 255, 0, 0,
        1, 3, 0, 0, 0, 0, 0, 0, 0, 255, 255, 255] := by rfl

/-- **C37**, refuted for hilbert(rle): cut before the last run, the file is decoded into an image
different from the original. -/
theorem C37_refuted : hilbertDecode cells (.rle (.fin 0))
    [3, 0, 0, 0, 1, 0, 0, 0, 2, 3, 0, 0, 0, 0, 0, 0, 0, 255, 0, 0] =
      .ok { width := 3, height := 1, pixels := [⟨255, 0, 0⟩, ⟨255, 0, 0⟩, ⟨0, 0, 0⟩] } ∧
    example31.toRgb.pixels = [⟨255, 0, 0⟩, ⟨255, 0, 0⟩, ⟨255, 255, 255⟩] := by
  constructor <;> rfl

/-- Cut inside the last run: a panic. -/
example : hilbertDecode cells (.rle (.fin 0))
    [3, 0, 0, 0, 1, 0, 0, 0, 2, 3, 0, 0, 0, 0, 0, 0, 0, 255, 0, 0, 1] = .panic := by rfl

end Cniic
