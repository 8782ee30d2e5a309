import Verif.Proofs.Sizes
import Verif.Props.AnyCodec
import Verif.Props.Approx
import Verif.Props.ZipDict

/-!
# Sizes of files (C77)
-/

namespace Cniic
open Spec SerSpec Kmeans

theorem distinct_exists {T : Type} [DecidableEq T] (items : List T) : ∃ S : List T, Distinct S items :=
  ⟨(countFreqs items).map (·.1), countFreqs_nodup items, mem_countFreqs items⟩

private theorem sum_const {α : Type} (f : α → Nat) (c : Nat) (hf : ∀ x, f x = c) (l : List α) :
    (l.map f).sum = c * l.length := by
  induction l with
  | nil => simp
  | cons a l ih => simp only [List.map_cons, List.sum_cons, hf, ih, List.length_cons, Nat.mul_add]; omega

theorem hufman_size (M : MinHeap (Rgb UInt8)) {ho : List (Rgb UInt8 × Nat) → List (Rgb UInt8 × Nat)} (hho : IsOrder ho)
    {img : Img} (hne : img.pixels ≠ []) {S : List (Rgb UInt8)} (hS : Distinct S img.rgbPixels) :
    ∃ bytes B, Emits Emits.anyWay (hufmanEncode M ho img) bytes () ∧ FewestBits img.rgbPixels B ∧
      (∀ L, S.length ≤ 2 ^ L → B ≤ img.pixels.length * L) ∧ bytes.length = 7 + 13 * S.length + (B + 7) / 8 := by
  have hpx : img.rgbPixels ≠ [] := by simpa [Img.rgbPixels] using hne
  obtain ⟨out, B, he, hB, hL, hl⟩ := encodeAll_size M hho hpx (fun x _ => rgb_valid x) hS
  rw [Img.rgbPixels, List.length_map] at hL
  refine ⟨_, B, Emits.bind (anyWay_of_err (emits_dims img)) he, hB, hL, ?_⟩
  have hpos : 0 < S.length := by
    obtain ⟨x, hx⟩ := List.exists_mem_of_ne_nil _ hpx
    exact List.length_pos_of_mem ((hS.2 x).2 hx)
  rw [List.length_append, dims_length, hl, sum_const _ 11 rgb_bytes_length]
  omega

/-- **C77**, hufman: for an image with `k` different colours the file has `7 + 13 k` bytes and the fewest bits in which
any prefix code spells the pixels, rounded up to whole bytes.  So its size does not depend on the order of the hash map or
on the heap; and it is at most that of a code with words of equal length. -/
theorem C77_hufman {p : Setup} (hp : p.Lawful) (fuel : Nat) {img : Img} (hne : img.pixels ≠ [])
    {S : List (Rgb UInt8)} (hS : Distinct S img.rgbPixels) :
    ∃ m bytes B, AnyCodec.hufman.encode p fuel img = .ok m ∧ bytesOf m = .ok bytes ∧ FewestBits img.rgbPixels B ∧
      bytes.length = 7 + 13 * S.length + (B + 7) / 8 ∧ ∀ L, S.length ≤ 2 ^ L → B ≤ img.pixels.length * L := by
  obtain ⟨bytes, B, he, hB, hL, hl⟩ := hufman_size p.heapRgb hp.orderRgb hne hS
  exact ⟨_, bytes, B, rfl, he.bytesOf, hB, hl, hL⟩

/-- **C77**, delta: the same for the differences of neighbouring colours along the traversal, which take 6 bytes each. -/
theorem C77_delta {p : Setup} (hp : p.Lawful) (fuel : Nat) {img : Img}
    (hs : VisitsOnce p.scan img.width.toNat img.height.toNat) (hne : img.pixels ≠ []) {S : List SignedColor}
    (hS : Distinct S (diffs black (colorsAlong p.scan img))) :
    ∃ m bytes B, AnyCodec.delta.encode p fuel img = .ok m ∧ bytesOf m = .ok bytes ∧
      FewestBits (diffs black (colorsAlong p.scan img)) B ∧
      bytes.length = 7 + 8 * S.length + (B + 7) / 8 ∧ ∀ L, S.length ≤ 2 ^ L → B ≤ img.pixels.length * L := by
  have hd := delta_ne hs hne
  obtain ⟨out, B, he, hB, hL, hl⟩ := encodeAll_size p.heapDiff hp.orderDiff hd (fun x _ => signedColor_valid x) hS
  have hlen : (diffs black (colorsAlong p.scan img)).length = img.pixels.length := by
    rw [diffs_length, colorsAlong, List.length_map, linearize_length hs, ← img.size]
  rw [hlen] at hL
  refine ⟨_, bytes (img.width, img.height) ++ out, B, rfl, ?_, hB, ?_, hL⟩
  · rw [deltaEncode_eq p.chk _ _ hs]
    exact (Emits.bind (anyWay_of_err (emits_dims img)) (f := fun _ => _) he).bytesOf
  · have hpos : 0 < S.length := by
      obtain ⟨x, hx⟩ := List.exists_mem_of_ne_nil _ hd
      exact List.length_pos_of_mem ((hS.2 x).2 hx)
    rw [List.length_append, dims_length, hl, sum_const (fun x : SignedColor => (SerSpec.bytes x).length) 6 (fun _ => rfl)]
    omega

/-- **C77**, cluster-colors: the file is that of hufman for the picture with the reduced colours, of which there are at
most `n`. -/
theorem C77_cluster_colors {p : Setup} (hp : p.Lawful) (hsort : IsSort p.out.sort) {fuel : Nat} {n : UInt64} {img : Img}
    (ha : Addressable img) {m : W Unit}
    (hm : (AnyCodec.clusterColors n).encode p fuel img = .ok m) :
    ∃ bytes out S B, bytesOf m = .ok bytes ∧ (AnyCodec.clusterColors n).decode p bytes = .ok out ∧
      Distinct S out.pixels ∧ S.length ≤ n.toNat ∧ FewestBits out.pixels B ∧
      bytes.length = 7 + 13 * S.length + (B + 7) / 8 ∧ ∀ L, n.toNat ≤ 2 ^ L → B ≤ img.pixels.length * L := by
  obtain ⟨bytes, out, colors, he, hd, hcl, hin⟩ := C47_colors hsort hp.orderColor hp.orderRgb ha hm
  simp only [AnyCodec.encode, clusterColorsEncode] at hm
  obtain ⟨cl, hcl', hm⟩ := Ret.bind_ok.1 hm
  obtain ⟨red, hred, hm⟩ := Ret.bind_ok.1 hm
  split at hm
  · rename_i hlen
    cases hm
    have hdim : red.width = img.width ∧ red.height = img.height := by
      unfold reducedImg at hred
      rw [new_eq img ha] at hred
      simp only [Option.bind_eq_bind, Option.bind_some] at hred
      cases ho : optMap (lastLookup (reducedColors cl)) img.rgbPixels with
      | none => rw [ho] at hred; cases hred
      | some px => rw [ho] at hred; cases hred; exact ⟨rfl, rfl⟩
    have har : Addressable (red.toImg hlen) := by
      unfold Addressable RgbImage.toImg
      simp only [hdim.1, hdim.2]
      exact ha
    have hpl : (red.toImg hlen).pixels.length = img.pixels.length := by
      rw [(red.toImg hlen).size, img.size]
      show red.width.toNat * red.height.toNat = _
      rw [hdim.1, hdim.2]
    by_cases hne : (red.toImg hlen).pixels = []
    · have := he.bytesOf
      rw [C28_empty_image_panics p.heapRgb p.orderRgb hp.orderRgb _ hne] at this
      cases this
    · obtain ⟨bytes', e', d'⟩ := C28_hufman_lossless p.heapRgb p.orderRgb hp.orderRgb _ har hne
      have hbb : bytes' = bytes := by
        have := he.bytesOf
        rw [e'.bytesOf] at this
        exact Ret.ok.inj this
      subst hbb
      have hout : (red.toImg hlen).toRgb = out := by
        have : hufmanDecode bytes' = .ok out := hd
        rw [d'] at this
        exact Ret.ok.inj this
      have hpx : (red.toImg hlen).rgbPixels = out.pixels := congrArg RgbImage.pixels hout
      obtain ⟨S, hS⟩ := distinct_exists out.pixels
      obtain ⟨bs, B, e2, hB, hL, hl⟩ := hufman_size p.heapRgb hp.orderRgb hne (S := S) (by rw [hpx]; exact hS)
      have hbb : bs = bytes' := by
        have := e2.bytesOf
        rw [e'.bytesOf] at this
        exact (Ret.ok.inj this).symm
      subst hbb
      have hSn : S.length ≤ n.toNat := by
        rw [← hcl]
        exact (hS.1.subperm (fun x hx => hin x ((hS.2 x).1 hx))).length_le
      rw [hpx] at hB
      rw [hpl] at hL
      exact ⟨bs, out, S, B, he.bytesOf, hd, hS, hSn, hB, hl, fun L h => hL L (by omega)⟩
  · cases hm

/-- **C77**, voronoi: the size depends on the number of clusters only. -/
theorem C77_voronoi {p : Setup} (hsort : IsSort p.out.sort) {fuel : Nat} {n : UInt64} {img : Img}
    {m : W Unit} (hm : (AnyCodec.voronoi n).encode p fuel img = .ok m) :
    ∃ bytes, bytesOf m = .ok bytes ∧ bytes.length = 16 + 19 * n.toNat := by
  obtain ⟨cl, -, hl, -, he⟩ := voronoi_file hsort hm
  refine ⟨_, he.bytesOf, ?_⟩
  have : ∀ l : List ColorPos, (l.flatMap SerSpec.bytes).length = 19 * l.length := by
    intro l
    rw [List.length_flatMap]
    exact sum_const _ 19 color_pos_bytes_length l
  rw [voronoiBytes, List.length_append, this, List.length_map, hl]
  simp [SerSpec.bytes, le]

/-- **C77**, hilbert with runs: 12 bytes per run.  There are at most as many runs as pixels, and at least one run per 255
pixels. -/
theorem C77_hilbert_rle {p : Setup} (hp : p.Lawful) (fuel : Nat) (d : F64) {img : Img}
    (hs : VisitsOnce p.scan img.width.toNat img.height.toNat) :
    ∃ m bytes k, (AnyCodec.hilbert (.rle d)).encode p fuel img = .ok m ∧ bytesOf m = .ok bytes ∧
      bytes.length = 8 + 12 * k ∧ k ≤ img.pixels.length ∧ img.pixels.length ≤ 255 * k := by
  have hcl : (colorsAlong p.scan img).length = img.pixels.length := by
    rw [colorsAlong, List.length_map, linearize_length hs, ← img.size]
  cases hd : d.isZero with
  | true =>
    obtain ⟨runs, h1, h2, -, he⟩ := hilbertEncode_exact p.out.fl hs hd
    refine ⟨_, _, runs.length, rfl, he.bytesOf, by rw [List.length_append, dims_length, runs_bytes_length], ?_⟩
    rw [← hcl, ← h2]
    clear he h2
    induction runs with
    | nil => simp [expandRuns]
    | cons r runs ih =>
      have hr := h1 r (by simp)
      have := r.1.toNat_lt
      have := ih fun x hx => h1 x (by simp [hx])
      simp only [expandRuns, List.flatMap_cons, List.length_append, List.length_replicate, List.length_cons] at *
      omega
  | false =>
    obtain ⟨groups, hg, he⟩ := hilbertEncode_approx hp.float hs hd
    refine ⟨_, _, groups.length, rfl, he.bytesOf, by
      rw [List.length_append, dims_length, runs_bytes_length, List.length_map], ?_⟩
    rw [← hcl, ← hg.flatten]
    have h1 := hg.sizes
    clear he hg
    induction groups with
    | nil => simp
    | cons g groups ih =>
      have hr := h1 g (by simp)
      have := List.length_pos_iff.2 hr.1
      have := ih fun x hx => h1 x (by simp [hx])
      simp only [List.flatten_cons, List.length_append, List.length_cons] at *
      omega

/-- **C77**, hilbert with exact runs: no other sequence of runs that spells the pixels is shorter. -/
theorem C77_hilbert_rle_fewest {p : Setup} (fuel : Nat) {d : F64} (hd : d.isZero = true) {img : Img}
    (hs : VisitsOnce p.scan img.width.toNat img.height.toNat) :
    ∃ m bytes, (AnyCodec.hilbert (.rle d)).encode p fuel img = .ok m ∧ bytesOf m = .ok bytes ∧
      ∀ runs, expandRuns runs = colorsAlong p.scan img → bytes.length ≤ 8 + 12 * runs.length := by
  obtain ⟨runs, h1, h2, h3, he⟩ := hilbertEncode_exact p.out.fl hs hd
  refine ⟨_, _, rfl, he.bytesOf, fun rs hr => ?_⟩
  rw [List.length_append, dims_length, runs_bytes_length]
  have := maximal_fewest rs 0 runs h1 h3 (by rw [h2, hr]; rfl)
  omega

/-- **C77**, hilbert(zip): two bytes per symbol, rounded up to pairs of symbols; at most one symbol per byte of the
colours. -/
theorem C77_hilbert_zip {p : Setup} (fuel : Nat) {img : Img}
    (hs : VisitsOnce p.scan img.width.toNat img.height.toNat) :
    ∃ m bytes k, (AnyCodec.hilbert .zip).encode p fuel img = .ok m ∧ bytesOf m = .ok bytes ∧
      bytes.length = 8 + 2 * (k + k % 2) ∧ k ≤ 11 * img.pixels.length := by
  obtain ⟨bs, k, e1, h1, -, h2⟩ := C18_output_size ((colorsAlong p.scan img).flatMap bytes)
  refine ⟨_, bytes (img.width, img.height) ++ bs, k, rfl, ?_, by rw [List.length_append, dims_length, h2], ?_⟩
  · rw [hilbertEncode_zip_eq p.out.fl hs]
    exact (Emits.bind (emits_dims img) (f := fun _ => _) e1).bytesOf
  · rw [rgbs_bytes_length, colorsAlong, List.length_map, linearize_length hs, ← img.size] at h1
    exact h1

/-- **C77**, zip(dict). -/
theorem C77_zip_dict (p : Setup) (fuel : Nat) (img : Img) :
    ∃ m bytes k, (AnyCodec.zip .dict).encode p fuel img = .ok m ∧ bytesOf m = .ok bytes ∧
      bytes.length = 2 * (k + k % 2) ∧ 1 ≤ k ∧ k ≤ 8 + 11 * img.pixels.length := by
  obtain ⟨bs, k, e1, h1, h0, h2⟩ := C18_output_size (zipData img)
  have hl : (zipData img).length = 8 + 11 * img.pixels.length := by
    rw [zipData, List.length_append, dims_length, rgbs_bytes_length, Img.rgbPixels, List.length_map]
  refine ⟨_, bs, k, rfl, by rw [zipEncode_dict]; exact e1.bytesOf, h2, ?_, by omega⟩
  have : k ≠ 0 := fun h => by
    rw [h0.1 h] at hl
    simp at hl
    omega
  omega

/-- **C77**, zip(back): at most two bytes more than the serialized image. -/
theorem C77_zip_back {p : Setup} (hp : p.Lawful) {fuel : Nat} {img : Img} {m : W Unit} {bytes : List UInt8}
    (hm : (AnyCodec.zip .back).encode p fuel img = .ok m) (hb : bytesOf m = .ok bytes) :
    bytes.length ≤ 10 + 11 * img.pixels.length := by
  cases hm
  rw [zipEncode_back] at hb
  have := C23_expansion p.cap hp.cap _ _ hb
  have hl : (zipData img).length = 8 + 11 * img.pixels.length := by
    rw [zipData, List.length_append, dims_length, rgbs_bytes_length, Img.rgbPixels, List.length_map]
  omega

/-- **C77**, same file: with the same traversal, the lossless codecs that do not use Huffman codes write the same bytes
whatever the heaps, orders, capacities and floating point operations are. -/
theorem C77_deterministic {p q : Setup} (hp : p.Lawful) (hq : q.Lawful) (hscan : p.scan = q.scan) {fuel fuel' : Nat}
    {c : AnyCodec} (hc : c.isLossless = true) (hh : c.usesHuffman = false) {img : Img}
    (hs : VisitsOnce p.scan img.width.toNat img.height.toNat) :
    ∃ m m', c.encode p fuel img = .ok m ∧ c.encode q fuel' img = .ok m' ∧ bytesOf m = bytesOf m' := by
  cases c with
  | clusterColors n => cases hc
  | voronoi n => cases hc
  | delta => cases hh
  | hufman => cases hh
  | hilbert me =>
    refine ⟨_, _, rfl, rfl, ?_⟩
    cases me with
    | rle d =>
      obtain ⟨r, h1, h2, h3, he⟩ := hilbertEncode_exact p.out.fl hs hc
      rw [hscan] at hs
      obtain ⟨r', h1', h2', h3', he'⟩ := hilbertEncode_exact q.out.fl hs hc
      rw [he.bytesOf, he'.bytesOf]
      have : r = r' := by
        rw [← hscan, ← h2] at h2'
        exact maximal_runs_unique h1 h1' h3 h3' h2'.symm
      rw [this]
    | zip =>
      rw [hilbertEncode_zip_eq p.out.fl hs, ← hscan, hilbertEncode_zip_eq q.out.fl hs]
  | zip z =>
    refine ⟨_, _, rfl, rfl, ?_⟩
    cases z with
    | dict => rw [zipEncode_dict, zipEncode_dict]
    | back =>
      rw [zipEncode_back, zipEncode_back]
      obtain ⟨s, hf, he⟩ := Back.zipBackEncode_spec (show 0 < Back.ringSize by decide) hp.cap (zipData img)
      obtain ⟨s', hf', he'⟩ := Back.zipBackEncode_spec (show 0 < Back.ringSize by decide) hq.cap (zipData img)
      rw [he, he', Factor.unique hf hf']

/-- **C77**, same size: for the lossless codecs that use Huffman codes the files may differ, but not in size. -/
theorem C77_same_size {p q : Setup} (hp : p.Lawful) (hq : q.Lawful) (hscan : p.scan = q.scan) {fuel fuel' : Nat}
    {c : AnyCodec} (hc : c.isLossless = true) {img : Img}
    (hs : VisitsOnce p.scan img.width.toNat img.height.toNat) {m m' : W Unit} {bytes bytes' : List UInt8}
    (hm : c.encode p fuel img = .ok m) (hm' : c.encode q fuel' img = .ok m') (hb : bytesOf m = .ok bytes)
    (hb' : bytesOf m' = .ok bytes') : bytes.length = bytes'.length := by
  have other : c.usesHuffman = false → bytes.length = bytes'.length := by
    intro hh
    obtain ⟨n, n', h1, h2, h3⟩ := C77_deterministic (fuel := fuel) (fuel' := fuel') hp hq hscan hc hh hs
    rw [h1] at hm
    rw [h2] at hm'
    cases hm
    cases hm'
    rw [hb, hb'] at h3
    rw [Ret.ok.inj h3]
  cases c with
  | clusterColors n => cases hc
  | voronoi n => cases hc
  | hilbert me => exact other rfl
  | zip z => exact other rfl
  | hufman =>
    by_cases hne : img.pixels = []
    · cases hm
      rw [C28_empty_image_panics p.heapRgb p.orderRgb hp.orderRgb img hne] at hb; cases hb
    · obtain ⟨S, hS⟩ := distinct_exists img.rgbPixels
      obtain ⟨m1, b1, B1, e1, e2, e3, e4, -⟩ := C77_hufman hp fuel hne hS
      obtain ⟨m2, b2, B2, f1, f2, f3, f4, -⟩ := C77_hufman hq fuel' hne hS
      rw [e1] at hm; rw [f1] at hm'; cases hm; cases hm'
      rw [e2] at hb; rw [f2] at hb'; cases hb; cases hb'
      rw [e4, f4, FewestBits.unique e3 f3]
  | delta =>
    by_cases hne : img.pixels = []
    · cases hm
      rw [C39_delta_empty hp hs hne] at hb; cases hb
    · obtain ⟨S, hS⟩ := distinct_exists (diffs black (colorsAlong p.scan img))
      obtain ⟨m1, b1, B1, e1, e2, e3, e4, -⟩ := C77_delta hp fuel hs hne hS
      rw [hscan] at hs hS e3
      obtain ⟨m2, b2, B2, f1, f2, f3, f4, -⟩ := C77_delta hq fuel' hs hne hS
      rw [e1] at hm; rw [f1] at hm'; cases hm; cases hm'
      rw [e2] at hb; rw [f2] at hb'; cases hb; cases hb'
      rw [e4, f4, FewestBits.unique e3 f3]

/-! ## Examples -/

namespace SizeExamples

/-- Two pixels of different colours. -/
def pair : Img := { width := 2, height := 1, pixels := [⟨1, 2, 3, 255⟩, ⟨9, 9, 9, 255⟩], size := rfl }

/-- The same setup with a hash map that lists its entries the other way round. -/
def reversed : Setup := { AnyCodecExamples.setup with orderRgb := List.reverse }

theorem reversed_lawful : reversed.Lawful :=
  { AnyCodecExamples.setup_lawful with orderRgb := fun l => List.reverse_perm l }

theorem build_pair (fs : List (Rgb UInt8 × Nat)) (x y : Rgb UInt8) (h : fs = [(x, 1), (y, 1)]) (enc : Enc (Rgb UInt8))
    (he : Enc.ofTrie (.branch (.leaf x) (.leaf y)) = some enc) :
    build (listHeap (Rgb UInt8)) fs = some (enc, .branch (.leaf x) (.leaf y)) := by
  rw [h]
  simp [build, buildDec, buildLoop, listHeap, extractMin, Suffix.ofItem, he]

def c1 : Rgb UInt8 := ⟨1, 2, 3⟩

def c2 : Rgb UInt8 := ⟨9, 9, 9⟩

theorem enc_pair (x y : Rgb UInt8) (hxy : x ≠ y) : Enc.ofTrie (.branch (.leaf x) (.leaf y)) =
    some ⟨[(y, ⟨[], 1, 1, .msbFirst⟩), (x, ⟨[], 1, 0, .msbFirst⟩)]⟩ := by
  simp [Enc.ofTrie, BinTrie.size, drain, BinTrieIter.new, BinTrieIter.allTheWayLeft,
    BinTrieIter.next, BinTrieIter.popParents, BinTrieIter.popLoop, Enc.insertAll,
    BitArray.fromSlice, packFull, pushBit]
  decide

theorem file1 : bytesOf (hufmanEncode (listHeap _) id pair) =
    .ok ([2, 0, 0, 0, 1, 0, 0, 0, 1, 0, 3, 0, 0, 0, 0, 0, 0, 0, 1, 2, 3, 0, 3, 0, 0, 0, 0, 0, 0, 0, 9, 9, 9, 64]) := by
  unfold hufmanEncode encodeAll
  rw [build_pair (id (countFreqs pair.rgbPixels)) c1 c2 (by decide) _ (enc_pair c1 c2 (by decide))]
  decide +kernel

theorem file2 : bytesOf (hufmanEncode (listHeap _) List.reverse pair) =
    .ok ([2, 0, 0, 0, 1, 0, 0, 0, 1, 0, 3, 0, 0, 0, 0, 0, 0, 0, 9, 9, 9, 0, 3, 0, 0, 0, 0, 0, 0, 0, 1, 2, 3, 128]) := by
  unfold hufmanEncode encodeAll
  rw [build_pair (List.reverse (countFreqs pair.rgbPixels)) c2 c1 (by decide) _ (enc_pair c2 c1 (by decide))]
  decide +kernel

end SizeExamples

/-- **C77**, the bytes of the codecs that use Huffman codes do depend on the order of the hash map. -/
theorem C77_files_differ : ∃ p q : Setup, p.Lawful ∧ q.Lawful ∧ p.scan = q.scan ∧
    ∃ (img : Img) (m m' : W Unit) (b b' : List UInt8), AnyCodec.hufman.encode p 0 img = .ok m ∧
      AnyCodec.hufman.encode q 0 img = .ok m' ∧ bytesOf m = .ok b ∧ bytesOf m' = .ok b' ∧ b ≠ b' :=
  ⟨AnyCodecExamples.setup, SizeExamples.reversed, AnyCodecExamples.setup_lawful, SizeExamples.reversed_lawful, rfl,
    SizeExamples.pair, _, _, _, _, rfl, rfl, SizeExamples.file1, SizeExamples.file2, by decide⟩

/-- The file has 7 + 13 · 2 + 1 bytes. -/
example : Distinct [SizeExamples.c1, SizeExamples.c2] SizeExamples.pair.rgbPixels ∧
    SizeExamples.pair.pixels ≠ [] ∧ 7 + 13 * 2 + (2 + 7) / 8 = 34 := by
  refine ⟨⟨by decide, fun x => ?_⟩, by decide, rfl⟩
  rw [show SizeExamples.pair.rgbPixels = [SizeExamples.c1, SizeExamples.c2] from rfl]

/-- The hypotheses of the other theorems hold for it as well; the two differences are different. -/
example : VisitsOnce AnyCodecExamples.setup.scan SizeExamples.pair.width.toNat SizeExamples.pair.height.toNat ∧
    diffs black (colorsAlong AnyCodecExamples.setup.scan SizeExamples.pair) = [⟨1, 2, 3⟩, ⟨8, 7, 6⟩] ∧
    SizeExamples.pair.pixels.length < 2 ^ 32 ∧ Addressable SizeExamples.pair :=
  ⟨.refl _, by decide +kernel, by decide, by unfold Addressable; decide⟩

/-- Seven pixels in two runs: no three-run spelling is shorter. -/
example : Maximal [((4 : UInt8), 5), (3, 6)] ∧
    expandRuns [((4 : UInt8), 5), (3, 6)] = expandRuns [(2, 5), (2, 5), (3, 6)] :=
  ⟨⟨Or.inl (by decide), trivial⟩, by decide⟩

end Cniic
