import Verif.Proofs.Position
import Verif.Props.Trailing

/-!
# Where decoding leaves the reader (C126)
-/

namespace Cniic
open Spec SerSpec Kmeans Spec.Kmeans

theorem hufmanDecodeFrom_fst (l : List UInt8) : (hufmanDecodeFrom l).1 = hufmanDecode l := by
  unfold hufmanDecodeFrom hufmanDecode Proc.run
  rcases h1 : createImageBufferStandard listNext l with ⟨⟨d, img⟩ | _ | _, s⟩
  · rw [Proc.bind_ok h1, Proc.bind_ok h1]
    simp only
    rcases h2 : (BinTrie.de s : Ret Unit (BinTrie (Rgb UInt8)) × List UInt8) with ⟨t | _ | _, s'⟩
    · have h3 : (decodeAll s : Ret Unit (DecStream (Rgb UInt8)) × List UInt8) = (.ok ⟨t, bitReader s'⟩, []) :=
        Proc.bind_ok h2
      rw [Proc.bind_ok h2, Proc.bind_ok h3]
      simp only [Proc.bind_def, borrowing, onStream]
      cases (hufmanFill img.pixels.length ⟨t, bitReader s'⟩).1 <;> rfl
    · have h3 : (decodeAll s : Ret Unit (DecStream (Rgb UInt8)) × List UInt8) = (.err (), s') := Proc.bind_err h2
      rw [Proc.bind_err h2, Proc.bind_err h3]
    · have h3 : (decodeAll s : Ret Unit (DecStream (Rgb UInt8)) × List UInt8) = (.panic, s') := Proc.bind_panic h2
      rw [Proc.bind_panic h2, Proc.bind_panic h3]
  · rw [Proc.bind_err h1, Proc.bind_err h1]
  · rw [Proc.bind_panic h1, Proc.bind_panic h1]

theorem deltaDecodeFrom_fst (chk : Bool) (scan : Scan) (l : List UInt8) :
    (deltaDecodeFrom chk scan l).1 = deltaDecode chk scan l := by
  unfold deltaDecodeFrom deltaDecode Proc.run
  rcases h1 : createImageBufferStandard listNext l with ⟨⟨d, img⟩ | _ | _, s⟩
  · rw [Proc.bind_ok h1, Proc.bind_ok h1]
    simp only
    rcases h2 : (BinTrie.de s : Ret Unit (BinTrie SignedColor) × List UInt8) with ⟨t | _ | _, s'⟩
    · have h3 : (decodeAll s : Ret Unit (DecStream SignedColor) × List UInt8) = (.ok ⟨t, bitReader s'⟩, []) :=
        Proc.bind_ok h2
      simp only [Proc.bind_def, Proc.unwrap, h2, h3]
      rfl
    · have h3 : (decodeAll s : Ret Unit (DecStream SignedColor) × List UInt8) = (.err (), s') := Proc.bind_err h2
      simp only [Proc.bind_def, Proc.unwrap, h2, h3]
    · have h3 : (decodeAll s : Ret Unit (DecStream SignedColor) × List UInt8) = (.panic, s') := Proc.bind_panic h2
      simp only [Proc.bind_def, Proc.unwrap, h2, h3]
  · rw [Proc.bind_err h1, Proc.bind_err h1]
  · rw [Proc.bind_panic h1, Proc.bind_panic h1]

theorem hilbertDecodeFrom_fst (scan : Scan) (m : CompressionMethod) (l : List UInt8) :
    (hilbertDecodeFrom scan m l).1 = hilbertDecode scan m l := by
  unfold hilbertDecodeFrom hilbertDecode Proc.run
  rcases h1 : (de listNext l : Ret Unit (UInt32 × UInt32) × List UInt8) with ⟨d | _ | _, s⟩
  · refine (congrArg Prod.fst (Proc.bind_ok h1)).trans ((congrArg Prod.fst (Proc.bind_ok h1)).trans ?_).symm
    cases m <;> rfl
  · exact (congrArg Prod.fst (Proc.bind_err h1)).trans (congrArg Prod.fst (Proc.bind_err h1)).symm
  · exact (congrArg Prod.fst (Proc.bind_panic h1)).trans (congrArg Prod.fst (Proc.bind_panic h1)).symm

/-- **C126**, the picture: these decoders return what those of the other claims return. -/
theorem C126_same (p : Setup) (c : AnyCodec) (l : List UInt8) : (c.decodeFrom p l).1 = c.decode p l := by
  cases c with
  | clusterColors n => exact hufmanDecodeFrom_fst l
  | voronoi n => rfl
  | delta => exact deltaDecodeFrom_fst _ _ l
  | hilbert m => exact hilbertDecodeFrom_fst _ m l
  | hufman => exact hufmanDecodeFrom_fst l
  | zip z => cases z <;> rfl

theorem hufmanDecodeFrom_left (M : MinHeap (Rgb UInt8)) {ho : List (Rgb UInt8 × Nat) → List (Rgb UInt8 × Nat)}
    (hho : IsOrder ho) {img : Img} (ha : Addressable img) {bs : List UInt8}
    (hb : bytesOf (hufmanEncode M ho img) = .ok bs) (rest : List UInt8) : (hufmanDecodeFrom (bs ++ rest)).2 = rest := by
  by_cases hne : img.pixels = []
  · rw [C28_empty_image_panics M ho hho img hne] at hb; cases hb
  · have hpx : img.rgbPixels ≠ [] := by simpa [Img.rgbPixels] using hne
    obtain ⟨dec, payload, htv, he, hr⟩ := encodeAll_reaches M ho hho img.rgbPixels hpx fun x _ => rgb_valid x
    have hall : Emits Emits.anyWay (hufmanEncode M ho img)
        (SerSpec.bytes (img.width, img.height) ++ (treeBytes dec ++ payload)) () :=
      Emits.bind (anyWay_of_err (emits_dims img)) he
    rw [hall.bytesOf] at hb
    cases hb
    obtain ⟨e, h1, h2⟩ := hr rest
    unfold hufmanDecodeFrom
    rw [List.append_assoc, Proc.bind_ok (createBuffer_eq img ha _)]
    rw [List.append_assoc]
    simp only
    have h3 := hufmanFill_reaches h2
    rw [rgbPixels_length] at h3
    rw [Proc.bind_ok (de_tree dec htv _)]
    simp only [Proc.bind_def, borrowing, List.length_replicate, h3]
    exact h1

/-- **C126.** Whatever follows the file of a codec in a reader is still there when the codec has decoded the file: no
decoder reads a byte beyond the end of what its encoder wrote, and none leaves a byte of it unread. -/
theorem C126_left {p : Setup} (hp : p.Lawful) (hsort : IsSort p.out.sort) {fuel : Nat} {c : AnyCodec}
    {img : Img} (hs : VisitsOnce p.scan img.width.toNat img.height.toNat) (ha : Addressable img)
    {m : W Unit} (hm : c.encode p fuel img = .ok m) {bytes : List UInt8} (hb : bytesOf m = .ok bytes)
    (rest : List UInt8) : c.decodeFrom p (bytes ++ rest) = (c.decode p bytes, rest) := by
  suffices h : (c.decodeFrom p (bytes ++ rest)).2 = rest by
    rw [← C74_written hp hsort hs ha hm hb rest, ← C126_same]
    exact Prod.ext rfl h
  have hlen : (colorsAlong p.scan img).length = (p.scan img.width.toNat img.height.toNat).length := by
    rw [colorsAlong, List.length_map]
  cases c with
  | clusterColors n =>
    simp only [AnyCodec.encode, clusterColorsEncode] at hm
    obtain ⟨cl, hcl, hm⟩ := Ret.bind_ok.1 hm
    obtain ⟨red, hred, hm⟩ := Ret.bind_ok.1 hm
    split at hm
    · cases hm
      refine hufmanDecodeFrom_left p.heapRgb hp.orderRgb ?_ hb rest
      show 3 * (red.width.toNat * red.height.toNat) < 2 ^ 63
      cases hr : reducedImg (reducedColors cl) img with
      | none => rw [hr] at hred; cases hred
      | some r =>
        rw [hr] at hred
        cases hred
        unfold reducedImg at hr
        rw [new_eq img ha] at hr
        simp only [Option.bind_eq_bind, Option.bind_some] at hr
        cases ho : optMap (lastLookup (reducedColors cl)) img.rgbPixels with
        | none => rw [ho] at hr; cases hr
        | some px => rw [ho] at hr; cases hr; exact ha
    · cases hm
  | voronoi n =>
    simp only [AnyCodec.encode, voronoiEncode] at hm
    obtain ⟨cl, hcl, hm⟩ := Ret.bind_ok.1 hm
    cases hm
    obtain ⟨hcount, -⟩ := C43_points (env := posEnv p.out p.chk) hsort hcl
    have hu : SerSpec.bytes (Usize.mk n) = le 8 (cl.intoIter.map (·.1)).length := by
      rw [List.length_map, hcount]; rfl
    have he : Emits Emits.errOnly (do
        ser img.width
        ser img.height
        ser (Usize.mk n)
        Proc.forEach ser (cl.intoIter.map (·.1))) (voronoiBytes img.width img.height (cl.intoIter.map (·.1))) () := by
      unfold voronoiBytes
      rw [← hu, List.append_assoc, List.append_assoc]
      exact Emits.bind (LawfulSer.emits img.width trivial) (Emits.bind (LawfulSer.emits img.height trivial)
        (Emits.bind (LawfulSer.emits (Usize.mk n) trivial) (Emits.forEach _ fun p _ => LawfulSer.emits p trivial)))
    rw [he.bytesOf] at hb
    cases hb
    have hl : n.toNat = (cl.intoIter.map (·.1)).length := by
      rw [List.length_map, hcount]
    have hn := readN_bytes (cl.intoIter.map (·.1)) (fun _ _ => trivial) rest
    rw [← hl] at hn
    simp only [AnyCodec.decodeFrom]
    unfold voronoiDecodeFrom voronoiBytes
    rw [← hu]
    have e : SerSpec.bytes img.width ++ SerSpec.bytes img.height = SerSpec.bytes (img.width, img.height) := rfl
    rw [e, List.append_assoc, List.append_assoc, Proc.bind_ok (LawfulSer.de_bytes _ (dims_valid img.width img.height) _)]
    simp only [new_eq img ha, orPanic, pure_bind]
    rw [Proc.bind_ok (LawfulSer.de_bytes (Usize.mk n) trivial _)]
    rw [Proc.bind_ok hn]
    cases optMap (fun i => pixelColor p.chk (cl.intoIter.map (·.1)) (UInt32.ofNat (i % img.width.toNat))
      (UInt32.ofNat (i / img.width.toNat))) (List.range (img.width.toNat * img.height.toNat)) <;> rfl
  | delta =>
    cases hm
    by_cases hne : img.pixels = []
    · rw [C39_delta_empty hp hs hne] at hb; cases hb
    · obtain ⟨dec, payload, htv, he, hr⟩ := encodeAll_reaches p.heapDiff p.orderDiff hp.orderDiff _
        (delta_ne hs hne) fun (x : SignedColor) _ => signedColor_valid x
      have hall : Emits Emits.anyWay (deltaEncode p.chk p.scan p.heapDiff p.orderDiff img)
          (SerSpec.bytes (img.width, img.height) ++ (treeBytes dec ++ payload)) () := by
        rw [deltaEncode_eq p.chk p.heapDiff p.orderDiff hs]
        exact Emits.bind (anyWay_of_err (emits_dims img)) he
      rw [hall.bytesOf] at hb
      cases hb
      obtain ⟨e, h1, h2⟩ := hr rest
      obtain ⟨l, h3⟩ := fromDiff_reaches p.chk black _ h2
      simp only [AnyCodec.decodeFrom]
      unfold deltaDecodeFrom
      rw [List.append_assoc, Proc.bind_ok (createBuffer_eq img ha _), List.append_assoc]
      obtain ⟨out, h4⟩ := paint_reaches (p.scan img.width.toNat img.height.toNat)
        { width := img.width, height := img.height
          pixels := List.replicate (img.width.toNat * img.height.toNat) black } hlen
        (fun c hc => mem_cells'.1 (hs.mem_iff.1 hc)) h3
      have h6 : (Proc.unwrap BinTrie.de : Rd (List UInt8) (BinTrie SignedColor)) (treeBytes dec ++ (payload ++ rest)) =
          (.ok dec, payload ++ rest) := by
        simp only [Proc.unwrap, de_tree dec htv]
      simp only
      rw [Proc.bind_ok h6]
      simp only [borrowing]
      have h5 : FromDiff.new (⟨dec, bitReader (payload ++ rest)⟩ : DecStream SignedColor) =
        ⟨⟨dec, bitReader (payload ++ rest)⟩, .ofRgb black⟩ := rfl
      rw [h5, h4]
      exact h1
  | hilbert method =>
    cases hm
    cases method with
    | rle d =>
      have key : ∃ runs, (∀ r ∈ runs, 1 ≤ r.1.toNat) ∧
          (expandRuns runs).length = (p.scan img.width.toNat img.height.toNat).length ∧
          Emits Emits.errOnly (hilbertEncode p.scan p.out.fl (.rle d) img)
            (SerSpec.bytes (img.width, img.height) ++ runs.flatMap runBytes) () := by
        cases hd : d.isZero with
        | true =>
          obtain ⟨runs, h1, h2, -, he⟩ := hilbertEncode_exact p.out.fl hs hd
          exact ⟨runs, h1, by rw [h2]; exact hlen, he⟩
        | false =>
          obtain ⟨groups, hg, he⟩ := hilbertEncode_approx hp.float hs hd
          obtain ⟨r1, r2⟩ := averaged_runs hg.sizes
          exact ⟨_, r2, by rw [r1, averaged_length, hg.flatten]; exact hlen, he⟩
      obtain ⟨runs, h1, h2, he⟩ := key
      rw [he.bytesOf] at hb
      cases hb
      obtain ⟨e, h3, h4⟩ := rle_reaches runs h1 rest
      simp only [AnyCodec.decodeFrom]
      unfold hilbertDecodeFrom
      rw [List.append_assoc, Proc.bind_ok (LawfulSer.de_bytes _ (dims_valid img.width img.height) _)]
      simp only [borrowing, decodeAny_eq p.scan _ img ha]
      obtain ⟨out, h5⟩ := paint_reaches (p.scan img.width.toNat img.height.toNat)
        { width := img.width, height := img.height
          pixels := List.replicate (img.width.toNat * img.height.toNat) black } h2
        (fun c hc => mem_cells'.1 (hs.mem_iff.1 hc)) h4
      rw [h5]
      exact h3
    | zip =>
      obtain ⟨syms, hpar, he⟩ := hilbertEncode_zip p.out.fl hs
      rw [he.bytesOf] at hb
      cases hb
      have h0 := meaning_more oneByteSeqs (symBytes syms) rest
      have h2 := dict_stops (symBytes syms ++ rest)
      rw [hpar.meaning goodDict_start.le] at h0
      obtain ⟨q, hq⟩ := h0
      simp only at hq
      rw [← hq] at h2
      obtain ⟨e, h3, h4⟩ := dict_reaches hpar goodDict_start.le rest _ (decInv_new _) rfl rfl
      obtain ⟨out, h5⟩ := paint_reaches (p.scan img.width.toNat img.height.toNat)
        { width := img.width, height := img.height
          pixels := List.replicate (img.width.toNat * img.height.toNat) black } hlen
        (fun c hc => mem_cells'.1 (hs.mem_iff.1 hc)) (deser_reaches _ h2 h4)
      simp only [AnyCodec.decodeFrom]
      unfold hilbertDecodeFrom
      rw [List.append_assoc, Proc.bind_ok (LawfulSer.de_bytes _ (dims_valid img.width img.height) _)]
      simp only [borrowing, decodeAny_eq p.scan _ img ha]
      rw [h5]
      exact h3
  | hufman =>
    cases hm
    exact hufmanDecodeFrom_left p.heapRgb hp.orderRgb ha hb rest
  | zip z =>
    cases hm
    cases z with
    | dict =>
      rw [zipEncode_dict] at hb
      obtain ⟨syms, hpar, he⟩ := zipDictEncode_spec (zipData img)
      rw [he.bytesOf] at hb
      cases hb
      have h0 := meaning_more oneByteSeqs (symBytes syms) rest
      have h2 := dict_stops (symBytes syms ++ rest)
      rw [hpar.meaning goodDict_start.le] at h0
      obtain ⟨q, hq⟩ := h0
      simp only at hq
      rw [← hq] at h2
      obtain ⟨e, h3, h4⟩ := dict_reaches hpar goodDict_start.le rest _ (decInv_new _) rfl rfl
      simp only [AnyCodec.decodeFrom, zipDecodeFrom, borrowing]
      rw [rebuildImage_reaches img ha h2 h4]
      exact h3
    | back =>
      rw [zipEncode_back] at hb
      obtain ⟨syms, hf, he⟩ := Back.zipBackEncode_spec (show 0 < Back.ringSize by decide) hp.cap (zipData img)
      rw [he] at hb
      obtain ⟨hfit, rfl⟩ := Back.bytesOf_syms hb
      obtain ⟨e, h3, h4⟩ := back_reaches (show 0 < Back.ringSize by decide) syms hfit (Factor.meaning hf [] rfl)
        (Factor.nonempty hf) rest (Back.DecInv.new Back.ringSize _)
      obtain ⟨o, en, hr⟩ := Back.reads_total Back.ringSize _ [] (syms.flatMap symbolBytes) (Nat.le_refl _)
      obtain ⟨o', e', hr', q, hq⟩ := reads_more hr rest
      have hy := Back.yields_meaning (show 0 < Back.ringSize by decide) syms hfit (Factor.meaning hf [] rfl)
        (Factor.nonempty hf) (Back.DecInv.new Back.ringSize _)
      have ho : zipData img = o := stops_unique (.inl hy.endsAfter) (back_stops hr)
      have h2 := back_stops hr'
      rw [← hq, ← ho] at h2
      simp only [AnyCodec.decodeFrom, zipDecodeFrom, borrowing]
      rw [rebuildImage_reaches img ha h2 h4]
      exact h3

/-- The file is one that the codec writes, and `out` is what the codec decodes it to. -/
def Written (p : Setup) (c : AnyCodec) (file : List UInt8) (out : RgbImage) : Prop :=
  ∃ fuel img m, VisitsOnce p.scan img.width.toNat img.height.toNat ∧ Addressable img ∧
    c.encode p fuel img = .ok m ∧ bytesOf m = .ok file ∧ c.decode p file = .ok out

/-- A caller that decodes one picture with each of the codecs from one reader. -/
def decodeEach (p : Setup) : List AnyCodec → Rd (List UInt8) (List RgbImage)
  | [] => pure []
  | c :: cs => do
    let img ← c.decodeFrom p
    let imgs ← decodeEach p cs
    pure (img :: imgs)

/-- **C126**, several pictures: files of any codecs, one after the other in a single stream, are decoded one after the
other from it. -/
theorem C126_several {p : Setup} (hp : p.Lawful) (hsort : IsSort p.out.sort)
    (files : List (AnyCodec × List UInt8 × RgbImage)) (hf : ∀ f ∈ files, Written p f.1 f.2.1 f.2.2)
    (rest : List UInt8) :
    decodeEach p (files.map fun f => f.1) (files.flatMap (fun f => f.2.1) ++ rest) =
      (.ok (files.map fun f => f.2.2), rest) := by
  induction files with
  | nil => rfl
  | cons f files ih =>
    obtain ⟨fuel, img, m, hs, ha, hm, hb, hd⟩ := hf f (by simp)
    have h1 := C126_left hp hsort hs ha hm hb (files.flatMap (fun f => f.2.1) ++ rest)
    rw [hd] at h1
    simp only [List.map_cons, List.flatMap_cons, decodeEach, List.append_assoc]
    rw [Proc.bind_ok h1, Proc.bind_ok (ih fun g hg => hf g (by simp [hg]))]
    rfl

theorem decodeFrom_congr {p q : Setup} (hscan : q.scan = p.scan) (hchk : q.chk = p.chk) (c : AnyCodec) :
    c.decodeFrom q = c.decodeFrom p := by
  cases c <;> simp only [AnyCodec.decodeFrom, hscan, hchk]

/-- **C126**, files inside files: of two files that a codec writes, perhaps in different runs of the program, none begins
with the other one, unless they are the same. -/
theorem C126_no_prefix {p q : Setup} (hp : p.Lawful) (hq : q.Lawful) (hsort : IsSort p.out.sort)
    (hsort' : IsSort q.out.sort) (hscan : q.scan = p.scan) (hchk : q.chk = p.chk) {c : AnyCodec} {img img' : Img}
    (hs : VisitsOnce p.scan img.width.toNat img.height.toNat)
    (hs' : VisitsOnce q.scan img'.width.toNat img'.height.toNat) (ha : Addressable img) (ha' : Addressable img')
    {fuel fuel' : Nat} {m m' : W Unit} (hm : c.encode p fuel img = .ok m) (hm' : c.encode q fuel' img' = .ok m')
    {file file' : List UInt8} (hb : bytesOf m = .ok file) (hb' : bytesOf m' = .ok file') (h : file <+: file') :
    file = file' := by
  obtain ⟨t, rfl⟩ := h
  have h1 := C126_left hp hsort hs ha hm hb t
  have h2 := C126_left hq hsort' hs' ha' hm' hb' []
  rw [List.append_nil, decodeFrom_congr hscan hchk, h1] at h2
  rw [(Prod.mk.inj h2).2, List.append_nil]

/-- **C126**, other files: of a file with a run that is longer than the picture, or with a longer payload than the picture
needs, the reader keeps the bytes that the decoder did not ask for; a file that is too short is read to its end. -/
theorem C126_others (d : F64) :
    hilbertDecodeFrom cells (.rle d) [1, 0, 0, 0, 1, 0, 0, 0, 9, 3, 0, 0, 0, 0, 0, 0, 0, 7, 8, 9, 5] =
      (.ok { width := 1, height := 1, pixels := [⟨7, 8, 9⟩] }, [5]) ∧
    hufmanDecodeFrom [2, 0, 0, 0, 1, 0, 0, 0, 0, 3, 0, 0, 0, 0, 0, 0, 0, 1, 2, 3, 77] =
      (.ok { width := 2, height := 1, pixels := [⟨1, 2, 3⟩, ⟨1, 2, 3⟩] }, [77]) ∧
    hilbertDecodeFrom cells (.rle d) [1, 0, 0, 0, 1, 0, 0, 0] =
      (.ok { width := 1, height := 1, pixels := [⟨0, 0, 0⟩] }, []) := by
  refine ⟨rfl, rfl, rfl⟩

/-! ## Examples -/

namespace PositionExamples
open AnyCodecExamples

theorem written43 {c : AnyCodec} (hc : c ∈ [AnyCodec.delta, .hilbert (.rle (.fin 0)), .hilbert .zip, .hufman, .zip .dict]) :
    ∃ bytes, Written setup c bytes example43.toRgb := by
  have ha : Addressable example43 := by unfold Addressable; decide
  obtain ⟨m, bytes, h1, h2, h3⟩ := C39_completes setup_lawful 0 (c := c) (img := example43) (by
    simp only [List.mem_cons, List.not_mem_nil, or_false] at hc
    rcases hc with rfl | rfl | rfl | rfl | rfl <;> rfl) (by rintro rfl; simp at hc) (.refl _) ha (by decide)
  exact ⟨bytes, 0, example43, m, .refl _, ha, h1, h2, h3⟩

/-- Three files of different codecs and two more bytes. -/
example : ∃ a b c, decodeEach setup [.delta, .zip .dict, .hufman] (a ++ b ++ c ++ [0, 7]) =
    (.ok [example43.toRgb, example43.toRgb, example43.toRgb], [0, 7]) := by
  obtain ⟨a, ha⟩ := written43 (c := .delta) (by simp)
  obtain ⟨b, hb⟩ := written43 (c := .zip .dict) (by simp)
  obtain ⟨c, hc⟩ := written43 (c := .hufman) (by simp)
  have := C126_several setup_lawful sortByDist_isSort [(.delta, a, example43.toRgb), (.zip .dict, b, example43.toRgb), (.hufman, c, example43.toRgb)] (by
    intro f hf
    simp only [List.mem_cons, List.not_mem_nil, or_false] at hf
    rcases hf with rfl | rfl | rfl
    · exact ha
    · exact hb
    · exact hc) [0, 7]
  refine ⟨a, b, c, ?_⟩
  rw [List.append_assoc a b c]
  simp only [List.flatMap_cons, List.flatMap_nil, List.append_nil] at this
  exact this

/-- What each of the codecs leaves of two bytes after its file. -/
def leaves91 (c : AnyCodec) : Option (List UInt8) :=
  match c.encode { setup with chk := false } 100 example91 with
  | .ok m =>
    match bytesOf m with
    | .ok bytes => some (c.decodeFrom setup (bytes ++ [5, 6])).2
    | _ => none
  | _ => none

example : [AnyCodec.voronoi 2, .clusterColors 1, .hufman, .delta, .hilbert (.rle (.fin 0)), .hilbert (.rle (.fin 3))].map
    leaves91 = List.replicate 6 (some [5, 6]) := by decide +kernel

end PositionExamples

end Cniic
