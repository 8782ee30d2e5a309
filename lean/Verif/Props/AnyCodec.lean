import Verif.Model.AnyCodec
import Verif.Core.Ieee
import Verif.Proofs.Staged
import Verif.Props.Approx
import Verif.Props.Clusterc

/-!
# Properties of all codecs (C38, C39)
-/

namespace Cniic
open Spec SerSpec Kmeans Spec.Kmeans

/-- What is assumed about the outside. -/
structure Setup.Lawful (p : Setup) : Prop where
  float      : p.out.fl.Lawful
  orderColor : IsOrder p.orderColor
  orderRgb   : IsOrder p.orderRgb
  orderDiff  : IsOrder p.orderDiff
  cap        : ∀ i, Back.repBufInit ≤ p.cap i

/-- The codecs whose payload is a Huffman code. -/
def AnyCodec.usesHuffman : AnyCodec → Bool
  | .clusterColors _ | .delta | .hufman => true
  | _ => false

/-- The differences written by the delta codec. -/
theorem delta_ne {p : Setup} {img : Img} (hs : VisitsOnce p.scan img.width.toNat img.height.toNat)
    (hne : img.pixels ≠ []) : diffs black (colorsAlong p.scan img) ≠ [] := by
  intro h
  have h1 := congrArg List.length h
  rw [diffs_length, colorsAlong, List.length_map, linearize_length hs, ← img.size] at h1
  exact hne (List.length_eq_zero_iff.1 h1)

theorem delta_empty {p : Setup} {img : Img} (hs : VisitsOnce p.scan img.width.toNat img.height.toNat)
    (he : img.pixels = []) : diffs black (colorsAlong p.scan img) = [] := by
  apply List.length_eq_zero_iff.1
  rw [diffs_length, colorsAlong, List.length_map, linearize_length hs, ← img.size, he]
  rfl

/-- **C39**, an image without pixels: the delta codec panics, like the hufman codec. -/
theorem C39_delta_empty {p : Setup} (hp : p.Lawful) {img : Img}
    (hs : VisitsOnce p.scan img.width.toNat img.height.toNat) (he : img.pixels = []) :
    bytesOf (deltaEncode p.chk p.scan p.heapDiff p.orderDiff img) = .panic := by
  obtain ⟨n, hn⟩ := (emits_dims img).run_mem []
  rw [deltaEncode_eq p.chk _ _ hs]
  unfold bytesOf
  rw [Proc.bind_ok hn, delta_empty hs he]
  have := encodeAll_empty p.heapDiff hp.orderDiff { Sink.mem ([] ++ bytes (img.width, img.height)) with calls := n }
  rcases hr : encodeAll p.heapDiff p.orderDiff [] { Sink.mem ([] ++ bytes (img.width, img.height)) with calls := n } with ⟨r, s⟩
  rw [hr] at this
  simp only at this
  subst this
  rfl

/-- **C39.** A codec that reports itself lossless returns, for each image on which encoding completes, an image of the
same size with the same RGB pixels. -/
theorem C39_lossless_flag {p : Setup} (hp : p.Lawful) {fuel : Nat} {c : AnyCodec} (hc : c.isLossless = true)
    {img : Img} (hs : VisitsOnce p.scan img.width.toNat img.height.toNat) (ha : Addressable img)
    {m : W Unit} (hm : c.encode p fuel img = .ok m) {bytes : List UInt8} (hb : bytesOf m = .ok bytes) :
    c.decode p bytes = .ok img.toRgb := by
  cases c with
  | clusterColors n => cases hc
  | voronoi n => cases hc
  | delta =>
    cases hm
    by_cases hne : img.pixels = []
    · rw [C39_delta_empty hp hs hne] at hb; cases hb
    · obtain ⟨bs, he, hd⟩ := C29_delta_lossless p.chk p.scan p.heapDiff p.orderDiff hp.orderDiff img hs ha hne
      rw [he.bytesOf] at hb
      cases hb
      exact hd
  | hilbert method =>
    cases hm
    cases method with
    | rle d =>
      obtain ⟨bs, he, hd⟩ := C30_hilbert_rle_lossless p.scan p.out.fl d hc img hs ha
      rw [he.bytesOf] at hb
      cases hb
      exact hd
    | zip =>
      obtain ⟨bs, he, hd⟩ := C31_hilbert_zip_lossless p.scan p.out.fl img hs ha
      rw [he.bytesOf] at hb
      cases hb
      exact hd
  | hufman =>
    cases hm
    by_cases hne : img.pixels = []
    · rw [C28_empty_image_panics p.heapRgb p.orderRgb hp.orderRgb img hne] at hb; cases hb
    · obtain ⟨bs, he, hd⟩ := C28_hufman_lossless p.heapRgb p.orderRgb hp.orderRgb img ha hne
      rw [he.bytesOf] at hb
      cases hb
      exact hd
  | zip z =>
    cases hm
    cases z with
    | dict =>
      obtain ⟨bs, he, hd⟩ := C32_zip_dict_lossless p.cap img ha
      rw [he.bytesOf] at hb
      cases hb
      exact hd
    | back => exact C33_zip_back_lossless p.cap hp.cap img ha bytes hb

/-- **C39**, completion: on an image with at least one pixel the lossless codecs other than zip(back) always complete. -/
theorem C39_completes {p : Setup} (hp : p.Lawful) (fuel : Nat) {c : AnyCodec} (hc : c.isLossless = true)
    (hz : c ≠ .zip .back) {img : Img} (hs : VisitsOnce p.scan img.width.toNat img.height.toNat) (ha : Addressable img)
    (hne : img.pixels ≠ []) :
    ∃ m bytes, c.encode p fuel img = .ok m ∧ bytesOf m = .ok bytes ∧ c.decode p bytes = .ok img.toRgb := by
  have key : ∀ m bytes, c.encode p fuel img = .ok m → bytesOf m = .ok bytes →
      ∃ m bytes, c.encode p fuel img = .ok m ∧ bytesOf m = .ok bytes ∧ c.decode p bytes = .ok img.toRgb :=
    fun m bytes h1 h2 => ⟨m, bytes, h1, h2, C39_lossless_flag hp hc hs ha h1 h2⟩
  cases c with
  | clusterColors n => cases hc
  | voronoi n => cases hc
  | delta =>
    obtain ⟨bs, he, -⟩ := C29_delta_lossless p.chk p.scan p.heapDiff p.orderDiff hp.orderDiff img hs ha hne
    exact key _ _ rfl he.bytesOf
  | hilbert method =>
    cases method with
    | rle d =>
      obtain ⟨bs, he, -⟩ := C30_hilbert_rle_lossless p.scan p.out.fl d hc img hs ha
      exact key _ _ rfl he.bytesOf
    | zip =>
      obtain ⟨bs, he, -⟩ := C31_hilbert_zip_lossless p.scan p.out.fl img hs ha
      exact key _ _ rfl he.bytesOf
  | hufman =>
    obtain ⟨bs, he, -⟩ := C28_hufman_lossless p.heapRgb p.orderRgb hp.orderRgb img ha hne
    exact key _ _ rfl he.bytesOf
  | zip z =>
    cases z with
    | dict =>
      obtain ⟨bs, he, -⟩ := C32_zip_dict_lossless p.cap img ha
      exact key _ _ rfl he.bytesOf
    | back => exact absurd rfl hz

/-- The hufman codec, in stages. -/
theorem hufman_staged (M : MinHeap (Rgb UInt8)) {ho : List (Rgb UInt8 × Nat) → List (Rgb UInt8 × Nat)}
    (hho : IsOrder ho) {img : Img} {bs : List UInt8} (hb : bytesOf (hufmanEncode M ho img) = .ok bs) :
    ∃ head full last, last.length ≤ 1 ∧
      Staged [(.asError, head), (.asPanic, full), (.asError, last)] (hufmanEncode M ho img) () := by
  by_cases hne : img.pixels = []
  · rw [C28_empty_image_panics M ho hho img hne] at hb; cases hb
  · have hpx : img.rgbPixels ≠ [] := by simpa [Img.rgbPixels] using hne
    obtain ⟨dec, full, last, -, hl, hst⟩ := encodeAll_staged M hho img.rgbPixels hpx fun x _ => rgb_valid x
    exact ⟨_, full, last, hl, Staged.merge (Staged.bind (Emits.staged (emits_dims img)) (f := fun _ => _) hst)⟩

/-- **C38.** Suppose that encoding completes on a device that does not fail.  On any device, encoding reports success
only if no call failed.  Otherwise no call is made after the one that failed, and a prefix of the full encoding has
reached the device.  The failure is returned as an error by the hilbert, zip and voronoi codecs. -/
theorem C38_error_codecs {p : Setup} (hp : p.Lawful) {fuel : Nat} {c : AnyCodec} (hc : c.usesHuffman = false)
    {img : Img} (hs : VisitsOnce p.scan img.width.toNat img.height.toNat)
    {m : W Unit} (hm : c.encode p fuel img = .ok m) {bs : List UInt8} (hb : bytesOf m = .ok bs) :
    Emits Emits.errOnly m bs () := by
  have key : ∀ {bs'}, Emits Emits.errOnly m bs' () → Emits Emits.errOnly m bs () := by
    intro bs' h
    rw [h.bytesOf] at hb
    cases hb
    exact h
  cases c with
  | clusterColors n => cases hc
  | delta => cases hc
  | hufman => cases hc
  | voronoi n =>
    simp only [AnyCodec.encode, voronoiEncode] at hm
    obtain ⟨cl, hcl, hm⟩ := Ret.bind_ok.1 hm
    cases hm
    exact key (Emits.bind (LawfulSer.emits _ trivial) (Emits.bind (LawfulSer.emits _ trivial)
      (Emits.bind (LawfulSer.emits _ trivial) (Emits.forEach _ fun x _ => LawfulSer.emits x (pos_valid x)))))
  | hilbert method =>
    cases hm
    cases method with
    | rle d =>
      cases hd : d.isZero with
      | true =>
        obtain ⟨_, _, _, _, he⟩ := hilbertEncode_exact p.out.fl hs hd
        exact key he
      | false =>
        obtain ⟨_, _, he⟩ := hilbertEncode_approx hp.float hs hd
        exact key he
    | zip =>
      obtain ⟨_, _, he⟩ := hilbertEncode_zip p.out.fl hs
      exact key he
  | zip z =>
    cases hm
    cases z with
    | dict =>
      obtain ⟨_, _, he⟩ := zipDictEncode_spec (zipData img)
      rw [← zipEncode_dict p.cap] at he
      exact key he
    | back =>
      rw [zipEncode_back] at hb key ⊢
      obtain ⟨syms, hf, he⟩ := Back.zipBackEncode_spec (show 0 < Back.ringSize by decide) hp.cap (zipData img)
      rw [he] at hb key ⊢
      obtain ⟨hfit, rfl⟩ := Back.bytesOf_syms hb
      exact Back.emits_syms hfit

/-- **C38**, the codecs based on Huffman coding.  The output has three parts: the size of the image with the code, the
full bytes of the payload, and the last byte of the payload if it is not full.  A failure in the first part is returned
as an error, a failure in the second part is a panic, and a failure in the third part or of the final flush is returned as
an error. -/
theorem C38_huffman_codecs {p : Setup} (hp : p.Lawful) {fuel : Nat} {c : AnyCodec} (hc : c.usesHuffman = true)
    {img : Img} (hs : VisitsOnce p.scan img.width.toNat img.height.toNat)
    {m : W Unit} (hm : c.encode p fuel img = .ok m) {bs : List UInt8} (hb : bytesOf m = .ok bs) :
    ∃ head full last, bs = head ++ full ++ last ∧ last.length ≤ 1 ∧
      Staged [(.asError, head), (.asPanic, full), (.asError, last)] m () := by
  have key : (∃ head full last, last.length ≤ 1 ∧
      Staged [(.asError, head), (.asPanic, full), (.asError, last)] m ()) →
      ∃ head full last, bs = head ++ full ++ last ∧ last.length ≤ 1 ∧
        Staged [(.asError, head), (.asPanic, full), (.asError, last)] m () := by
    rintro ⟨head, full, last, hl, h⟩
    refine ⟨head, full, last, ?_, hl, h⟩
    rw [h.bytesOf] at hb
    cases hb
    simp [stageBytes]
  apply key
  cases c with
  | voronoi n => cases hc
  | hilbert m => cases hc
  | zip z => cases hc
  | hufman =>
    cases hm
    exact hufman_staged p.heapRgb hp.orderRgb hb
  | delta =>
    cases hm
    by_cases hne : img.pixels = []
    · rw [C39_delta_empty hp hs hne] at hb; cases hb
    · obtain ⟨dec, full, last, -, hl, hst⟩ := encodeAll_staged p.heapDiff hp.orderDiff _ (delta_ne hs hne)
        fun x _ => signedColor_valid x
      rw [deltaEncode_eq p.chk _ _ hs]
      exact ⟨_, full, last, hl, Staged.merge (Staged.bind (Emits.staged (emits_dims img)) (f := fun _ => _) hst)⟩
  | clusterColors n =>
    simp only [AnyCodec.encode, clusterColorsEncode] at hm
    obtain ⟨cl, hcl, hm⟩ := Ret.bind_ok.1 hm
    obtain ⟨red, -, hm⟩ := Ret.bind_ok.1 hm
    split at hm
    · cases hm
      exact hufman_staged p.heapRgb hp.orderRgb hb
    · cases hm

/-! ## Examples -/

namespace AnyCodecExamples

def setup : Setup where
  chk := true
  scan := cells
  heapRgb := listHeap _
  heapDiff := listHeap _
  orderColor := id
  orderRgb := id
  orderDiff := id
  cap _ := 16
  out := { ClusterExamples.out with fl := Ieee.ops }

theorem setup_lawful : setup.Lawful where
  float := Ieee.lawful
  orderColor _ := .refl _
  orderRgb _ := .refl _
  orderDiff _ := .refl _
  cap _ := Nat.le_refl 16

/-- The hypotheses are met by each of the lossless codecs. -/
example : ∀ c ∈ [AnyCodec.delta, .hilbert (.rle (.fin 0)), .hilbert .zip, .hufman, .zip .dict],
    ∃ m bytes, c.encode setup 0 example43 = .ok m ∧ bytesOf m = .ok bytes ∧ c.decode setup bytes = .ok example43.toRgb := by
  intro c hc
  refine C39_completes setup_lawful 0 ?_ ?_ (.refl _) (by unfold Addressable; decide) (by decide)
  · simp only [List.mem_cons, List.not_mem_nil, or_false] at hc
    rcases hc with rfl | rfl | rfl | rfl | rfl <;> rfl
  · rintro rfl; simp at hc

/-- Nine pixels in two colours: one full byte of payload and one more bit. -/
def example91 : Img :=
  { width := 9, height := 1
    pixels := (List.range 9).map fun i => ⟨UInt8.ofNat (i % 2), 0, 0, 255⟩, size := by decide }

/-- The result on a device whose call number `n` fails. -/
def failing (c : AnyCodec) (n : Nat) : Option (Ret IoErr Unit × Nat × Nat) :=
  match c.encode { setup with chk := false } 5 example91 with
  | .ok m =>
    let (r, s) := m (Sink.withFaults fun i => if i = n then some 0 else none)
    some (r, s.out.length, s.calls)
  | _ => none

/-- Calls of the hufman codec: 2 for the size, 11 for the code, 1 for the full byte, 1 for the last byte, 1 to flush. -/
example : [1, 12, 13, 14, 15, 16].map (failing .hufman) =
    [some (.err .io, 4, 2), some (.err .io, 32, 13), some (.panic, 33, 14), some (.err .io, 34, 15),
     some (.err .io, 35, 16), some (.ok (), 35, 16)] := by decide +kernel

example : ∃ head full last, last.length ≤ 1 ∧ Staged [(.asError, head), (.asPanic, full), (.asError, last)]
    (hufmanEncode setup.heapRgb setup.orderRgb example91) () := by
  obtain ⟨bs, he, -⟩ := C28_hufman_lossless setup.heapRgb setup.orderRgb setup_lawful.orderRgb example91
    (by unfold Addressable; decide) (by decide)
  obtain ⟨head, full, last, -, h1, h2⟩ :=
    C38_huffman_codecs (c := .hufman) (fuel := 0) setup_lawful rfl (img := example91) (.refl _) rfl he.bytesOf
  exact ⟨head, full, last, h1, h2⟩

/-- The voronoi codec returns an error whichever call fails. -/
example : [0, 3, 10, 14, 15].map (failing (.voronoi 2)) =
    [some (.err .io, 0, 1), some (.err .io, 16, 4), some (.err .io, 39, 11), some (.err .io, 53, 15),
     some (.ok (), 54, 15)] := by decide +kernel

end AnyCodecExamples

end Cniic
