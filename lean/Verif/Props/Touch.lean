import Verif.Proofs.Touch
import Verif.Props.Background
import Verif.Props.Depth
import Verif.Props.Quality

/-!
# What changing pixels costs (C124)

A file of exact runs grows by at most 24 bytes per changed pixel, and shrinks by no more.  A Huffman file grows by at most 45 bits per
changed pixel as long as there are no new colours; but a single pixel of a new colour can cost half a bit for each pixel of the
picture.
-/

namespace Cniic
open Spec SerSpec

/-- **C124**, hilbert with exact runs: the sizes of the files of two pictures of one size differ by at most 24 bytes per pixel in which
the pictures differ. -/
theorem C124_rle {p : Setup} (fuel : Nat) {d : F64} (hd : d.isZero = true) {img img' : Img} (hw : img.width = img'.width)
    (hh : img.height = img'.height) (hs : VisitsOnce p.scan img.width.toNat img.height.toNat) :
    ∃ m bytes m' bytes', (AnyCodec.hilbert (.rle d)).encode p fuel img = .ok m ∧ bytesOf m = .ok bytes ∧
      (AnyCodec.hilbert (.rle d)).encode p fuel img' = .ok m' ∧ bytesOf m' = .ok bytes' ∧
      bytes'.length ≤ bytes.length + 24 * differences img.rgbPixels img'.rgbPixels ∧
      bytes.length ≤ bytes'.length + 24 * differences img.rgbPixels img'.rgbPixels := by
  have key : ∀ {img img' : Img}, img.width = img'.width → img.height = img'.height →
      VisitsOnce p.scan img.width.toNat img.height.toNat → ∀ {bytes bytes'},
      bytesOf (hilbertEncode p.scan p.out.fl (.rle d) img) = .ok bytes →
      bytesOf (hilbertEncode p.scan p.out.fl (.rle d) img') = .ok bytes' →
      bytes'.length ≤ bytes.length + 24 * differences img.rgbPixels img'.rgbPixels := by
    intro img img' hw hh hs bs bs' hb hb'
    obtain ⟨runs, h1, h2, h3, he⟩ := hilbertEncode_exact p.out.fl hs hd
    obtain ⟨m', b', g1, g2, g3⟩ := C77_hilbert_rle_fewest (p := p) fuel hd (img := img') (by rw [← hw, ← hh]; exact hs)
    obtain rfl := Ret.ok.inj g1
    obtain rfl := Ret.ok.inj (g2.symm.trans hb')
    obtain rfl := Ret.ok.inj (he.bytesOf.symm.trans hb)
    have hl : ∀ img : Img, VisitsOnce p.scan img.width.toNat img.height.toNat →
        (colorsAlong p.scan img).length = img.width.toNat * img.height.toNat := fun img hs => by
      rw [colorsAlong, List.length_map, linearize_length hs]
    obtain ⟨runs', k1, k2⟩ := runs_changed runs (xs := colorsAlong p.scan img') (by
      rw [h2, hl img hs, hl img' (by rw [← hw, ← hh]; exact hs), hw, hh])
    have := g3 runs' k1
    rw [h2, differences_along hw hh hs] at k2
    rw [List.length_append, dims_length, runs_bytes_length]
    omega
  have hs' : VisitsOnce p.scan img'.width.toNat img'.height.toNat := by rw [← hw, ← hh]; exact hs
  obtain ⟨m, bs, h1, h2, -⟩ := C77_hilbert_rle_fewest (p := p) fuel hd hs
  obtain ⟨m', bs', h1', h2', -⟩ := C77_hilbert_rle_fewest (p := p) fuel hd hs'
  refine ⟨m, bs, m', bs', h1, h2, h1', h2', ?_, ?_⟩
  · obtain rfl := Ret.ok.inj h1
    obtain rfl := Ret.ok.inj h1'
    exact key hw hh hs h2 h2'
  · obtain rfl := Ret.ok.inj h1
    obtain rfl := Ret.ok.inj h1'
    rw [differences_comm]
    exact key hw.symm hh.symm hs' h2' h2

/-- **C124**, Huffman codes: if `k` items are replaced by others that occur, the bits grow by at most `k` times the length that
codewords for so many items may have. -/
theorem C124_bits {T : Type} [DecidableEq T] [Ser T] [SerSpec T] [LawfulSer T] (M : MinHeap T) {items items' : List T} {B B' : Nat}
    (hv : ∀ x ∈ items, valid x) (h : FewestBits items B) (h' : FewestBits items' B') (hl : items.length = items'.length)
    (hsub : ∀ x ∈ items', x ∈ items) {L : Nat} (hL : items.length < fib (L + 3)) :
    B' ≤ B + L * differences items items' := by
  by_cases hne : items = []
  · subst hne
    obtain rfl := List.length_eq_zero_iff.1 hl.symm
    rw [FewestBits.unique h h']
    exact Nat.le_add_right _ _
  obtain ⟨S, hS⟩ := distinct_exists items
  have ho : IsOrder (id : List (T × Nat) → List (T × Nat)) := fun _ => .refl _
  obtain ⟨enc, dec, code, hb, hc, hp, rfl⟩ := fewest_codes M ho hne h
  obtain ⟨enc', dec', hb', hc', -⟩ := C84_code_length M ho hne hv hS
  rw [hb] at hb'
  obtain ⟨rfl, rfl⟩ := Prod.mk.inj (Option.some.inj hb')
  refine Nat.le_trans (h'.2 code fun x hx y hy => hp x (hsub x hx) y (hsub y hy)) (payload_changed hl fun x hx => ?_)
  obtain ⟨a, e1, e2⟩ := hc x (hsub x hx)
  obtain ⟨w, f1, f2, -⟩ := hc' x (hsub x hx)
  obtain ⟨a', g1, g2, -⟩ := fromSlice_msb w
  rw [e1, g1] at f1
  rw [← Option.some.inj f1, e2] at g2
  rw [g2]
  apply Nat.le_of_not_lt
  intro hlt
  have := fib_mono (m := L + 3) (n := w.length + 2) (by omega)
  omega

/-- **C124**, hufman: if no new colours appear, the file grows by at most `L` bits per changed pixel, for pictures of less than
`fib (L + 3)` pixels; 45 bits are enough for 2^32 pixels. -/
theorem C124_hufman {p : Setup} (hp : p.Lawful) (fuel : Nat) {img img' : Img} (hne : img.pixels ≠ []) (hw : img.width = img'.width)
    (hh : img.height = img'.height) (hsub : ∀ x ∈ img'.rgbPixels, x ∈ img.rgbPixels) {L : Nat}
    (hL : img.pixels.length < fib (L + 3)) :
    ∃ m bytes m' bytes', AnyCodec.hufman.encode p fuel img = .ok m ∧ bytesOf m = .ok bytes ∧
      AnyCodec.hufman.encode p fuel img' = .ok m' ∧ bytesOf m' = .ok bytes' ∧
      bytes'.length ≤ bytes.length + (L * differences img.rgbPixels img'.rgbPixels + 7) / 8 := by
  obtain ⟨S, hS⟩ := distinct_exists img.rgbPixels
  obtain ⟨S', hS'⟩ := distinct_exists img'.rgbPixels
  have hsz : img.pixels.length = img'.pixels.length := by rw [img.size, img'.size, hw, hh]
  have hne' : img'.pixels ≠ [] := by
    intro h
    rw [h] at hsz
    exact hne (List.length_eq_zero_iff.1 hsz)
  obtain ⟨m, bs, B, h1, h2, hB, h4, -⟩ := C77_hufman hp fuel hne hS
  obtain ⟨m', bs', B', h1', h2', hB', h4', -⟩ := C77_hufman hp fuel hne' hS'
  refine ⟨m, bs, m', bs', h1, h2, h1', h2', ?_⟩
  have hb := C124_bits p.heapRgb (fun x _ => rgb_valid x) hB hB' (by simpa [Img.rgbPixels] using hsz) hsub
    (L := L) (by simpa [Img.rgbPixels] using hL)
  have hc : S'.length ≤ S.length :=
    (hS'.1.subperm fun x hx => (hS.2 x).2 (hsub x ((hS'.2 x).1 hx))).length_le
  rw [h4, h4']
  omega

/-- **C124**, hufman on at most 2^32 pixels: 45 bits per changed pixel. -/
theorem C124_hufman_large {p : Setup} (hp : p.Lawful) (fuel : Nat) {img img' : Img} (hne : img.pixels ≠ []) (hw : img.width = img'.width)
    (hh : img.height = img'.height) (hsub : ∀ x ∈ img'.rgbPixels, x ∈ img.rgbPixels) (hL : img.pixels.length ≤ 2 ^ 32) :
    ∃ m bytes m' bytes', AnyCodec.hufman.encode p fuel img = .ok m ∧ bytesOf m = .ok bytes ∧
      AnyCodec.hufman.encode p fuel img' = .ok m' ∧ bytesOf m' = .ok bytes' ∧
      bytes'.length ≤ bytes.length + (45 * differences img.rgbPixels img'.rgbPixels + 7) / 8 :=
  C124_hufman hp fuel hne hw hh hsub (by rw [fib_small.1]; omega)

/-- **C124**, delta: a changed pixel changes two differences. -/
theorem C124_delta {p : Setup} (hp : p.Lawful) (fuel : Nat) {img img' : Img} (hne : img.pixels ≠ []) (hw : img.width = img'.width)
    (hh : img.height = img'.height) (hs : VisitsOnce p.scan img.width.toNat img.height.toNat)
    (hsub : ∀ x ∈ diffs black (colorsAlong p.scan img'), x ∈ diffs black (colorsAlong p.scan img)) {L : Nat}
    (hL : img.pixels.length < fib (L + 3)) :
    ∃ m bytes m' bytes', AnyCodec.delta.encode p fuel img = .ok m ∧ bytesOf m = .ok bytes ∧
      AnyCodec.delta.encode p fuel img' = .ok m' ∧ bytesOf m' = .ok bytes' ∧
      bytes'.length ≤ bytes.length + (2 * L * differences img.rgbPixels img'.rgbPixels + 7) / 8 := by
  obtain ⟨S, hS⟩ := distinct_exists (diffs black (colorsAlong p.scan img))
  obtain ⟨S', hS'⟩ := distinct_exists (diffs black (colorsAlong p.scan img'))
  have hsz : img.pixels.length = img'.pixels.length := by rw [img.size, img'.size, hw, hh]
  have hs' : VisitsOnce p.scan img'.width.toNat img'.height.toNat := by rw [← hw, ← hh]; exact hs
  have hne' : img'.pixels ≠ [] := by
    intro h
    rw [h] at hsz
    exact hne (List.length_eq_zero_iff.1 hsz)
  have hl : ∀ {img : Img}, VisitsOnce p.scan img.width.toNat img.height.toNat →
      (colorsAlong p.scan img).length = img.pixels.length := fun {img} hs => by
    rw [colorsAlong, List.length_map, linearize_length hs, ← img.size]
  obtain ⟨m, bs, B, h1, h2, hB, h4, -⟩ := C77_delta hp fuel hs hne hS
  obtain ⟨m', bs', B', h1', h2', hB', h4', -⟩ := C77_delta hp fuel hs' hne' hS'
  refine ⟨m, bs, m', bs', h1, h2, h1', h2', ?_⟩
  have hb := C124_bits p.heapDiff (fun x _ => signedColor_valid x) hB hB'
    (by rw [diffs_length, diffs_length, hl hs, hl hs', hsz]) hsub (L := L) (by rw [diffs_length, hl hs]; exact hL)
  have hd := diffs_changed black (a := colorsAlong p.scan img) (b := colorsAlong p.scan img') (by rw [hl hs, hl hs', hsz])
  rw [differences_along hw hh hs] at hd
  have hm := Nat.mul_le_mul_left L hd
  have hc : S'.length ≤ S.length :=
    (hS'.1.subperm fun x hx => (hS.2 x).2 (hsub x ((hS'.2 x).1 hx))).length_le
  rw [← Nat.mul_assoc, Nat.mul_comm L 2] at hm
  rw [h4, h4']
  omega

/-- **C124**, a new colour: two colours with `n` pixels each take one bit per pixel.  With one pixel of a third colour it is one and a
half. -/
theorem C124_jump {p : Setup} (hp : p.Lawful) (fuel : Nat) {n : Nat} (hn : 2 ≤ n) {a b c : Rgb UInt8} (hab : a ≠ b) (hac : a ≠ c)
    (hbc : b ≠ c) {img img' : Img} (h : img.rgbPixels = List.replicate n a ++ List.replicate n b)
    (h' : img'.rgbPixels = List.replicate n a ++ (List.replicate (n - 1) b ++ [c])) :
    ∃ m bytes m' bytes', AnyCodec.hufman.encode p fuel img = .ok m ∧ bytesOf m = .ok bytes ∧
      AnyCodec.hufman.encode p fuel img' = .ok m' ∧ bytesOf m' = .ok bytes' ∧ differences img.rgbPixels img'.rgbPixels = 1 ∧
      bytes.length = 33 + (2 * n + 7) / 8 ∧ bytes'.length = 46 + (3 * n + 7) / 8 := by
  have hl : ∀ img : Img, img.rgbPixels.length = img.pixels.length := fun img => by simp [Img.rgbPixels]
  obtain ⟨m, bs, h1, h2, h3⟩ := C119_hufman_two hp fuel (img := img) (a := a) (b := b) ⟨by simp [hab], fun x => by
    rw [h]
    simp only [List.mem_append, List.mem_replicate, List.mem_cons, List.not_mem_nil, or_false]
    constructor
    · rintro (rfl | rfl)
      · exact .inl ⟨by omega, rfl⟩
      · exact .inr ⟨by omega, rfl⟩
    · rintro (⟨-, e⟩ | ⟨-, e⟩)
      · exact .inl e
      · exact .inr e⟩
  have ca : img'.rgbPixels.count a = n := by
    rw [h']
    simp [List.count_append, List.count_replicate, hab.symm, hac.symm]
  have hlen : img'.rgbPixels.length = 2 * n := by
    rw [h']; simp; omega
  obtain ⟨m', bs', h1', h2', h3'⟩ := C119_hufman_three hp fuel (img := img') (c := a) (a := b) (b := c)
    ⟨by simp [hab, hac, hbc], fun x => by
      rw [h']
      simp only [List.mem_append, List.mem_replicate, List.mem_cons, List.not_mem_nil, or_false]
      constructor
      · rintro (rfl | rfl | rfl)
        · exact .inl ⟨by omega, rfl⟩
        · exact .inr (.inl ⟨by omega, rfl⟩)
        · exact .inr (.inr rfl)
      · rintro (⟨-, e⟩ | ⟨-, e⟩ | e)
        · exact .inl e
        · exact .inr (.inl e)
        · exact .inr (.inr e)⟩ (by
      intro y _
      rw [ca]
      by_cases hy : y = a
      · rw [hy, ca]
      · have := count_le_length_without (x := a) (items := img'.rgbPixels)
        have h2 : img'.rgbPixels.count y ≤ (without a img'.rgbPixels).length := by
          unfold without
          rw [← List.count_filter (p := fun z => decide (z ≠ a)) (by simpa using hy)]
          exact List.count_le_length
        omega)
  refine ⟨m, bs, m', bs', h1, h2, h1', h2', ?_, ?_, ?_⟩
  · rw [h, h', differences_append rfl, differences_self, Nat.zero_add,
      show List.replicate n b = List.replicate (n - 1) b ++ [b] by
        rw [← List.replicate_succ', Nat.sub_add_cancel (by omega)],
      differences_append rfl, differences_self, Nat.zero_add, differences_cons, if_neg hbc, differences_self]
  · have : img.rgbPixels.length = 2 * n := by rw [h]; simp; omega
    rw [h3, ← hl, this]
  · rw [h3', ← hl, ca, hlen]
    omega

/-! ## Concrete cases -/

namespace TouchExamples
open ExtremeExamples (release release_lawful)

/-- C124: one pixel in the middle of a run: at most two more runs. -/
example : ∃ m bytes m' bytes', (AnyCodec.hilbert (.rle (.fin 0))).encode release 0 (redRow [5, 5, 5, 5, 5] (by decide)) = .ok m ∧
    bytesOf m = .ok bytes ∧ (AnyCodec.hilbert (.rle (.fin 0))).encode release 0 (redRow [5, 5, 6, 5, 5] (by decide)) = .ok m' ∧
    bytesOf m' = .ok bytes' ∧ bytes'.length ≤ bytes.length + 24 ∧ bytes.length ≤ bytes'.length + 24 := by
  obtain ⟨m, bs, m', bs', h1, h2, h3, h4, h5, h6⟩ := C124_rle (p := release) 0 (d := .fin 0) (by decide +kernel)
    (img := redRow [5, 5, 5, 5, 5] (by decide)) (img' := redRow [5, 5, 6, 5, 5] (by decide)) rfl rfl (.refl _)
  have e : differences (redRow [5, 5, 5, 5, 5] (by decide)).rgbPixels (redRow [5, 5, 6, 5, 5] (by decide)).rgbPixels = 1 := by
    decide +kernel
  rw [e] at h5 h6
  exact ⟨m, bs, m', bs', h1, h2, h3, h4, h5, h6⟩

/-- It is two more. -/
example : bytesOf (hilbertEncode release.scan release.out.fl (.rle (.fin 0)) (redRow [5, 5, 5, 5, 5] (by decide))) =
      .ok (bytes ((5, 1) : UInt32 × UInt32) ++ runBytes (5, ⟨5, 0, 0⟩)) ∧
    bytesOf (hilbertEncode release.scan release.out.fl (.rle (.fin 0)) (redRow [5, 5, 6, 5, 5] (by decide))) =
      .ok (bytes ((5, 1) : UInt32 × UInt32) ++ (runBytes (2, ⟨5, 0, 0⟩) ++ (runBytes (1, ⟨6, 0, 0⟩) ++ runBytes (2, ⟨5, 0, 0⟩)))) := by
  decide +kernel

/-- C124: seven pixels, less than `fib (3 + 3)`. -/
example : ∃ m bytes m' bytes', AnyCodec.hufman.encode release 0 (redRow [1, 1, 1, 1, 2, 2, 3] (by decide)) = .ok m ∧
    bytesOf m = .ok bytes ∧ AnyCodec.hufman.encode release 0 (redRow [1, 1, 1, 3, 2, 2, 3] (by decide)) = .ok m' ∧
    bytesOf m' = .ok bytes' ∧ bytes'.length ≤ bytes.length + (3 * differences (redRow [1, 1, 1, 1, 2, 2, 3] (by decide)).rgbPixels
      (redRow [1, 1, 1, 3, 2, 2, 3] (by decide)).rgbPixels + 7) / 8 :=
  C124_hufman release_lawful 0 (img := redRow [1, 1, 1, 1, 2, 2, 3] (by decide)) (img' := redRow [1, 1, 1, 3, 2, 2, 3] (by decide))
    (by decide) rfl rfl (by decide) (L := 3) (by decide)

/-- C124: forty pixels, ten of them changed. -/
example : ∃ m bytes m' bytes', AnyCodec.hufman.encode release 0 (redRow (List.replicate 20 1 ++ List.replicate 20 2) (by decide)) = .ok m ∧
    bytesOf m = .ok bytes ∧ AnyCodec.hufman.encode release 0 (redRow (List.replicate 10 1 ++ List.replicate 30 2) (by decide)) = .ok m' ∧
    bytesOf m' = .ok bytes' ∧ bytes'.length ≤ bytes.length +
      (45 * differences (redRow (List.replicate 20 1 ++ List.replicate 20 2) (by decide)).rgbPixels
      (redRow (List.replicate 10 1 ++ List.replicate 30 2) (by decide)).rgbPixels + 7) / 8 :=
  C124_hufman_large release_lawful 0 (img := redRow (List.replicate 20 1 ++ List.replicate 20 2) (by decide))
    (img' := redRow (List.replicate 10 1 ++ List.replicate 30 2) (by decide)) (by decide +kernel) (by decide +kernel) rfl
    (by decide +kernel) (by decide +kernel)

/-- C124: differences 1, 0, 0, 1, 0 and 1, 0, 1, 0, 0. -/
example : ∃ m bytes m' bytes', AnyCodec.delta.encode release 0 (redRow [1, 1, 1, 2, 2] (by decide)) = .ok m ∧
    bytesOf m = .ok bytes ∧ AnyCodec.delta.encode release 0 (redRow [1, 1, 2, 2, 2] (by decide)) = .ok m' ∧
    bytesOf m' = .ok bytes' ∧ bytes'.length ≤ bytes.length + (2 * 3 * differences (redRow [1, 1, 1, 2, 2] (by decide)).rgbPixels
      (redRow [1, 1, 2, 2, 2] (by decide)).rgbPixels + 7) / 8 :=
  C124_delta release_lawful 0 (img := redRow [1, 1, 1, 2, 2] (by decide)) (img' := redRow [1, 1, 2, 2, 2] (by decide))
    (by decide) rfl rfl (.refl _) (by decide +kernel) (L := 3) (by decide)

/-- C124: sixteen pixels. -/
example : ∃ m bytes m' bytes', AnyCodec.hufman.encode release 0 (redRow [1, 1, 1, 1, 1, 1, 1, 1, 2, 2, 2, 2, 2, 2, 2, 2] (by decide)) = .ok m ∧
    bytesOf m = .ok bytes ∧ AnyCodec.hufman.encode release 0 (redRow [1, 1, 1, 1, 1, 1, 1, 1, 2, 2, 2, 2, 2, 2, 2, 3] (by decide)) = .ok m' ∧
    bytesOf m' = .ok bytes' ∧ differences (redRow [1, 1, 1, 1, 1, 1, 1, 1, 2, 2, 2, 2, 2, 2, 2, 2] (by decide)).rgbPixels
      (redRow [1, 1, 1, 1, 1, 1, 1, 1, 2, 2, 2, 2, 2, 2, 2, 3] (by decide)).rgbPixels = 1 ∧
    bytes.length = 33 + (2 * 8 + 7) / 8 ∧ bytes'.length = 46 + (3 * 8 + 7) / 8 :=
  C124_jump release_lawful 0 (n := 8) (by decide) (a := ⟨1, 0, 0⟩) (b := ⟨2, 0, 0⟩) (c := ⟨3, 0, 0⟩) (by decide) (by decide) (by decide)
    (by decide +kernel) (by decide +kernel)

end TouchExamples

end Cniic
