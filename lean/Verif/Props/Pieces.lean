import Verif.Proofs.Pieces
import Verif.Props.Background
import Verif.Props.Touch

/-!
# Cutting a picture into pieces (C125)

Two pictures in one, or separately: with exact runs separate files take 8 to 20 bytes more.  With Huffman codes, two pieces with no
colour in common take at most 8 bytes more than the whole, but may take a bit per pixel less.  For copies of one picture nothing but
the bits grows.
-/

namespace Cniic
open Spec

/-- **C125**, bits: the pieces together need no more bits than the whole, and at most one bit per item less.  For `k` copies the bits
are `k` times as many. -/
theorem C125_bits {T : Type} {a b : List T} {A B C : Nat} (ha : FewestBits a A) (hb : FewestBits b B) (hc : FewestBits (a ++ b) C) :
    A + B ≤ C ∧ C ≤ A + B + (a ++ b).length ∧ ∀ k ≠ 0, FewestBits (List.replicate k a).flatten (k * A) :=
  ⟨fewestBits_parts ha hb hc, fewestBits_whole ha hb hc, fun _ hk => fewestBits_copies hk ha⟩

/-- The different members of a list put together of two. -/
theorem distinct_append {T : Type} [DecidableEq T] {S U a b : List T} (hS : Distinct S a) (hU : Distinct U b) :
    Distinct (S ++ U.filter fun x => decide (x ∉ S)) (a ++ b) := by
  refine ⟨List.nodup_append.2 ⟨hS.1, hU.1.filter _, fun x hx y hy e => ?_⟩, fun x => ?_⟩
  · subst e
    have := (List.mem_filter.1 hy).2
    exact (decide_eq_true_iff.1 this) hx
  · rw [List.mem_append, List.mem_append, List.mem_filter, decide_eq_true_iff, hS.2, hU.2]
    constructor
    · rintro (h | h)
      · exact .inl h
      · exact .inr h.1
    · rintro (h | h)
      · exact .inl h
      · by_cases h' : x ∈ a
        · exact .inl h'
        · exact .inr ⟨h, h'⟩

/-- **C125**, hufman: `img` consists of the pixels of `a` and then those of `b`, with `S` and `U` their colours.  For every colour that
both have the pieces take 13 bytes more.  Apart from that they take at most 8 bytes more, and at least 7 bytes more less a bit for
each pixel. -/
theorem C125_hufman {p : Setup} (hp : p.Lawful) (fuel : Nat) {a b img : Img} (ha : a.pixels ≠ []) (hb : b.pixels ≠ [])
    (h : img.rgbPixels = a.rgbPixels ++ b.rgbPixels) {S U : List (Rgb UInt8)} (hS : Distinct S a.rgbPixels)
    (hU : Distinct U b.rgbPixels) :
    ∃ m₁ file₁ m₂ file₂ m file, AnyCodec.hufman.encode p fuel a = .ok m₁ ∧ bytesOf m₁ = .ok file₁ ∧
      AnyCodec.hufman.encode p fuel b = .ok m₂ ∧ bytesOf m₂ = .ok file₂ ∧
      AnyCodec.hufman.encode p fuel img = .ok m ∧ bytesOf m = .ok file ∧
      file₁.length + file₂.length ≤ file.length + 8 + 13 * (U.filter fun x => decide (x ∈ S)).length ∧
      file.length + 7 + 13 * (U.filter fun x => decide (x ∈ S)).length ≤
        file₁.length + file₂.length + (img.pixels.length + 7) / 8 := by
  have hl : ∀ img : Img, img.rgbPixels.length = img.pixels.length := fun img => by simp [Img.rgbPixels]
  have hne : img.pixels ≠ [] := by
    intro e
    have h1 := hl img
    rw [h, List.length_append, hl, hl, e, List.length_nil] at h1
    exact ha (List.length_eq_zero_iff.1 (by omega))
  obtain ⟨m₁, f₁, A, h1, h2, h3, h4, -⟩ := C77_hufman hp fuel ha hS
  obtain ⟨m₂, f₂, B, g1, g2, g3, g4, -⟩ := C77_hufman hp fuel hb hU
  have hV := distinct_append hS hU
  rw [← h] at hV
  obtain ⟨m, f, C, k1, k2, k3, k4, -⟩ := C77_hufman hp fuel hne hV
  refine ⟨m₁, f₁, m₂, f₂, m, f, h1, h2, g1, g2, k1, k2, ?_⟩
  rw [h] at k3
  have b1 := fewestBits_parts h3 g3 k3
  have b2 := fewestBits_whole h3 g3 k3
  rw [← h, hl] at b2
  have e : (U.filter fun x => decide (x ∈ S)).length + (U.filter fun x => decide (x ∉ S)).length = U.length := by
    have := List.length_eq_length_filter_add (l := U) fun x => decide (x ∈ S)
    simp only [decide_not] at *
    omega
  rw [List.length_append] at k4
  rw [h4, g4, k4]
  constructor <;> omega

/-- **C125**, hufman on `k` copies of a picture below each other: the table is written once. -/
theorem C125_hufman_copies {p : Setup} (hp : p.Lawful) (fuel : Nat) {a img : Img} (ha : a.pixels ≠ []) {k : Nat} (hk : k ≠ 0)
    (h : img.rgbPixels = (List.replicate k a.rgbPixels).flatten) {S : List (Rgb UInt8)} (hS : Distinct S a.rgbPixels) :
    ∃ m₁ file₁ m file B, AnyCodec.hufman.encode p fuel a = .ok m₁ ∧ bytesOf m₁ = .ok file₁ ∧
      AnyCodec.hufman.encode p fuel img = .ok m ∧ bytesOf m = .ok file ∧ FewestBits a.rgbPixels B ∧
      file₁.length = 7 + 13 * S.length + (B + 7) / 8 ∧ file.length = 7 + 13 * S.length + (k * B + 7) / 8 := by
  have hne : img.pixels ≠ [] := by
    intro e
    have : a.rgbPixels ≠ [] := by simpa [Img.rgbPixels] using ha
    obtain ⟨x, hx⟩ := List.exists_mem_of_ne_nil _ this
    have := (mem_copies hk).2 hx
    rw [← h, Img.rgbPixels, e] at this
    exact absurd this List.not_mem_nil
  obtain ⟨m₁, f₁, B, h1, h2, h3, h4, -⟩ := C77_hufman hp fuel ha hS
  obtain ⟨m, f, C, k1, k2, k3, k4, -⟩ := C77_hufman hp fuel hne (S := S) ⟨hS.1, fun x => by rw [hS.2, h, mem_copies hk]⟩
  refine ⟨m₁, f₁, m, f, B, h1, h2, k1, k2, h3, h4, ?_⟩
  rw [h] at k3
  rw [k4, FewestBits.unique k3 (fewestBits_copies hk h3)]

/-- **C125**, hilbert with exact runs: if the traversal of the whole goes through one piece and then through the other, the pieces
take 8 to 20 bytes more. -/
theorem C125_rle {p : Setup} (fuel : Nat) {d : F64} (hd : d.isZero = true) {a b img : Img}
    (ha : VisitsOnce p.scan a.width.toNat a.height.toNat) (hb : VisitsOnce p.scan b.width.toNat b.height.toNat)
    (hs : VisitsOnce p.scan img.width.toNat img.height.toNat)
    (h : colorsAlong p.scan img = colorsAlong p.scan a ++ colorsAlong p.scan b) :
    ∃ m₁ file₁ m₂ file₂ m file, (AnyCodec.hilbert (.rle d)).encode p fuel a = .ok m₁ ∧ bytesOf m₁ = .ok file₁ ∧
      (AnyCodec.hilbert (.rle d)).encode p fuel b = .ok m₂ ∧ bytesOf m₂ = .ok file₂ ∧
      (AnyCodec.hilbert (.rle d)).encode p fuel img = .ok m ∧ bytesOf m = .ok file ∧
      file.length + 8 ≤ file₁.length + file₂.length ∧ file₁.length + file₂.length ≤ file.length + 20 := by
  obtain ⟨r₁, -, h₁, -, e₁⟩ := hilbertEncode_exact p.out.fl ha hd
  obtain ⟨r₂, -, h₂, -, e₂⟩ := hilbertEncode_exact p.out.fl hb hd
  obtain ⟨r, -, h₃, -, e⟩ := hilbertEncode_exact p.out.fl hs hd
  obtain ⟨m₁, f₁, g1, g2, g3⟩ := C77_hilbert_rle_fewest (p := p) fuel hd ha
  obtain ⟨m₂, f₂, i1, i2, i3⟩ := C77_hilbert_rle_fewest (p := p) fuel hd hb
  obtain ⟨m, f, j1, j2, j3⟩ := C77_hilbert_rle_fewest (p := p) fuel hd hs
  obtain ⟨s₁, s₂, k1, k2, k3⟩ := runs_cut r (h₃.trans h)
  refine ⟨m₁, f₁, m₂, f₂, m, f, g1, g2, i1, i2, j1, j2, ?_⟩
  have q1 := g3 s₁ k1
  have q2 := i3 s₂ k2
  have q3 := j3 (r₁ ++ r₂) (by rw [expandRuns_append, h₁, h₂, h])
  obtain rfl := Ret.ok.inj g1
  obtain rfl := Ret.ok.inj i1
  obtain rfl := Ret.ok.inj j1
  have l1 := congrArg List.length (Ret.ok.inj (e₁.bytesOf.symm.trans g2))
  have l2 := congrArg List.length (Ret.ok.inj (e₂.bytesOf.symm.trans i2))
  have l3 := congrArg List.length (Ret.ok.inj (e.bytesOf.symm.trans j2))
  rw [List.length_append, dims_length, runs_bytes_length] at l1 l2 l3
  rw [List.length_append] at q3
  omega

/-! ## Concrete cases -/

namespace PiecesExamples
open ExtremeExamples (release release_lawful)

/-- C125: a red row and a darker one with a colour in common. -/
example : ∃ m₁ file₁ m₂ file₂ m file, AnyCodec.hufman.encode release 0 (redRow [1, 1, 2] (by decide)) = .ok m₁ ∧ bytesOf m₁ = .ok file₁ ∧
    AnyCodec.hufman.encode release 0 (redRow [2, 3, 3, 4] (by decide)) = .ok m₂ ∧ bytesOf m₂ = .ok file₂ ∧
    AnyCodec.hufman.encode release 0 (redRow [1, 1, 2, 2, 3, 3, 4] (by decide)) = .ok m ∧ bytesOf m = .ok file ∧
    file₁.length + file₂.length ≤ file.length + 8 + 13 * 1 ∧
    file.length + 7 + 13 * 1 ≤ file₁.length + file₂.length + (7 + 7) / 8 :=
  C125_hufman release_lawful 0 (a := redRow [1, 1, 2] (by decide)) (b := redRow [2, 3, 3, 4] (by decide))
    (img := redRow [1, 1, 2, 2, 3, 3, 4] (by decide)) (by decide) (by decide) (by decide +kernel)
    (S := [⟨1, 0, 0⟩, ⟨2, 0, 0⟩]) (U := [⟨2, 0, 0⟩, ⟨3, 0, 0⟩, ⟨4, 0, 0⟩])
    ⟨by decide, fun x => by
      simp [redRow, Img.rgbPixels, Rgba.toRgb]⟩
    ⟨by decide, fun x => by
      simp [redRow, Img.rgbPixels, Rgba.toRgb]⟩

/-- Both bounds are reached: two colours in each piece, 8 + 13 · 2 bytes more; and one colour in each, 7 bytes more than the whole
less a byte for eight pixels. -/
example : outcomeOf release 0 .hufman (redRow [1, 2] (by decide)) = some (34, 0) ∧
    outcomeOf release 0 .hufman (redRow [1, 2, 1, 2] (by decide)) = some (34, 0) ∧ 34 + 34 = 34 + 8 + 13 * 2 ∧
    outcomeOf release 0 .hufman (redRow [1, 1, 1, 1] (by decide)) = some (20, 0) ∧
    outcomeOf release 0 .hufman (redRow [2, 2, 2, 2] (by decide)) = some (20, 0) ∧
    outcomeOf release 0 .hufman (redRow [1, 1, 1, 1, 2, 2, 2, 2] (by decide)) = some (34, 0) ∧
    34 + 7 + 13 * 0 = 20 + 20 + (8 + 7) / 8 := by
  decide +kernel

/-- C125: the bit per pixel is needed, if the pieces have one colour each. -/
example : FewestBits [true, true, true] 0 ∧ FewestBits [false, false] 0 ∧ FewestBits ([true, true, true] ++ [false, false]) 5 :=
  ⟨fewestBits_const (x := true) (by decide), fewestBits_const (x := false) (by decide),
    C119_two (a := true) (b := false) ⟨by decide, by decide⟩⟩

/-- C125: three copies. -/
example : FewestBits (List.replicate 3 [true, false]).flatten (3 * 2) :=
  (C125_bits (C119_two (a := true) (b := false) (items := [true, false]) ⟨by decide, by decide⟩)
    (fewestBits_const (x := true) (items := [true]) (by decide))
    (C119_two (a := true) (b := false) (items := [true, false] ++ [true]) ⟨by decide, by decide⟩)).2.2 3 (by decide)

/-- C125: a cut in the middle of a run, and one between runs. -/
example : ∃ m₁ file₁ m₂ file₂ m file,
    (AnyCodec.hilbert (.rle (.fin 0))).encode release 0 (redRow [1, 5, 5] (by decide)) = .ok m₁ ∧ bytesOf m₁ = .ok file₁ ∧
    (AnyCodec.hilbert (.rle (.fin 0))).encode release 0 (redRow [5, 6] (by decide)) = .ok m₂ ∧ bytesOf m₂ = .ok file₂ ∧
    (AnyCodec.hilbert (.rle (.fin 0))).encode release 0 (redRow [1, 5, 5, 5, 6] (by decide)) = .ok m ∧ bytesOf m = .ok file ∧
    file.length + 8 ≤ file₁.length + file₂.length ∧ file₁.length + file₂.length ≤ file.length + 20 :=
  C125_rle (p := release) 0 (by decide +kernel) (a := redRow [1, 5, 5] (by decide)) (b := redRow [5, 6] (by decide))
    (img := redRow [1, 5, 5, 5, 6] (by decide)) (.refl _) (.refl _) (.refl _) (by decide +kernel)

/-- Both bounds are reached: 20 bytes more if a run is cut, 8 if none is. -/
example : outcomeOf release 0 (.hilbert (.rle (.fin 0))) (redRow [1, 5, 5] (by decide)) = some (32, 0) ∧
    outcomeOf release 0 (.hilbert (.rle (.fin 0))) (redRow [5, 6] (by decide)) = some (32, 0) ∧
    outcomeOf release 0 (.hilbert (.rle (.fin 0))) (redRow [1, 5, 5, 5, 6] (by decide)) = some (44, 0) ∧
    outcomeOf release 0 (.hilbert (.rle (.fin 0))) (redRow [1, 5, 5, 6, 6] (by decide)) = some (44, 0) ∧
    outcomeOf release 0 (.hilbert (.rle (.fin 0))) (redRow [6, 6] (by decide)) = some (20, 0) := by
  decide +kernel

/-- C125: two copies of a row in one row. -/
example : ∃ m₁ file₁ m file B, AnyCodec.hufman.encode release 0 (redRow [1, 2, 2] (by decide)) = .ok m₁ ∧ bytesOf m₁ = .ok file₁ ∧
    AnyCodec.hufman.encode release 0 (redRow [1, 2, 2, 1, 2, 2] (by decide)) = .ok m ∧ bytesOf m = .ok file ∧
    FewestBits (redRow [1, 2, 2] (by decide)).rgbPixels B ∧
    file₁.length = 7 + 13 * 2 + (B + 7) / 8 ∧ file.length = 7 + 13 * 2 + (2 * B + 7) / 8 :=
  C125_hufman_copies release_lawful 0 (a := redRow [1, 2, 2] (by decide)) (img := redRow [1, 2, 2, 1, 2, 2] (by decide)) (by decide)
    (by decide) (by decide +kernel) (S := [⟨1, 0, 0⟩, ⟨2, 0, 0⟩]) ⟨by decide, fun x => by
      simp [redRow, Img.rgbPixels, Rgba.toRgb]⟩

end PiecesExamples

end Cniic
