import Verif.Proofs.Background
import Verif.Proofs.Symmetry
import Verif.Proofs.Entropy
import Verif.Props.CodeLengths
import Verif.Props.Extreme

/-!
# Pictures with a background (C119)

An item that makes up more than two fifths of the input costs one bit each time, and one more bit for each other item: what
is left is the cost of the other items alone.
-/

namespace Cniic
open Spec

section
variable {T : Type} [DecidableEq T]

/-- **C119**, bound: whatever item is taken out, it costs at most one bit per item to put it back. -/
theorem C119_bound {x : T} {items : List T} {B B' : Nat} (h : FewestBits items B) (h' : FewestBits (without x items) B') :
    B ≤ items.length + B' :=
  fewestBits_peel_le h h'

theorem count_le_length_without {x : T} {items : List T} : items.count x + (without x items).length = items.length := by
  induction items with
  | nil => rfl
  | cons y ys ih =>
    unfold without at ih ⊢
    rw [List.filter_cons, List.count_cons]
    by_cases h : y = x
    · rw [if_pos (by simpa using h), if_neg (by simpa using h)]
      simp only [List.length_cons]
      omega
    · rw [if_neg (by simpa using h), if_pos (by simpa using h)]
      simp only [List.length_cons]
      omega

/-- **C119**, background: for an item that makes up more than two fifths, it costs exactly that. -/
theorem C119_background (M : MinHeap T) {x y : T} {items : List T} {B B' : Nat} (hx : Background x items)
    (hy : y ∈ items) (hne : y ≠ x) (h : FewestBits items B) (h' : FewestBits (without x items) B') :
    B = items.length + B' := by
  refine Nat.le_antisymm (C119_bound h h') ?_
  have hxm : x ∈ items := List.count_pos_iff.1 (by have := hx.share; omega)
  obtain ⟨enc, dec, code, hb, hc, hp, rfl⟩ := fewest_codes M (ho := id) (fun _ => .refl _) (List.ne_nil_of_mem hy) h
  obtain ⟨a, h1, h2⟩ := hc x hxm
  have h3 := C116_two_fifths M (ho := id) (fun _ => .refl _) hb h1 hx.most hx.share
  refine fewestBits_peel_ge hp hxm ?_ h'
  match e : code x with
  | [] => exact absurd (hp x hxm y hy (by rw [e]; exact List.nil_prefix)).symm hne
  | [_] => rfl
  | _ :: _ :: _ => rw [e] at h2; simp at h2; omega

omit [DecidableEq T] in
/-- The same item over and over takes no bits. -/
theorem fewestBits_const {x : T} {items : List T} (h : ∀ y ∈ items, y = x) : FewestBits items 0 := by
  refine ⟨⟨fun _ => [], fun y hy z hz _ => by rw [h y hy, h z hz], ?_⟩, fun _ _ => Nat.zero_le _⟩
  simp [payloadBits]

/-- **C119**, two different items: one bit each, however frequent they are. -/
theorem C119_two {a b : T} {items : List T} (hS : Distinct [a, b] items) : FewestBits items items.length := by
  have hab : a ≠ b := by have := hS.1; simp at this; exact this
  have ha := (hS.2 a).1 (by simp)
  have hb := (hS.2 b).1 (by simp)
  have h' : FewestBits (without a items) 0 := fewestBits_const (x := b) fun y hy => by
    obtain ⟨h1, h2⟩ := mem_without.1 hy
    have := (hS.2 y).2 h1
    simp [h2] at this
    exact this
  have hcode : PrefixFree items fun y => if y = a then [false] else [true] := by
    intro y hy z hz hpre
    have h1 := (hS.2 y).2 hy
    have h2 := (hS.2 z).2 hz
    simp only [List.mem_cons, List.not_mem_nil, or_false] at h1 h2
    have hba : ¬ b = a := fun e => hab e.symm
    rcases h1 with e1 | e1 <;> rcases h2 with e2 | e2 <;> rw [e1, e2] at hpre <;> simp [hba] at hpre <;> rw [e1, e2]
  obtain ⟨B, hB⟩ := fewestBits_exists hcode
  have h1 := C119_bound hB h'
  have h2 := FewestBits.one_bit hB ha hb hab
  rwa [show B = items.length by omega] at hB

/-- **C119**, three different items: one bit each, and one more for each item that is not the most frequent one. -/
theorem C119_three {x a b : T} {items : List T} (hS : Distinct [x, a, b] items)
    (hmax : ∀ y ∈ items, items.count y ≤ items.count x) {B : Nat} (h : FewestBits items B) :
    B = items.length + (items.length - items.count x) := by
  have key : ∀ z ∈ items, FewestBits (without z items) (items.length - items.count z) := by
    have two : ∀ u v z, Distinct [z, u, v] items → FewestBits (without z items) (items.length - items.count z) := by
      intro u v z hd
      have : (without z items).length = items.length - items.count z := by
        have := count_le_length_without (x := z) (items := items); omega
      rw [← this]
      obtain ⟨hn, hm⟩ := hd
      simp only [List.nodup_cons, List.mem_cons, List.not_mem_nil, or_false, not_or] at hn
      refine C119_two (a := u) (b := v) ⟨by simp [hn.2.1], fun y => ?_⟩
      rw [mem_without, ← hm]
      simp only [List.mem_cons, List.not_mem_nil, or_false]
      constructor
      · rintro (rfl | rfl)
        · exact ⟨.inr (.inl rfl), fun e => hn.1.1 e.symm⟩
        · exact ⟨.inr (.inr rfl), fun e => hn.1.2 e.symm⟩
      · rintro ⟨rfl | h1, h2⟩
        · exact absurd rfl h2
        · exact h1
    intro z hz
    obtain ⟨hn, hm⟩ := hS
    have h1 := (hm z).2 hz
    simp only [List.mem_cons, List.not_mem_nil, or_false] at h1
    rcases h1 with rfl | rfl | rfl
    · exact two a b z ⟨hn, hm⟩
    · refine two x b z ⟨(List.Perm.swap _ _ _).nodup_iff.1 hn, fun y => ?_⟩
      rw [← hm]; simp only [List.mem_cons, List.not_mem_nil, or_false]; tauto
    · refine two x a z ⟨?_, fun y => ?_⟩
      · simp only [List.nodup_cons, List.mem_cons, List.not_mem_nil, or_false, not_or] at hn ⊢
        exact ⟨⟨fun e => hn.1.2 e.symm, fun e => hn.2.1 e.symm⟩, hn.1.1, by simp⟩
      · rw [← hm]; simp only [List.mem_cons, List.not_mem_nil, or_false]; tauto
  have hx := (hS.2 x).1 (by simp)
  refine Nat.le_antisymm (C119_bound h (key x hx)) ?_
  obtain ⟨⟨code, hp, rfl⟩, -⟩ := h
  by_cases h1 : ∃ z ∈ items, (code z).length = 1
  · obtain ⟨z, hz, e⟩ := h1
    have := fewestBits_peel_ge hp hz e (key z hz)
    have := hmax z hz
    omega
  · have h2 : ∀ z ∈ items, 2 ≤ (code z).length := by
      intro z hz
      match e : code z with
      | [] =>
        have h3 := fun y hy => hp z hz y hy (by rw [e]; exact List.nil_prefix)
        have hn := hS.1
        simp only [List.nodup_cons, List.mem_cons, List.not_mem_nil, or_false, not_or] at hn
        exact absurd ((h3 x hx).symm.trans (h3 a ((hS.2 a).1 (by simp)))) hn.1.1
      | [_] => exact absurd ⟨z, hz, by rw [e]; rfl⟩ h1
      | _ :: _ :: _ => simp
    have := payload_ge h2
    omega

theorem fewestBits_without {x : T} {items : List T} {B : Nat} (h : FewestBits items B) :
    ∃ B', FewestBits (without x items) B' := by
  obtain ⟨⟨code, hp, -⟩, -⟩ := h
  exact fewestBits_exists (code := code) fun y hy z hz => hp y (mem_without.1 hy).1 z (mem_without.1 hz).1

end

/-- **C119**, hufman files: a background costs 13 bytes for its colour, and one bit for each pixel of the picture, on top of
the file for a picture made of the other pixels, in any order and shape. -/
theorem C119_hufman {p : Setup} (hp : p.Lawful) (fuel : Nat) {img img' : Img} {c : Rgb UInt8}
    (hc : Background c img.rgbPixels) (hperm : img'.rgbPixels.Perm (without c img.rgbPixels)) (hne : img'.pixels ≠ []) :
    ∃ m bytes m' bytes', AnyCodec.hufman.encode p fuel img = .ok m ∧ bytesOf m = .ok bytes ∧
      AnyCodec.hufman.encode p fuel img' = .ok m' ∧ bytesOf m' = .ok bytes' ∧
      bytes'.length + 13 + img.pixels.length / 8 ≤ bytes.length ∧
      bytes.length ≤ bytes'.length + 13 + (img.pixels.length + 7) / 8 := by
  have hpx : img'.rgbPixels ≠ [] := by simpa [Img.rgbPixels] using hne
  obtain ⟨y, hy⟩ := List.exists_mem_of_ne_nil _ hpx
  obtain ⟨hy, hyc⟩ := mem_without.1 (hperm.mem_iff.1 hy)
  have hne0 : img.pixels ≠ [] := by
    intro e
    simp [Img.rgbPixels, e] at hy
  have hcm : c ∈ img.rgbPixels := List.count_pos_iff.1 (by have := hc.share; omega)
  have hlen : img.rgbPixels.length = img.pixels.length := by simp [Img.rgbPixels]
  have hd : Distinct (img'.rgbPixels.dedup) img'.rgbPixels := ⟨List.nodup_dedup _, fun _ => List.mem_dedup⟩
  have hd' : Distinct (c :: img'.rgbPixels.dedup) img.rgbPixels := by
    refine ⟨List.nodup_cons.2 ⟨fun h => ?_, hd.1⟩, fun x => ?_⟩
    · exact (mem_without.1 (hperm.mem_iff.1 ((hd.2 c).1 h))).2 rfl
    · rw [List.mem_cons, hd.2, hperm.mem_iff, mem_without]
      constructor
      · rintro (rfl | h)
        · exact hcm
        · exact h.1
      · intro h
        by_cases e : x = c
        · exact .inl e
        · exact .inr ⟨h, e⟩
  obtain ⟨m, bytes, B, h1, h2, hB, h4, -⟩ := C77_hufman hp fuel hne0 hd'
  obtain ⟨m', bytes', B', g1, g2, hB', g4, -⟩ := C77_hufman hp fuel hne hd
  have := C119_background p.heapRgb hc hy hyc hB (fewestBits_perm hB' hperm)
  refine ⟨m, bytes, m', bytes', h1, h2, g1, g2, ?_, ?_⟩ <;> rw [List.length_cons] at h4 <;> omega

/-- **C119**, hufman files of two colours: 33 bytes, and one bit per pixel. -/
theorem C119_hufman_two {p : Setup} (hp : p.Lawful) (fuel : Nat) {img : Img} {a b : Rgb UInt8}
    (hS : Distinct [a, b] img.rgbPixels) :
    ∃ m bytes, AnyCodec.hufman.encode p fuel img = .ok m ∧ bytesOf m = .ok bytes ∧
      bytes.length = 33 + (img.pixels.length + 7) / 8 := by
  have hne : img.pixels ≠ [] := by
    intro e
    have := (hS.2 a).1 (by simp)
    simp [Img.rgbPixels, e] at this
  have hlen : img.rgbPixels.length = img.pixels.length := by simp [Img.rgbPixels]
  obtain ⟨m, bytes, B, h1, h2, hB, h4, -⟩ := C77_hufman hp fuel hne hS
  refine ⟨m, bytes, h1, h2, ?_⟩
  rw [h4, FewestBits.unique hB (C119_two hS), hlen]
  simp

/-- **C119**, hufman files of three colours: 46 bytes, one bit per pixel, and one more for each pixel that does not have
the most frequent colour. -/
theorem C119_hufman_three {p : Setup} (hp : p.Lawful) (fuel : Nat) {img : Img} {c a b : Rgb UInt8}
    (hS : Distinct [c, a, b] img.rgbPixels) (hmax : ∀ y ∈ img.rgbPixels, img.rgbPixels.count y ≤ img.rgbPixels.count c) :
    ∃ m bytes, AnyCodec.hufman.encode p fuel img = .ok m ∧ bytesOf m = .ok bytes ∧
      bytes.length = 46 + (img.pixels.length + (img.pixels.length - img.rgbPixels.count c) + 7) / 8 := by
  have hne : img.pixels ≠ [] := by
    intro e
    have := (hS.2 a).1 (by simp)
    simp [Img.rgbPixels, e] at this
  have hlen : img.rgbPixels.length = img.pixels.length := by simp [Img.rgbPixels]
  obtain ⟨m, bytes, B, h1, h2, hB, h4, -⟩ := C77_hufman hp fuel hne hS
  refine ⟨m, bytes, h1, h2, ?_⟩
  rw [h4, C119_three hS hmax hB, hlen]
  simp

/-- **C119**, delta files: a difference that makes up more than two fifths (that of flat areas, say) takes one bit each time,
and adds one to every other difference. -/
theorem C119_delta {p : Setup} (hp : p.Lawful) (fuel : Nat) {img : Img}
    (hs : VisitsOnce p.scan img.width.toNat img.height.toNat) {S : List SignedColor} {d e : SignedColor}
    (hS : Distinct S (diffs black (colorsAlong p.scan img))) (hd : Background d (diffs black (colorsAlong p.scan img)))
    (he : e ∈ S) (hne : e ≠ d) :
    ∃ m bytes B', AnyCodec.delta.encode p fuel img = .ok m ∧ bytesOf m = .ok bytes ∧
      FewestBits (without d (diffs black (colorsAlong p.scan img))) B' ∧
      bytes.length = 7 + 8 * S.length + (img.pixels.length + B' + 7) / 8 := by
  have hem := (hS.2 e).1 he
  have hlen : (diffs black (colorsAlong p.scan img)).length = img.pixels.length := by
    rw [diffs_length, colorsAlong, List.length_map, linearize_length hs, ← img.size]
  have hn : img.pixels ≠ [] := by
    intro h
    rw [h] at hlen
    exact absurd (List.length_eq_zero_iff.1 hlen) (List.ne_nil_of_mem hem)
  obtain ⟨m, bytes, B, h1, h2, hB, h4, -⟩ := C77_delta hp fuel hs hn hS
  obtain ⟨B', hB'⟩ := fewestBits_without (x := d) hB
  refine ⟨m, bytes, B', h1, h2, hB', ?_⟩
  rw [h4, C119_background p.heapDiff hd hem hne hB hB', hlen]

/-! ## Examples -/

namespace BackgroundExamples

/-- A row of pixels with red only. -/
def row (l : List UInt8) (h : l.length = (UInt32.ofNat l.length).toNat * 1) : Img :=
  { width := UInt32.ofNat l.length, height := 1, pixels := l.map fun v => ⟨v, 0, 0, 255⟩, size := by simpa using h }

/-- Ten pixels: five of the background, three other colours. -/
def tenRow : Img := row [0, 1, 0, 2, 0, 3, 0, 1, 0, 2] (by decide)

/-- The pixels that are not background, in another order. -/
def fiveRow : Img := row [1, 1, 2, 3, 2] (by decide)

theorem tenRow_background : Background (⟨0, 0, 0⟩ : Rgb UInt8) tenRow.rgbPixels := ⟨by decide, by decide⟩

example {p : Setup} (hp : p.Lawful) : ∃ m bytes m' bytes', AnyCodec.hufman.encode p 0 tenRow = .ok m ∧
    bytesOf m = .ok bytes ∧ AnyCodec.hufman.encode p 0 fiveRow = .ok m' ∧ bytesOf m' = .ok bytes' ∧
    bytes'.length + 14 ≤ bytes.length ∧ bytes.length ≤ bytes'.length + 15 :=
  C119_hufman hp 0 tenRow_background (by decide) (by decide)

/-- It does not hold for any item: with four items that are equally frequent, two bits each are better. -/
example {B B' : Nat} (h : FewestBits [1, 2, 3, 4] B) (h' : FewestBits (without 1 [1, 2, 3, 4]) B') : B < 4 + B' := by
  have h1 := h.2 (fun n => [n / 2 == 1, n % 2 == 1]) (by
    unfold PrefixFree
    simp)
  have h2 : B' = 3 + (3 - 1) := C119_three (x := 2) (a := 3) (b := 4) ⟨by decide, by simp [without]⟩ (by simp [without]) h'
  simp [payloadBits] at h1
  omega

example {B B' : Nat} (h : FewestBits [7, 1, 7, 2, 7, 3, 7] B) (h' : FewestBits (without 7 [7, 1, 7, 2, 7, 3, 7]) B') :
    B = 12 := by
  have h1 := C119_background (listHeap Nat) (x := 7) (y := 1) ⟨by decide, by decide⟩ (by decide) (by decide) h h'
  have h2 : B' = 3 + (3 - 1) := C119_three (x := 1) (a := 2) (b := 3) ⟨by decide, by simp [without]⟩ (by simp [without]) h'
  rw [h1, h2]
  rfl

/-- 9 pixels of two colours: 35 bytes. -/
example {p : Setup} (hp : p.Lawful) : ∃ m bytes, AnyCodec.hufman.encode p 0 (row [0, 1, 1, 1, 0, 1, 1, 1, 1] (by decide)) = .ok m ∧
    bytesOf m = .ok bytes ∧ bytes.length = 35 :=
  C119_hufman_two hp 0 (a := ⟨0, 0, 0⟩) (b := ⟨1, 0, 0⟩) ⟨by decide, fun x => by
    rw [show (row [0, 1, 1, 1, 0, 1, 1, 1, 1] (by decide)).rgbPixels = [0, 1, 1, 1, 0, 1, 1, 1, 1].map fun v : UInt8 => ⟨v, 0, 0⟩
      by decide]
    simp
    tauto⟩

/-- 9 pixels of three colours, four of one: 14 bits. -/
example {p : Setup} (hp : p.Lawful) : ∃ m bytes, AnyCodec.hufman.encode p 0 (row [0, 1, 1, 2, 0, 2, 1, 1, 2] (by decide)) = .ok m ∧
    bytesOf m = .ok bytes ∧ bytes.length = 48 :=
  C119_hufman_three hp 0 (c := ⟨1, 0, 0⟩) (a := ⟨0, 0, 0⟩) (b := ⟨2, 0, 0⟩) ⟨by decide, fun x => by
    rw [show (row [0, 1, 1, 2, 0, 2, 1, 1, 2] (by decide)).rgbPixels = [0, 1, 1, 2, 0, 2, 1, 1, 2].map fun v : UInt8 => ⟨v, 0, 0⟩
      by decide]
    simp
    tauto⟩ (by decide)

/-- A picture with flat areas: most differences are zero. -/
def flatRow : Img := row [5, 5, 5, 5, 6, 6, 6] (by decide)

theorem flatRow_diffs : diffs black (colorsAlong ExtremeExamples.release.scan flatRow) =
    [⟨5, 0, 0⟩, ⟨0, 0, 0⟩, ⟨0, 0, 0⟩, ⟨0, 0, 0⟩, ⟨1, 0, 0⟩, ⟨0, 0, 0⟩, ⟨0, 0, 0⟩] := by decide +kernel

/-- 7 + 8 · 3 bytes, 7 bits and one more for each of the other two differences: 33 bytes. -/
example : ∃ m bytes B', AnyCodec.delta.encode ExtremeExamples.release 0 flatRow = .ok m ∧ bytesOf m = .ok bytes ∧
    FewestBits (without (⟨0, 0, 0⟩ : SignedColor) (diffs black (colorsAlong ExtremeExamples.release.scan flatRow))) B' ∧
    bytes.length = 31 + (7 + B' + 7) / 8 :=
  C119_delta ExtremeExamples.release_lawful 0 (.refl _) (S := [⟨0, 0, 0⟩, ⟨1, 0, 0⟩, ⟨5, 0, 0⟩]) (d := ⟨0, 0, 0⟩) (e := ⟨1, 0, 0⟩)
    ⟨by decide, fun x => by rw [flatRow_diffs]; simp; tauto⟩ (by rw [flatRow_diffs]; exact ⟨by decide, by decide⟩)
    (by simp) (by decide)

end BackgroundExamples

end Cniic
