import Verif.Proofs.Resync
import Verif.Props.Damage
import Verif.Props.CodeLengths

/-!
# Damaged bits (C122)

After damaged bits the codewords of a Huffman code are read at other places.  As soon as the reader is at the end of an original
codeword again, everything after it is read as before, only shifted by the number of pixels gained or lost.  If all codewords have
the same length then that happens at once: each wrong bit spoils at most one pixel.
-/

namespace Cniic
open Spec SerSpec

theorem hufman_ok {p : Setup} {w h : UInt32} {t : BinTrie (Rgb UInt8)} {payload : List UInt8} {out : RgbImage} :
    AnyCodec.hufman.decode p (bytes (w, h) ++ (treeBytes t ++ payload)) = .ok out ↔
      3 * (w.toNat * h.toNat) < 2 ^ 63 ∧ (spelled t (w.toNat * h.toNat) (bitsOf payload)).length = w.toNat * h.toNat ∧
        out = { width := w, height := h, pixels := spelled t (w.toNat * h.toNat) (bitsOf payload) } := by
  rw [C75_hufman, C75_size, C75_tree]
  dsimp only
  split
  · next hn => exact ⟨fun h => (by cases h), fun h => absurd h.1 (Nat.not_lt.2 hn)⟩
  · next hn =>
    split
    · next hl => exact ⟨fun h => (by cases h; exact ⟨Nat.not_le.1 hn, hl, rfl⟩), fun h => by rw [h.2.2]⟩
    · next hl => exact ⟨fun h => (by cases h), fun h => absurd h.2.1 hl⟩

/-- **C122**, synchronised again: if after `m` pixels of one file and `m'` pixels of another one with the same code tree the same
bits are left, then the pixels after that are the same, as far as there are any. -/
theorem C122_resync {p : Setup} {w h : UInt32} {t : BinTrie (Rgb UInt8)} {payload payload' : List UInt8} {out out' : RgbImage}
    (ho : AnyCodec.hufman.decode p (bytes (w, h) ++ (treeBytes t ++ payload)) = .ok out)
    (ho' : AnyCodec.hufman.decode p (bytes (w, h) ++ (treeBytes t ++ payload')) = .ok out')
    {m m' : Nat} {xs xs' : List (Rgb UInt8)} {rest : List Bool}
    (hm : reading t m (bitsOf payload) = some (xs, rest)) (hm' : reading t m' (bitsOf payload') = some (xs', rest))
    (i : Nat) (hi : m + i < w.toNat * h.toNat) (hi' : m' + i < w.toNat * h.toNat) :
    out.pixels[m + i]? = out'.pixels[m' + i]? := by
  obtain ⟨-, -, rfl⟩ := hufman_ok.1 ho
  obtain ⟨-, -, rfl⟩ := hufman_ok.1 ho'
  dsimp only
  have e := reading_spelled hm (w.toNat * h.toNat - m)
  have e' := reading_spelled hm' (w.toNat * h.toNat - m')
  rw [Nat.add_sub_cancel' (by omega)] at e e'
  rw [e, e', List.getElem?_append_right (by rw [reading_length hm]; omega),
    List.getElem?_append_right (by rw [reading_length hm']; omega), reading_length hm, reading_length hm',
    Nat.add_sub_cancel_left, Nat.add_sub_cancel_left]
  exact spelled_getElem? t (by omega) (by omega) rest

/-- **C122**, the same number of pixels: everything from there on is as before. -/
theorem C122_same {p : Setup} {w h : UInt32} {t : BinTrie (Rgb UInt8)} {payload payload' : List UInt8} {out out' : RgbImage}
    (ho : AnyCodec.hufman.decode p (bytes (w, h) ++ (treeBytes t ++ payload)) = .ok out)
    (ho' : AnyCodec.hufman.decode p (bytes (w, h) ++ (treeBytes t ++ payload')) = .ok out')
    {m : Nat} {xs xs' : List (Rgb UInt8)} {rest : List Bool}
    (hm : reading t m (bitsOf payload) = some (xs, rest)) (hm' : reading t m (bitsOf payload') = some (xs', rest)) :
    out.pixels.drop m = out'.pixels.drop m := by
  apply List.ext_getElem?
  intro i
  rw [List.getElem?_drop, List.getElem?_drop]
  by_cases hi : m + i < w.toNat * h.toNat
  · exact C122_resync ho ho' hm hm' i hi hi
  · obtain ⟨-, h1, rfl⟩ := hufman_ok.1 ho
    obtain ⟨-, h2, rfl⟩ := hufman_ok.1 ho'
    rw [List.getElem?_eq_none (by dsimp only; omega), List.getElem?_eq_none (by dsimp only; omega)]

/-- **C122**, no pixels lost: if there are at least as many pixels before the common rest as originally, then the damaged file can
be decoded, too. -/
theorem C122_decodes {p : Setup} {w h : UInt32} {t : BinTrie (Rgb UInt8)} {payload payload' : List UInt8} {out : RgbImage}
    (ho : AnyCodec.hufman.decode p (bytes (w, h) ++ (treeBytes t ++ payload)) = .ok out)
    {m m' : Nat} {xs xs' : List (Rgb UInt8)} {rest : List Bool} (hle : m ≤ m')
    (hm : reading t m (bitsOf payload) = some (xs, rest)) (hm' : reading t m' (bitsOf payload') = some (xs', rest)) :
    ∃ out', AnyCodec.hufman.decode p (bytes (w, h) ++ (treeBytes t ++ payload')) = .ok out' := by
  obtain ⟨h0, h1, -⟩ := hufman_ok.1 ho
  refine ⟨_, hufman_ok.2 ⟨h0, ?_, rfl⟩⟩
  by_cases hn : w.toNat * h.toNat ≤ m'
  · have e := reading_spelled hm' 0
    rw [Nat.add_zero, show spelled t 0 rest = [] from rfl, List.append_nil] at e
    rw [spelled_of_le t hn, e, List.length_take, reading_length hm', Nat.min_eq_left hn]
  · have e := reading_spelled hm (w.toNat * h.toNat - m)
    have e' := reading_spelled hm' (w.toNat * h.toNat - m')
    rw [Nat.add_sub_cancel' (by omega)] at e e'
    rw [e, List.length_append, reading_length hm] at h1
    rw [e', List.length_append, reading_length hm', spelled_of_le t (show w.toNat * h.toNat - m' ≤ w.toNat * h.toNat - m by omega),
      List.length_take]
    omega

/-- **C122**, codewords of one length: if the picture has `2 ^ L` colours none of which is as frequent as two others together, then
replacing the bits of its file by any others of the same number gives a file that can still be decoded, and in the picture at most as
many pixels are wrong as there are wrong bits. -/
theorem C122_even {p : Setup} (hp : p.Lawful) (fuel : Nat) {img : Img} (ha : Addressable img) (hne : img.pixels ≠ [])
    {S : List (Rgb UInt8)} (hS : Distinct S img.rgbPixels) {L : Nat} (hL : S.length = 2 ^ L)
    (heven : ∀ u ∈ S, ∀ y ∈ S, ∀ z ∈ S, y ≠ z →
      img.rgbPixels.count u < img.rgbPixels.count y + img.rgbPixels.count z) :
    ∃ m, ∃ t : BinTrie (Rgb UInt8), ∃ payload, AnyCodec.hufman.encode p fuel img = .ok m ∧
      bytesOf m = .ok (bytes (img.width, img.height) ++ (treeBytes t ++ payload)) ∧
      ∀ payload', payload'.length = payload.length → ∃ out,
        AnyCodec.hufman.decode p (bytes (img.width, img.height) ++ (treeBytes t ++ payload')) = .ok out ∧
        out.width = img.width ∧ out.height = img.height ∧
        differences img.rgbPixels out.pixels ≤ differences (bitsOf payload) (bitsOf payload') := by
  have hpx : img.rgbPixels ≠ [] := by simpa [Img.rgbPixels] using hne
  obtain ⟨enc, t, payload, k, hb, hnd, hmem, -, -, he, -, hbits, hget, -, -⟩ :=
    encodeAll_spec p.heapRgb p.orderRgb hp.orderRgb img.rgbPixels hpx fun x _ => rgb_valid x
  have hemits : Emits Emits.anyWay (hufmanEncode p.heapRgb p.orderRgb img)
      (bytes (img.width, img.height) ++ (treeBytes t ++ payload)) () := Emits.bind (anyWay_of_err (emits_dims img)) he
  have hfile := hemits.bytesOf
  have hflat : ∀ q ∈ leaves t, q.1.length = L := by
    intro q hq
    have hx : q.2 ∈ symbols t := List.mem_map.2 ⟨q, hq, rfl⟩
    obtain ⟨a, e1, e2, -⟩ := fromSlice_msb (codeOf t q.2)
    have := C116_even p.heapRgb hp.orderRgb hb ((hget _ hx).trans e1) hS heven
    rw [hL, ← Nat.pow_succ'] at this
    have h1 := (Nat.pow_lt_pow_iff_right (by decide)).1 this.1
    have h2 := (Nat.pow_lt_pow_iff_right (by decide)).1 this.2
    rw [codeOf_unique hnd (p := q.1) (x := q.2) hq]
    omega
  have hlen : img.rgbPixels.length = img.width.toNat * img.height.toNat := by
    rw [Img.rgbPixels, List.length_map, img.size]
  have hsum : (img.rgbPixels.flatMap (codeOf t)).length = img.rgbPixels.length * L := by
    have : ∀ l : List (Rgb UInt8), (∀ x ∈ l, x ∈ img.rgbPixels) → (l.flatMap (codeOf t)).length = l.length * L := by
      intro l hl
      induction l with
      | nil => simp
      | cons x l ih =>
        rw [List.flatMap_cons, List.length_append, ih (fun y hy => hl y (.tail _ hy)), List.length_cons,
          hflat _ (codeOf_mem ((hmem x).2 (hl x (.head _)))), Nat.add_mul, Nat.one_mul, Nat.add_comm]
    exact this _ fun _ h => h
  have hroom : img.width.toNat * img.height.toNat * L ≤ (bitsOf payload).length := by
    rw [hbits, List.length_append, hsum, hlen]
    omega
  have horig : spelled t (img.width.toNat * img.height.toNat) (bitsOf payload) = img.rgbPixels := by
    obtain ⟨b, hb1, hb2⟩ := C28_hufman_lossless p.heapRgb p.orderRgb hp.orderRgb img ha hne
    have e := hfile.symm.trans hb1.bytesOf
    rw [← Ret.ok.inj e] at hb2
    have := (hufman_ok (p := p).1 hb2).2.2
    exact (congrArg RgbImage.pixels this).symm
  refine ⟨_, t, payload, rfl, hfile, ?_⟩
  intro payload' hl
  have hbl : (bitsOf payload').length = (bitsOf payload).length := by rw [bitsOf_length, bitsOf_length, hl]
  have hs := spelled_flat hflat (img.width.toNat * img.height.toNat) hbl hroom
  have hs' := spelled_flat hflat (img.width.toNat * img.height.toNat) hbl.symm (hbl ▸ hroom)
  refine ⟨_, hufman_ok.2 ⟨ha, hs'.1, rfl⟩, rfl, rfl, ?_⟩
  rw [horig] at hs
  exact hs.2

/-! ## Concrete cases -/

namespace ResyncExamples
open ExtremeExamples (release release_lawful)

/-- Codewords 0, 10 and 11. -/
def three : BinTrie (Rgb UInt8) := .branch (.leaf ⟨1, 1, 1⟩) (.branch (.leaf ⟨2, 2, 2⟩) (.leaf ⟨3, 3, 3⟩))

theorem three_file (b : UInt8) (hb : b = 0x5B ∨ b = 0x1B) :
    AnyCodec.hufman.decode release (bytes ((5, 1) : UInt32 × UInt32) ++ (treeBytes three ++ [b])) =
      .ok ⟨5, 1, spelled three 5 (bitsOf [b])⟩ := by
  rw [C75_hufman, C75_size, if_neg (by decide), C75_tree]
  rcases hb with rfl | rfl <;> exact if_pos (by decide +kernel)

/-- C122: `0 10 11 0 11` and, with another bit, `0 0 0 11 0 11`: after two pixels of the first file and three of the second one. -/
example (i : Nat) (h : 3 + i < 5) :
    (spelled three 5 (bitsOf [0x5B]))[2 + i]? = (spelled three 5 (bitsOf [0x1B]))[3 + i]? :=
  C122_resync (m := 2) (m' := 3) (three_file _ (.inl rfl)) (three_file _ (.inr rfl))
    (xs := [⟨1, 1, 1⟩, ⟨2, 2, 2⟩]) (xs' := [⟨1, 1, 1⟩, ⟨1, 1, 1⟩, ⟨1, 1, 1⟩]) (rest := [true, true, false, true, true])
    (by decide +kernel) (by decide +kernel) i (by show 2 + i < 5; omega) h

/-- C122: `10 0 11 0 11` can be decoded and then also `0 0 0 11 0 11`. -/
example : ∃ out', AnyCodec.hufman.decode release (bytes ((4, 1) : UInt32 × UInt32) ++ (treeBytes three ++ [0x1B])) = .ok out' := by
  have h : AnyCodec.hufman.decode release (bytes ((4, 1) : UInt32 × UInt32) ++ (treeBytes three ++ [0x9B])) =
      .ok ⟨4, 1, spelled three 4 (bitsOf [0x9B])⟩ := by
    rw [C75_hufman, C75_size, if_neg (by decide), C75_tree]
    exact if_pos (by decide +kernel)
  exact C122_decodes h (m := 2) (m' := 3) (xs := [⟨2, 2, 2⟩, ⟨1, 1, 1⟩]) (xs' := [⟨1, 1, 1⟩, ⟨1, 1, 1⟩, ⟨1, 1, 1⟩])
    (rest := [true, true, false, true, true]) (by decide) (by decide +kernel) (by decide +kernel)

/-- C122: `10 11 0 0 0 ..` and `11 10 0 0 0 ..`. -/
example {out out' : RgbImage}
    (ho : AnyCodec.hufman.decode release (bytes ((5, 1) : UInt32 × UInt32) ++ (treeBytes three ++ [0xB0])) = .ok out)
    (ho' : AnyCodec.hufman.decode release (bytes ((5, 1) : UInt32 × UInt32) ++ (treeBytes three ++ [0xE0])) = .ok out') :
    out.pixels.drop 2 = out'.pixels.drop 2 :=
  C122_same ho ho' (m := 2) (xs := [⟨2, 2, 2⟩, ⟨3, 3, 3⟩]) (xs' := [⟨3, 3, 3⟩, ⟨2, 2, 2⟩]) (rest := [false, false, false, false])
    (by decide +kernel) (by decide +kernel)

example : AnyCodec.hufman.decode release (bytes ((5, 1) : UInt32 × UInt32) ++ (treeBytes three ++ [0xB0])) =
    .ok ⟨5, 1, [⟨2, 2, 2⟩, ⟨3, 3, 3⟩, ⟨1, 1, 1⟩, ⟨1, 1, 1⟩, ⟨1, 1, 1⟩]⟩ := by
  rw [C75_hufman, C75_size, if_neg (by decide), C75_tree]
  exact if_pos (by decide +kernel)

/-- C122: four colours, two pixels each. -/
example : ∃ m, ∃ t : BinTrie (Rgb UInt8), ∃ payload, AnyCodec.hufman.encode release 0 CodeLengthExamples.fourPairs = .ok m ∧
    bytesOf m = .ok (bytes (CodeLengthExamples.fourPairs.width, CodeLengthExamples.fourPairs.height) ++ (treeBytes t ++ payload)) ∧
    ∀ payload', payload'.length = payload.length → ∃ out,
      AnyCodec.hufman.decode release (bytes (CodeLengthExamples.fourPairs.width, CodeLengthExamples.fourPairs.height) ++ (treeBytes t ++ payload')) = .ok out ∧
      out.width = CodeLengthExamples.fourPairs.width ∧ out.height = CodeLengthExamples.fourPairs.height ∧
      differences CodeLengthExamples.fourPairs.rgbPixels out.pixels ≤ differences (bitsOf payload) (bitsOf payload') := by
  have e : CodeLengthExamples.fourPairs.rgbPixels = [⟨0, 0, 0⟩, ⟨0, 0, 0⟩, ⟨1, 0, 0⟩, ⟨1, 0, 0⟩, ⟨2, 0, 0⟩, ⟨2, 0, 0⟩, ⟨3, 0, 0⟩, ⟨3, 0, 0⟩] := by
    decide
  exact C122_even release_lawful 0 (show 3 * (4 * 2) < 2 ^ 63 by decide) (by decide) (S := [⟨0, 0, 0⟩, ⟨1, 0, 0⟩, ⟨2, 0, 0⟩, ⟨3, 0, 0⟩])
    ⟨by decide, by rw [e]; simp⟩ (L := 2) rfl (by rw [e]; decide)

end ResyncExamples

end Cniic
