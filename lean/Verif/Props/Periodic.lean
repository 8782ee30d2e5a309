import Verif.Proofs.Periodic
import Verif.Props.Sizes

/-!
# Files of repetitive pictures (C100)
-/

namespace Cniic
open Spec SerSpec

theorem symBytes_length (syms : List UInt16) : (symBytes syms).length = 2 * syms.length := by
  induction syms with
  | nil => rfl
  | cons s syms ih =>
    simp only [symBytes, List.flatMap_cons, List.length_append, List.length_cons, List.length_nil] at ih ⊢
    omega

theorem oneByteSeqs_count : oneByteSeqs.length = 256 := by simp [oneByteSeqs]

/-- **C100.** If the input is periodic with period `p` after the first bytes, as many bytes as it likes but less than `2 ^ k`,
then at most a number of pairs of symbols is written that only depends on `p` and on `k`, quadratically, and on how many first
bytes there are.  (If so many entries fit into the dictionary.) -/
theorem C100_periodic {p k : Nat} {pre l : List UInt8} (hp : 0 < p) (h : HasPeriod p l) (hl : l.length < 2 ^ k)
    (hd : 256 + (pre.length + periodicPairs p k) ≤ 65535) :
    ∃ bytes, Emits Emits.errOnly (zipDictEncode (pre ++ l)) bytes () ∧
      bytes.length ≤ 4 * (pre.length + periodicPairs p k) := by
  obtain ⟨syms, hs, he⟩ := zipDictEncode_spec (pre ++ l)
  refine ⟨_, he, ?_⟩
  have := Periodic.within_periodic hp h hl oneByteSeqs syms hs (by rw [oneByteSeqs_count]; exact hd)
  rw [symBytes_length]
  omega

/-- **C100**, the sum in the number of pairs. -/
theorem C100_pairs (p k : Nat) : 2 * periodicPairs p k = 2 * ((p + 1) * (p * (p - 2)) + p) + (4 * p + 5 + k) * k := by
  have h : ∀ k, 2 * levels p k = (4 * p + 5 + k) * k := by
    intro k
    induction k with
    | zero => rfl
    | succ k ih =>
      have key : ∀ a : Nat, (a + 1) * (k + 1) = a * k + a + k + 1 := fun a => by
        rw [Nat.add_mul, Nat.mul_add, Nat.one_mul, Nat.mul_one, Nat.add_assoc (a * k + a)]
      rw [show 4 * p + 5 + (k + 1) = (4 * p + 5 + k) + 1 by omega, key, levels]
      omega
  unfold periodicPairs
  have := h k
  omega

theorem parse_le {known : List (List UInt8)} {i : List UInt8} {syms : List UInt16} (h : Parse known i syms) :
    ∀ L, (∀ x ∈ known, x.length ≤ L) → i.length + 2 * L ≤ 2 * L * 2 ^ (syms.length / 2) := by
  induction h with
  | nil => intro L _; simp
  | one h =>
    intro L hk
    have h1 := hk _ (List.mem_of_getElem? h.isKnown)
    have h2 := congrArg List.length h.split
    simp at h2 ⊢
    omega
  | @two known i s1 x1 i' s2 x2 i'' syms h1 h2 hp ih =>
    intro L hk
    have a1 := hk _ (List.mem_of_getElem? h1.isKnown)
    have a2 := hk _ (List.mem_of_getElem? h2.isKnown)
    have b1 := congrArg List.length h1.split
    have b2 := congrArg List.length h2.split
    rw [List.length_append] at b1 b2
    have := ih (2 * L) (by
      intro x hx
      unfold learn at hx
      split at hx
      · rcases List.mem_append.1 hx with hx | hx
        · have := hk x hx; omega
        · rw [List.mem_singleton] at hx; subst hx; rw [List.length_append]; omega
      · have := hk x hx; omega)
    have e : (s1 :: s2 :: syms).length / 2 = syms.length / 2 + 1 := by simp only [List.length_cons]; omega
    rw [e, Nat.pow_succ, ← Nat.mul_assoc, Nat.mul_comm _ 2, ← Nat.mul_assoc]
    omega

/-- **C100**, the other direction: no input is written in less than the logarithm of its length, about 4 bytes for each
doubling. -/
theorem C100_at_least (input : List UInt8) :
    ∃ bytes, Emits Emits.errOnly (zipDictEncode input) bytes () ∧ input.length + 2 ≤ 2 * 2 ^ (bytes.length / 4) := by
  obtain ⟨syms, hs, he⟩ := zipDictEncode_spec input
  refine ⟨_, he, ?_⟩
  have := parse_le hs 1 (by
    intro x hx
    obtain ⟨b, -, rfl⟩ := List.mem_map.1 hx
    exact Nat.le_refl _)
  rw [symBytes_length, show 2 * syms.length / 4 = syms.length / 2 by omega]
  omega

/-! ## Pictures -/

/-- Every colour is the one `q` places before. -/
def Repeats (q : Nat) (cs : List (Rgb UInt8)) : Prop := ∀ i, i + q < cs.length → cs[i + q]? = cs[i]?

theorem flatMap_at (cs : List (Rgb UInt8)) (i : Nat) :
    (cs.flatMap bytes)[i]? = cs[i / 11]?.bind fun c => (bytes c)[i % 11]? := by
  induction cs generalizing i with
  | nil => simp
  | cons c cs ih =>
    rw [List.flatMap_cons]
    by_cases h : i < 11
    · rw [List.getElem?_append_left (by rw [rgb_bytes_length]; exact h), Nat.mod_eq_of_lt h, Nat.div_eq_of_lt h]
      rfl
    · rw [List.getElem?_append_right (by rw [rgb_bytes_length]; omega), rgb_bytes_length, ih,
        show i / 11 = (i - 11) / 11 + 1 by omega, show (i - 11) % 11 = i % 11 by omega]
      rfl

theorem Repeats.bytes {q : Nat} {cs : List (Rgb UInt8)} (h : Repeats q cs) : HasPeriod (11 * q) (cs.flatMap bytes) := by
  intro i hi
  rw [rgbs_bytes_length] at hi
  rw [flatMap_at, flatMap_at, show (i + 11 * q) / 11 = i / 11 + q by omega, show (i + 11 * q) % 11 = i % 11 by omega,
    h _ (by omega)]

theorem Repeats.replicate (n : Nat) (c : Rgb UInt8) : Repeats 1 (List.replicate n c) := by
  intro i hi
  rw [List.length_replicate] at hi
  rw [List.getElem?_replicate, List.getElem?_replicate, if_pos hi, if_pos (by omega)]

theorem levels_mono_right (p : Nat) {j k : Nat} (h : j ≤ k) : levels p j ≤ levels p k := by
  induction h with
  | refl => exact Nat.le_refl _
  | step _ ih => simp only [levels]; omega

theorem periodicPairs_mono_right (p : Nat) {j k : Nat} (h : j ≤ k) : periodicPairs p j ≤ periodicPairs p k := by
  have := levels_mono_right p h
  unfold periodicPairs
  omega

theorem pixels_lt (img : Img) : 11 * img.pixels.length < 2 ^ 68 := by
  rw [img.size]
  have h1 := img.width.toNat_lt
  have h2 := img.height.toNat_lt
  have := Nat.mul_le_mul (Nat.le_of_lt h1) (Nat.le_of_lt h2)
  have : (2 : Nat) ^ 32 * 2 ^ 32 = 2 ^ 64 := rfl
  omega

/-- **C100**, zip(dict): a picture whose colours, row by row, repeat after one, two or three pixels. -/
theorem C100_zip_dict (p : Setup) (fuel : Nat) {img : Img} {q k : Nat} (hq : 0 < q) (hq3 : q ≤ 3)
    (h : Repeats q img.rgbPixels) (hk : 11 * img.pixels.length < 2 ^ k) :
    ∃ m bytes, (AnyCodec.zip .dict).encode p fuel img = .ok m ∧ bytesOf m = .ok bytes ∧
      bytes.length ≤ 4 * (8 + periodicPairs (11 * q) k) ∧ bytes.length ≤ 167172 := by
  have hlen : (img.rgbPixels.flatMap bytes).length = 11 * img.pixels.length := by
    rw [rgbs_bytes_length, Img.rgbPixels, List.length_map]
  have key : ∀ k, k ≤ 68 → 11 * img.pixels.length < 2 ^ k → ∃ bytes,
      Emits Emits.errOnly (zipDictEncode (zipData img)) bytes () ∧ bytes.length ≤ 4 * (8 + periodicPairs (11 * q) k) := by
    intro k hk68 hk
    have hb : periodicPairs (11 * q) k ≤ 41785 := Nat.le_trans (periodicPairs_mono_right _ hk68)
      (Nat.le_trans (Periodic.periodicPairs_mono (show 11 * q ≤ 33 by omega) 68) (by decide +kernel))
    have := C100_periodic (p := 11 * q) (k := k) (pre := bytes (img.width, img.height)) (by omega) h.bytes
      (by rw [hlen]; exact hk) (by rw [dims_length]; omega)
    rw [dims_length] at this
    exact this
  obtain ⟨bs, e, hb⟩ := key 68 (by omega) (pixels_lt img)
  refine ⟨_, bs, rfl, by rw [zipEncode_dict]; exact e.bytesOf, ?_, ?_⟩
  · by_cases hk68 : k ≤ 68
    · obtain ⟨bs', e', hb'⟩ := key k hk68 hk
      have := e.bytesOf.symm.trans e'.bytesOf
      cases this
      exact hb'
    · have := periodicPairs_mono_right (11 * q) (show 68 ≤ k by omega)
      omega
  · have := Periodic.periodicPairs_mono (show 11 * q ≤ 33 by omega) 68
    have : periodicPairs 33 68 ≤ 41785 := by decide +kernel
    omega

/-- **C100**, zip(dict), one colour: at most 20740 bytes whatever the size of the picture.  (With zip(back) the same pictures
cannot be written from 8937 pixels on, `C54_zip_back_uniform_images`.) -/
theorem C100_one_colour (p : Setup) (fuel : Nat) {img : Img} {c : Rgb UInt8}
    (h : img.rgbPixels = List.replicate img.pixels.length c) :
    ∃ m bytes, (AnyCodec.zip .dict).encode p fuel img = .ok m ∧ bytesOf m = .ok bytes ∧ bytes.length ≤ 20740 := by
  obtain ⟨m, bs, h1, h2, h3, -⟩ := C100_zip_dict p fuel (q := 1) (by omega) (by omega) (h ▸ Repeats.replicate _ _) (pixels_lt img)
  refine ⟨m, bs, h1, h2, Nat.le_trans h3 (by decide +kernel)⟩

/-- **C100**, hilbert(zip): likewise, along the curve. -/
theorem C100_hilbert_zip {p : Setup} (fuel : Nat) {img : Img} (hs : VisitsOnce p.scan img.width.toNat img.height.toNat)
    {q k : Nat} (hq : 0 < q) (hq3 : q ≤ 3) (h : Repeats q (colorsAlong p.scan img)) (hk : 11 * img.pixels.length < 2 ^ k)
    (hk68 : k ≤ 68) :
    ∃ m bytes, (AnyCodec.hilbert .zip).encode p fuel img = .ok m ∧ bytesOf m = .ok bytes ∧
      bytes.length ≤ 8 + 4 * periodicPairs (11 * q) k := by
  have hlen : ((colorsAlong p.scan img).flatMap bytes).length = 11 * img.pixels.length := by
    rw [rgbs_bytes_length, colorsAlong, List.length_map, linearize_length hs, ← img.size]
  have hb : periodicPairs (11 * q) k ≤ 41785 := Nat.le_trans (periodicPairs_mono_right _ hk68)
    (Nat.le_trans (Periodic.periodicPairs_mono (show 11 * q ≤ 33 by omega) 68) (by decide +kernel))
  obtain ⟨bs, e1, h1⟩ := C100_periodic (p := 11 * q) (k := k) (pre := []) (by omega) h.bytes (by rw [hlen]; exact hk)
    (by rw [List.length_nil]; omega)
  rw [List.nil_append] at e1
  rw [List.length_nil] at h1
  refine ⟨_, bytes (img.width, img.height) ++ bs, rfl, ?_, by rw [List.length_append, dims_length]; omega⟩
  rw [hilbertEncode_zip_eq p.out.fl hs]
  exact (Emits.bind (emits_dims img) (f := fun _ => _) e1).bytesOf

/-- **C100**, hilbert(zip), one colour: on any traversal. -/
theorem C100_hilbert_one_colour {p : Setup} (fuel : Nat) {img : Img} (hs : VisitsOnce p.scan img.width.toNat img.height.toNat)
    {c : Rgb UInt8} (h : img.rgbPixels = List.replicate img.pixels.length c) :
    ∃ m bytes, (AnyCodec.hilbert .zip).encode p fuel img = .ok m ∧ bytesOf m = .ok bytes ∧ bytes.length ≤ 20716 := by
  have hc : colorsAlong p.scan img = List.replicate img.pixels.length c := by
    rw [List.eq_replicate_iff]
    refine ⟨by rw [colorsAlong, List.length_map, linearize_length hs, ← img.size], ?_⟩
    intro d hd
    obtain ⟨e, he, rfl⟩ := List.mem_map.1 hd
    have hin := mem_cells.1 (hs.mem_iff.1 he)
    have hlt : e.2 * img.width.toNat + e.1 < img.pixels.length := by
      rw [img.size]
      have := Nat.mul_le_mul_right img.width.toNat (show e.2 + 1 ≤ img.height.toNat by omega)
      rw [Nat.succ_mul, Nat.mul_comm img.height.toNat] at this
      omega
    rw [colorAt, h, List.getElem?_replicate, if_pos hlt]
    rfl
  obtain ⟨m, bs, h1, h2, h3⟩ := C100_hilbert_zip fuel hs (q := 1) (by omega) (by omega) (hc ▸ Repeats.replicate _ _)
    (pixels_lt img) (by omega)
  exact ⟨m, bs, h1, h2, Nat.le_trans h3 (by decide +kernel)⟩

/-! ## Examples -/

namespace PeriodicExamples

/-- The bound for a period of 3 and less than 2^20 bytes: 385 pairs, where the input may have half a million pairs of bytes. -/
example : periodicPairs 3 20 = 385 := by decide

/-- Two bytes that are no part of it, then a period of 3. -/
example : HasPeriod 3 [1, 2, 3, 1, 2, 3, 1, 2] ∧ ¬ HasPeriod 3 [9, 9, 1, 2, 3, 1, 2, 3, 1, 2] := by
  refine ⟨?_, fun h => absurd (h 0 (by decide)) (by decide)⟩
  intro i hi
  have : i < 5 := by simp at hi; omega
  match i, this with
  | 0, _ => rfl
  | 1, _ => rfl
  | 2, _ => rfl
  | 3, _ => rfl
  | 4, _ => rfl

/-- A million equal bytes. -/
example : ∃ bytes, Emits Emits.errOnly (zipDictEncode ([7, 8] ++ List.replicate 1000000 0)) bytes () ∧ bytes.length ≤ 1572 := by
  have h : HasPeriod 1 (List.replicate 1000000 (0 : UInt8)) := by
    intro i hi
    rw [List.length_replicate] at hi
    rw [List.getElem?_replicate, List.getElem?_replicate, if_pos hi, if_pos (by omega)]
  obtain ⟨bs, h1, h2⟩ := C100_periodic (p := 1) (k := 20) (pre := [7, 8]) (by decide) h (by rw [List.length_replicate]; decide)
    (by decide +kernel)
  exact ⟨bs, h1, Nat.le_trans h2 (by decide +kernel)⟩

/-- A chess board with an odd number of columns. -/
example : Repeats 2 ((List.range 9).map fun i => if i % 2 = 0 then black else ⟨255, 255, 255⟩) := by
  intro i hi
  simp only [List.length_map, List.length_range] at hi
  simp only [List.getElem?_map, List.getElem?_range hi, List.getElem?_range (show i < 9 by omega), Option.map_some]
  rw [Nat.add_mod_right]

/-- A picture of one colour with the greatest size: 2^32 - 1 rows and columns. -/
example : ∃ img : Img, img.rgbPixels = List.replicate img.pixels.length black ∧ img.width = 4294967295 ∧ img.height = 4294967295 := by
  refine ⟨{ width := 4294967295, height := 4294967295
            pixels := List.replicate ((4294967295 : UInt32).toNat * (4294967295 : UInt32).toNat) ⟨0, 0, 0, 255⟩
            size := by rw [List.length_replicate] }, ?_, rfl, rfl⟩
  rw [Img.rgbPixels, List.map_replicate, List.length_replicate]
  rfl

end PeriodicExamples

end Cniic
