import Verif.Proofs.Entropy
import Verif.Props.Sizes
import Mathlib.Analysis.SpecialFunctions.Log.Base
import Mathlib.Analysis.Complex.ExponentialBounds
import Mathlib.Tactic.Linarith

/-!
# Huffman files and entropy (C91)
-/

namespace Cniic
open Spec SerSpec Kmeans

/-- **C91**, codes: the least number of bits of a prefix code is at least the information in the sequence and less than one bit
per item more; and, unless all items are the same, at least one bit per item. -/
theorem C91_codes {T : Type} [DecidableEq T] {items : List T} {B : Nat} (h : FewestBits items B) (hne : items ≠ []) :
    information items ≤ B ∧ (B : ℝ) < information items + items.length ∧
      ((∃ x ∈ items, ∃ y ∈ items, x ≠ y) → items.length ≤ B) :=
  ⟨information_lower h, information_upper h hne, fun ⟨_, hx, _, hy, hxy⟩ => FewestBits.one_bit h hx hy hxy⟩

/-- From bits to bytes. -/
theorem bytes_of_bits {T : Type} [DecidableEq T] {items : List T} {B size head : Nat} (h : FewestBits items B)
    (hne : items ≠ []) (hs : size = head + (B + 7) / 8) :
    head + information items / 8 ≤ size ∧ (size : ℝ) < head + (information items + items.length) / 8 + 1 ∧
      ((∃ x ∈ items, ∃ y ∈ items, x ≠ y) → head + items.length / 8 ≤ size) := by
  obtain ⟨h1, h2, h3⟩ := C91_codes h hne
  have e1 : B ≤ 8 * ((B + 7) / 8) := by omega
  have e2 : 8 * ((B + 7) / 8) ≤ B + 7 := by omega
  generalize (B + 7) / 8 = k at *
  have e1' : (B : ℝ) ≤ 8 * k := by exact_mod_cast e1
  have e2' : (8 * k : ℝ) ≤ B + 7 := by exact_mod_cast e2
  subst hs
  refine ⟨by push_cast; linarith, by push_cast; linarith, fun hxy => ?_⟩
  have := h3 hxy
  omega

/-- **C91**, hufman: apart from 7 bytes and 13 for each colour, the file has at least the information in the pixels, and less than
one bit per pixel and one byte more; and if there are two colours at least one bit per pixel. -/
theorem C91_hufman {p : Setup} (hp : p.Lawful) (fuel : Nat) {img : Img} (hne : img.pixels ≠ [])
    {S : List (Rgb UInt8)} (hS : Distinct S img.rgbPixels) :
    ∃ m bytes, AnyCodec.hufman.encode p fuel img = .ok m ∧ bytesOf m = .ok bytes ∧
      (7 + 13 * S.length : ℕ) + information img.rgbPixels / 8 ≤ bytes.length ∧
      (bytes.length : ℝ) < (7 + 13 * S.length : ℕ) + (information img.rgbPixels + img.pixels.length) / 8 + 1 ∧
      (2 ≤ S.length → 7 + 13 * S.length + img.pixels.length / 8 ≤ bytes.length) := by
  obtain ⟨m, bytes, B, h1, h2, h3, h4, -⟩ := C77_hufman hp fuel hne hS
  have hl : img.rgbPixels.length = img.pixels.length := by rw [Img.rgbPixels, List.length_map]
  obtain ⟨k1, k2, k3⟩ := bytes_of_bits h3 (by simpa [Img.rgbPixels] using hne) h4
  rw [hl] at k2 k3
  refine ⟨m, bytes, h1, h2, k1, k2, fun hS2 => k3 ?_⟩
  match S, hS, hS2 with
  | x :: y :: S, hS, _ =>
    exact ⟨x, (hS.2 x).1 (by simp), y, (hS.2 y).1 (by simp), fun h => by
      subst h
      exact (List.nodup_cons.1 hS.1).1 (by simp)⟩

/-- **C91**, delta: the same for the differences along the traversal, with 8 bytes for each. -/
theorem C91_delta {p : Setup} (hp : p.Lawful) (fuel : Nat) {img : Img}
    (hs : VisitsOnce p.scan img.width.toNat img.height.toNat) (hne : img.pixels ≠ []) {S : List SignedColor}
    (hS : Distinct S (diffs black (colorsAlong p.scan img))) :
    ∃ m bytes, AnyCodec.delta.encode p fuel img = .ok m ∧ bytesOf m = .ok bytes ∧
      (7 + 8 * S.length : ℕ) + information (diffs black (colorsAlong p.scan img)) / 8 ≤ bytes.length ∧
      (bytes.length : ℝ) < (7 + 8 * S.length : ℕ) +
        (information (diffs black (colorsAlong p.scan img)) + img.pixels.length) / 8 + 1 ∧
      (2 ≤ S.length → 7 + 8 * S.length + img.pixels.length / 8 ≤ bytes.length) := by
  obtain ⟨m, bytes, B, h1, h2, h3, h4, -⟩ := C77_delta hp fuel hs hne hS
  have hl : (diffs black (colorsAlong p.scan img)).length = img.pixels.length := by
    rw [diffs_length, colorsAlong, List.length_map, linearize_length hs, ← img.size]
  obtain ⟨k1, k2, k3⟩ := bytes_of_bits h3 (delta_ne hs hne) h4
  rw [hl] at k2 k3
  refine ⟨m, bytes, h1, h2, k1, k2, fun hS2 => k3 ?_⟩
  match S, hS, hS2 with
  | x :: y :: S, hS, _ =>
    exact ⟨x, (hS.2 x).1 (by simp), y, (hS.2 y).1 (by simp), fun h => by
      subst h
      exact (List.nodup_cons.1 hS.1).1 (by simp)⟩

/-- **C91**, cluster-colors: the same for the colours of the decoded picture, of which there are at most `n`. -/
theorem C91_cluster_colors {p : Setup} (hp : p.Lawful) (hsort : IsSort p.out.sort) {fuel : Nat} {n : UInt64} {img : Img}
    (ha : Addressable img) {m : W Unit}
    (hm : (AnyCodec.clusterColors n).encode p fuel img = .ok m) :
    ∃ bytes out S, bytesOf m = .ok bytes ∧ (AnyCodec.clusterColors n).decode p bytes = .ok out ∧
      Distinct S out.pixels ∧ S.length ≤ n.toNat ∧ (out.pixels ≠ [] →
        (7 + 13 * S.length : ℕ) + information out.pixels / 8 ≤ bytes.length ∧
        (bytes.length : ℝ) < (7 + 13 * S.length : ℕ) + (information out.pixels + out.pixels.length) / 8 + 1) := by
  obtain ⟨bytes, out, S, B, h1, h2, h3, h4, h5, h6, -⟩ := C77_cluster_colors hp hsort ha hm
  refine ⟨bytes, out, S, h1, h2, h3, h4, fun hne => ?_⟩
  obtain ⟨k1, k2, -⟩ := bytes_of_bits h5 hne h6
  exact ⟨k1, k2⟩

/-- **C91**, the bit per item may be all there is: one item among `n` of another kind takes `n + 1` bits, although the information
is only logarithmic in `n`. -/
theorem C91_gap {T : Type} [DecidableEq T] {a b : T} (hab : a ≠ b) {n : Nat} (hn : 0 < n) :
    FewestBits (b :: List.replicate n a) (n + 1) ∧
      information (b :: List.replicate n a) ≤ Real.logb 2 (n + 1) + 2 := by
  constructor
  · constructor
    · refine ⟨fun x => [decide (x = a)], ?_, by simp [payloadBits, Nat.add_comm]⟩
      have hor : ∀ x ∈ b :: List.replicate n a, x = a ∨ x = b := by
        intro x hx
        rcases List.mem_cons.1 hx with rfl | hx
        · exact .inr rfl
        · exact .inl (List.eq_of_mem_replicate hx)
      intro x hx y hy h
      obtain ⟨t, ht⟩ := h
      have hd : decide (x = a) = decide (y = a) := (List.cons.inj ht).1
      rcases hor x hx with rfl | rfl <;> rcases hor y hy with rfl | rfl
      · rfl
      · simp [hab.symm] at hd
      · simp [hab.symm] at hd
      · rfl
    · intro code hp
      -- every code needs one bit for each item
      have hne : ∀ z ∈ b :: List.replicate n a, 1 ≤ (code z).length := by
        intro z hz
        by_contra hn'
        have h0 : code z = [] := List.length_eq_zero_iff.1 (by omega)
        have hzx := hp z hz a (List.mem_cons_of_mem _ (List.mem_replicate.2 ⟨by omega, rfl⟩))
          (by rw [h0]; exact List.nil_prefix)
        have hzy := hp z hz b List.mem_cons_self (by rw [h0]; exact List.nil_prefix)
        exact hab (hzx.symm.trans hzy)
      have ha := hne a (List.mem_cons_of_mem _ (List.mem_replicate.2 ⟨by omega, rfl⟩))
      have hb := hne b List.mem_cons_self
      simp only [payloadBits, List.map_cons, List.map_replicate, List.sum_cons, List.sum_replicate_nat]
      have := Nat.mul_le_mul_left n ha
      omega
  · have hn' : (0 : ℝ) < n := by exact_mod_cast hn
    have h2 : (0 : ℝ) < Real.log 2 := Real.log_pos (by norm_num)
    have ca : (b :: List.replicate n a).count a = n := by simp [hab.symm]
    have cb : (b :: List.replicate n a).count b = 1 := by
      rw [List.count_cons_self, List.count_replicate]
      simp [hab]
    have e : information (b :: List.replicate n a) =
        Real.logb 2 (n + 1) + n * Real.logb 2 ((n + 1) / n) := by
      rw [information, List.map_cons, List.sum_cons, List.map_replicate, ca, cb, List.sum_replicate, nsmul_eq_mul]
      simp
    rw [e]
    have h3 : Real.log ((n + 1) / n) ≤ 1 / n := by
      have := Real.log_le_sub_one_of_pos (x := ((n : ℝ) + 1) / n) (by positivity)
      have e : ((n : ℝ) + 1) / n - 1 = 1 / n := by field_simp; ring
      rwa [e] at this
    have h4 : (n : ℝ) * Real.logb 2 ((n + 1) / n) ≤ 1 / Real.log 2 := by
      rw [Real.logb, ← mul_div_assoc]
      apply div_le_div_of_nonneg_right _ h2.le
      calc (n : ℝ) * Real.log ((n + 1) / n) ≤ n * (1 / n) := mul_le_mul_of_nonneg_left h3 hn'.le
        _ = 1 := by field_simp
    have h5 : 1 / Real.log 2 ≤ 2 := by
      rw [div_le_iff₀ h2]
      have := Real.log_two_gt_d9
      linarith
    linarith

/-- Four items, two of them alike: six bits of information, and six bits in the best code. -/
example : information [0, 0, 1, 2] = 6 ∧ FewestBits [0, 0, 1, 2] 6 := by
  have e : information [0, 0, 1, 2] = 6 := by
    have l4 : Real.logb 2 4 = 2 := by
      rw [show (4 : ℝ) = 2 ^ 2 by norm_num, Real.logb_pow, Real.logb_self_eq_one (by norm_num)]
      norm_num
    simp [information, List.count_cons, l4]
    rw [show (4 : ℝ) / (1 + 1) = 2 by norm_num, Real.logb_self_eq_one (by norm_num)]
    norm_num
  refine ⟨e, ⟨fun x => if x = 0 then [false] else if x = 1 then [true, false] else [true, true],
    by unfold PrefixFree; decide, by decide⟩, fun code hp => ?_⟩
  have h := information_le [0, 0, 1, 2] (fun x => (code x).length) (by
    apply Kraft.of_prefixFree (List.nodup_dedup _)
    intro x hx y hy
    exact hp x (List.mem_dedup.1 hx) y (List.mem_dedup.1 hy))
  rw [e] at h
  exact_mod_cast h

end Cniic
