import Verif.Props.Codecs
import Verif.Proofs.Approx
import Mathlib.Tactic.IntervalCases

/-!
# Properties of the hilbert codec with approximate runs (C35, C36, C55, C56)

`fl` is the arithmetic of `f64`; the assumption `fl.Lawful` holds for rounding to nearest even
(`Ieee.lawful`).  `joins fl d p x` is the test made by the program; `C36` says what it means.
-/

namespace Cniic
open Spec SerSpec

variable {fl : FloatOps}

/-- **C35.** For every allowance the approximate runs are those of a greedy grouping of the pixels into
groups of 1 to 255; the groups contain all pixels in order; each run has the length of its group and the
mean colour of its group, rounded to nearest; nothing panics (in particular the range assertion holds). -/
theorem C35_runs (hfl : fl.Lawful) (allow : F64) (xs : List (Rgb UInt8)) :
    ∃ groups, Greedy (joins fl allow) xs groups ∧ groups.flatten = xs ∧
      (∀ g ∈ groups, 1 ≤ g.length ∧ g.length ≤ 255) ∧
      Yields (AbstractRle.next (Approx fl allow)) (rleApprox xs)
        (groups.map fun g => (UInt8.ofNat g.length, meanColor g)) := by
  obtain ⟨groups, hg, hy⟩ := rle_groups (approx_represents hfl allow) xs none
  exact ⟨groups, hg, hg.flatten,
    fun g h => ⟨List.length_pos_iff.2 (hg.sizes g h).1, (hg.sizes g h).2⟩, hy⟩

/-- **C35**, the counts: they add up to the number of pixels. -/
theorem C35_counts (hfl : fl.Lawful) (allow : F64) (xs : List (Rgb UInt8)) :
    ∃ runs, Yields (AbstractRle.next (Approx fl allow)) (rleApprox xs) runs ∧
      (∀ r ∈ runs, 1 ≤ r.1.toNat ∧ r.1.toNat ≤ 255) ∧ (runs.map (·.1.toNat)).sum = xs.length := by
  obtain ⟨groups, hg, hf, hl, hy⟩ := C35_runs hfl allow xs
  refine ⟨_, hy, ?_, ?_⟩
  · intro r hr
    obtain ⟨g, h, rfl⟩ := List.mem_map.1 hr
    simp only
    rw [u8_ofNat_toNat (hl g h).2]
    exact hl g h
  · rw [← hf, List.length_flatten, List.map_map]
    congr 1
    apply List.map_congr_left
    intro g h
    exact u8_ofNat_toNat (hl g h).2

/-- **C35**, the whole codec: decoding gives the image in which each pixel is replaced by the mean colour
of its run. -/
theorem C35_codec (hfl : fl.Lawful) (scan : Scan) (d : F64) (hd : d.isZero = false) (img : Img)
    (hs : VisitsOnce scan img.width.toNat img.height.toNat) (ha : Addressable img) :
    ∃ groups bytes out, Greedy (joins fl d) (colorsAlong scan img) groups ∧
      Emits Emits.errOnly (hilbertEncode scan fl (.rle d) img) bytes () ∧
      hilbertDecode scan (.rle d) bytes = .ok out ∧ out.width = img.width ∧ out.height = img.height ∧
      out.pixels.length = img.width.toNat * img.height.toNat ∧
      (scan img.width.toNat img.height.toNat).map (pixelAt out) = (averaged groups).map some := by
  obtain ⟨groups, hg, he⟩ := hilbertEncode_approx hfl hs hd
  obtain ⟨r1, r2⟩ := averaged_runs hg.sizes
  have hsup := (rleDecoder_yields _ r2).supplies
  rw [r1] at hsup
  obtain ⟨out, h1, h2, h3, h4, h5⟩ := paint_colors hs
    (by rw [averaged_length, hg.flatten]; simp [colorsAlong]) _ hsup
  exact ⟨groups, _, out, hg, he, by rw [hilbertDecode_rle scan d img ha]; exact h1, h2, h3, h4, h5⟩

/-- **C36.** A pixel that is added to a run is within the allowance `d` of the exact mean of the pixels
before it in the run, up to the rounding errors of the computation.  (In particular `d` is not negative
and not NaN.) -/
theorem C36_joins_within (hfl : fl.Lawful) (d : Rat) (g : List (Rgb UInt8)) (hg : g ≠ []) (x : Rgb UInt8)
    (h : joins fl (.fin d) g x) :
    0 ≤ d ∧ Near (meanExact g) (exactColor x) (d * (1 + 1 / 2 ^ 40) + 1 / 2 ^ 40) :=
  joins_near hfl hg h

/-- **C36**, the other direction: a pixel that is not added is farther away, up to rounding errors. -/
theorem C36_rejected (hfl : fl.Lawful) (d e : Rat) (he : 0 ≤ e)
    (hed : e * (1 + 1 / 2 ^ 40) + 1 / 2 ^ 40 ≤ d) (g : List (Rgb UInt8)) (hg : g ≠ []) (x : Rgb UInt8)
    (h : ¬ joins fl (.fin d) g x) : ¬ Near (meanExact g) (exactColor x) e :=
  fun hn => h (near_joins hfl hg he hed hn)

/-- **C36**, infinite and undefined allowances: everything or nothing is accepted. -/
theorem C36_special (g : List (Rgb UInt8)) (x : Rgb UInt8) :
    joins fl .posInf g x ∧ ¬ joins fl .negInf g x ∧ ¬ joins fl .nan g x := by
  refine ⟨rfl, ?_, ?_⟩ <;> simp [joins, F64.ge]

/-- Groups given by prefixes. -/
theorem joins_all {ok : List (Rgb UInt8) → Rgb UInt8 → Prop} {g : List (Rgb UInt8)}
    (h : ∀ i, 0 < i → (hi : i < g.length) → ok (g.take i) g[i]) :
    ∀ p x q, g = p ++ x :: q → p ≠ [] → ok p x := by
  rintro p x q rfl hp
  have := h p.length (List.length_pos_iff.2 hp) (by simp)
  simpa using this

/-- Some shades of red. -/
def reds : List (Rgb UInt8) := [0, 2, 3, 3, 4, 4, 4].map fun r => ⟨r, 0, 0⟩

/-- **C36**, the expectation that a decoded pixel is within the allowance of the original is refuted: with
allowance 9/4, seven pixels form one run whose colour is at distance 3 from the first pixel. -/
theorem C36_refuted (hfl : fl.Lawful) :
    Yields (AbstractRle.next (Approx fl (.fin (9 / 4)))) (rleApprox reds) [(7, ⟨3, 0, 0⟩)] ∧
    reds.head? = some ⟨0, 0, 0⟩ ∧ ¬ Near (exactColor ⟨3, 0, 0⟩) (exactColor ⟨0, 0, 0⟩) (9 / 4) := by
  refine ⟨?_, rfl, ?_⟩
  · obtain ⟨groups, hg, _, _, hy⟩ := C35_runs hfl (.fin (9 / 4)) reds
    have h : Greedy (joins fl (.fin (9 / 4))) (reds ++ []) [reds] := by
      refine .group (by simp [reds]) (by simp [reds]) (joins_all ?_) (.inr (by simp)) .nil
      intro i h0 hi
      apply near_joins hfl (e := 2) (by
        intro hn
        have := congrArg List.length hn
        rw [List.length_take, List.length_nil] at this
        omega) (by norm_num) (by norm_num)
      have hi' : i < 7 := hi
      constructor
      clear hg hy
      interval_cases i <;> (generalize_proofs; simp only [reds, List.map_cons, List.getElem_cons_succ, List.getElem_cons_zero]; decide +kernel)
    rw [List.append_nil] at h
    rw [hg.unique h] at hy
    have e : ([reds].map fun g => (UInt8.ofNat g.length, meanColor g)) = [(7, ⟨3, 0, 0⟩)] := by decide
    rw [e] at hy
    exact hy
  · rintro ⟨h⟩
    revert h
    decide +kernel

/-- What the program computes: the same run. -/
example : Yields (AbstractRle.next (Approx Ieee.ops (.fin (9 / 4)))) (rleApprox reds) [(7, ⟨3, 0, 0⟩)] :=
  (C36_refuted Ieee.lawful).1

/-- A pixel at distance 3 of the mean is rejected if the allowance is 2 and accepted if it is 4. -/
example : ¬ joins Ieee.ops (.fin 2) [⟨0, 0, 0⟩] ⟨3, 0, 0⟩ ∧ joins Ieee.ops (.fin 4) [⟨0, 0, 0⟩] ⟨3, 0, 0⟩ := by
  constructor
  · intro h
    have := (C36_joins_within Ieee.lawful 2 _ (by simp) _ h).2.le
    revert this
    decide +kernel
  · exact near_joins Ieee.lawful (e := 3) (by simp) (by norm_num) (by norm_num) ⟨by decide +kernel⟩

/-- **C55.** With a finite allowance `d ≥ 0`, no decoded pixel is farther than `5.13 d + 0.87` from the
original.  (The sum `1/2 + 1/3 + ... + 1/255` is about 5.12.) -/
theorem C55_error_bound (hfl : fl.Lawful) (scan : Scan) (d : Rat) (hd : 0 < d) (img : Img)
    (hs : VisitsOnce scan img.width.toNat img.height.toNat) (ha : Addressable img) :
    ∃ bytes out, Emits Emits.errOnly (hilbertEncode scan fl (.rle (.fin d)) img) bytes () ∧
      hilbertDecode scan (.rle (.fin d)) bytes = .ok out ∧
      out.width = img.width ∧ out.height = img.height ∧
      ∀ x y, x < img.width.toNat → y < img.height.toNat →
        ∃ c, pixelAt out (x, y) = some c ∧
          Near (exactColor c) (exactColor (colorAt img (x, y))) (5.13 * d + 0.87) := by
  have hz : (F64.fin d).isZero = false := by
    simp only [F64.isZero, beq_eq_false_iff_ne]
    exact hd.ne'
  obtain ⟨groups, bytes, out, hg, he, h1, h2, h3, h4, h5⟩ := C35_codec hfl scan (.fin d) hz img hs ha
  refine ⟨bytes, out, he, h1, h2, h3, ?_⟩
  have hall : List.Forall₂ (fun a b => Near (exactColor a) (exactColor b) (5.13 * d + 0.87))
      (averaged groups) groups.flatten := by
    apply averaged_forall₂
    intro g hgm
    exact averaged_near hfl hd.le (hg.sizes g hgm).1 (hg.sizes g hgm).2 (hg.joined g hgm)
  rw [hg.flatten] at hall
  intro x y hx hy
  obtain ⟨i, hi, hc⟩ := List.getElem_of_mem (hs.mem_iff.2 (mem_cells.2 ⟨hx, hy⟩))
  have hlen := hall.length_eq
  have hcl : (colorsAlong scan img).length = (scan img.width.toNat img.height.toNat).length := by
    simp [colorsAlong]
  have e := congrArg (·[i]?) h5
  simp only [List.getElem?_map] at e
  rw [List.getElem?_eq_getElem hi, hc, List.getElem?_eq_getElem (by omega)] at e
  simp only [Option.map_some, Option.some.injEq] at e
  refine ⟨_, e, ?_⟩
  have := List.Forall₂.get hall (i := i) (by omega) (by omega)
  simp only [List.get_eq_getElem] at this
  have e2 : (colorsAlong scan img)[i]'(by omega) = colorAt img (x, y) := by
    simp only [colorsAlong, List.getElem_map]
    rw [hc]
  rw [e2] at this
  exact this

/-- **C56.** With a negative, negative infinite or NaN allowance every run is a single pixel and the codec is
lossless. -/
theorem C56_lossless (hfl : fl.Lawful) (scan : Scan) (d : F64)
    (hd : d = .nan ∨ d = .negInf ∨ ∃ q < 0, d = .fin q) (img : Img)
    (hs : VisitsOnce scan img.width.toNat img.height.toNat) (ha : Addressable img) :
    ∃ bytes, Emits Emits.errOnly (hilbertEncode scan fl (.rle d) img) bytes () ∧
      bytes.length = 8 + 12 * (img.width.toNat * img.height.toNat) ∧
      hilbertDecode scan (.rle d) bytes = .ok img.toRgb := by
  have hz : d.isZero = false := by
    rcases hd with rfl | rfl | ⟨q, hq, rfl⟩
    · rfl
    · rfl
    · simp only [F64.isZero, beq_eq_false_iff_ne]
      exact hq.ne
  obtain ⟨groups, hg, he⟩ := hilbertEncode_approx hfl hs hz
  rw [hg.unique (greedy_singletons (not_joins hfl hd) _)] at he
  obtain ⟨r1, r2⟩ := averaged_runs (groups := (colorsAlong scan img).map fun x => [x]) (by
    intro g hg
    obtain ⟨x, _, rfl⟩ := List.mem_map.1 hg
    simp)
  rw [averaged_singletons] at r1
  refine ⟨_, he, ?_, ?_⟩
  · rw [List.length_append, runs_bytes_length, dims_length]
    simp [colorsAlong, linearize_length hs]
  · rw [hilbertDecode_rle scan d img ha]
    apply paint_all hs
    have := (rleDecoder_yields _ r2).supplies
    rw [r1] at this
    exact this

/-- The hypotheses of C35, C55 and C56 hold for a small image, so a lossy and a lossless round trip exist. -/
example : (∃ bytes out, bytesOf (hilbertEncode cells Ieee.ops (.rle (.fin 3)) example31) = .ok bytes ∧
      hilbertDecode cells (.rle (.fin 3)) bytes = .ok out) ∧
    (∃ bytes, bytesOf (hilbertEncode cells Ieee.ops (.rle .nan) example31) = .ok bytes ∧
      hilbertDecode cells (.rle .nan) bytes = .ok example31.toRgb) := by
  have ha : Addressable example31 := by unfold Addressable; decide
  constructor
  · obtain ⟨bytes, out, h1, h2, _⟩ := C55_error_bound Ieee.lawful cells 3 (by norm_num) example31 (.refl _) ha
    exact ⟨bytes, out, h1.bytesOf, h2⟩
  · obtain ⟨bytes, h1, _, h2⟩ := C56_lossless Ieee.lawful cells .nan (.inl rfl) example31 (.refl _) ha
    exact ⟨bytes, h1.bytesOf, h2⟩

end Cniic
