import Verif.Proofs.Allowance

/-!
# The allowance of approximate runs and the size of the file (C102)
-/

namespace Cniic
open Spec SerSpec

/-- The allowance is a number at least zero, or plus infinity. -/
def NonNegative (d : F64) : Prop := d = .posInf ∨ ∃ q, 0 ≤ q ∧ d = .fin q

/-- **C102.** With any allowance that is not negative (and not NaN) there are not more runs than in any other sequence of
runs that spells the pixels: the approximate file is not larger than the one with exact runs. -/
theorem C102_never_larger {p : Setup} (hp : p.Lawful) (fuel : Nat) {d z : F64} (hd : NonNegative d) (hz : z.isZero = true)
    {img : Img} (hs : VisitsOnce p.scan img.width.toNat img.height.toNat) :
    ∃ m bytes m' bytes', (AnyCodec.hilbert (.rle d)).encode p fuel img = .ok m ∧ bytesOf m = .ok bytes ∧
      (AnyCodec.hilbert (.rle z)).encode p fuel img = .ok m' ∧ bytesOf m' = .ok bytes' ∧
      bytes.length ≤ bytes'.length ∧
      ∀ runs, expandRuns runs = colorsAlong p.scan img → bytes.length ≤ 8 + 12 * runs.length := by
  obtain ⟨runs, h1, h2, h3, he⟩ := hilbertEncode_exact p.out.fl hs hz
  have hlen : (bytes (img.width, img.height) ++ runs.flatMap runBytes).length = 8 + 12 * runs.length := by
    rw [List.length_append, dims_length, runs_bytes_length]
  cases hdz : d.isZero with
  | true =>
    obtain ⟨runs', h1', h2', h3', he'⟩ := hilbertEncode_exact p.out.fl hs hdz
    have hlen' : (bytes (img.width, img.height) ++ runs'.flatMap runBytes).length = 8 + 12 * runs'.length := by
      rw [List.length_append, dims_length, runs_bytes_length]
    have hf : ∀ rs, expandRuns rs = colorsAlong p.scan img → runs'.length ≤ rs.length := fun rs hr =>
      maximal_fewest rs 0 runs' h1' h3' (by rw [h2', hr]; rfl)
    refine ⟨_, _, _, _, rfl, he'.bytesOf, rfl, he.bytesOf, ?_, fun rs hr => ?_⟩
    · rw [hlen, hlen']
      have := hf runs h2
      omega
    · rw [hlen']
      have := hf rs hr
      omega
  | false =>
    obtain ⟨groups, hg, he'⟩ := hilbertEncode_approx hp.float hs hdz
    have hlen' : (bytes (img.width, img.height) ++ (groups.map (runOf meanColor)).flatMap runBytes).length =
        8 + 12 * groups.length := by
      rw [List.length_append, dims_length, runs_bytes_length, List.length_map]
    have hf : ∀ rs, expandRuns rs = colorsAlong p.scan img → groups.length ≤ rs.length := fun rs hr =>
      greedy_fewest (fun _ c hn => joins_same hp.float hd hn c) rs 0 groups (by rw [hr]; exact hg)
    refine ⟨_, _, _, _, rfl, he'.bytesOf, rfl, he.bytesOf, ?_, fun rs hr => ?_⟩
    · rw [hlen, hlen']
      have := hf runs h2
      omega
    · rw [hlen']
      have := hf rs hr
      omega

/-- The number of bytes for some groups. -/
private theorem size_of_groups {p : Setup} (hp : p.Lawful) (fuel : Nat) {d : F64} (hdz : d.isZero = false)
    {img : Img} (hs : VisitsOnce p.scan img.width.toNat img.height.toNat) {groups : List (List (Rgb UInt8))}
    (hg : Greedy (joins p.out.fl d) (colorsAlong p.scan img) groups) :
    ∃ m bytes, (AnyCodec.hilbert (.rle d)).encode p fuel img = .ok m ∧ bytesOf m = .ok bytes ∧
      bytes.length = 8 + 12 * groups.length := by
  obtain ⟨groups', hg', he⟩ := hilbertEncode_approx hp.float hs hdz
  refine ⟨_, _, rfl, he.bytesOf, ?_⟩
  rw [List.length_append, dims_length, runs_bytes_length, List.length_map, hg'.unique hg]

/-- **C102**, the largest allowances: from 442 on, and with plus infinity, all runs but the last have 255 pixels. -/
theorem C102_everything {p : Setup} (hp : p.Lawful) (fuel : Nat) {d : F64}
    (hd : d = .posInf ∨ ∃ q, 442 ≤ q ∧ d = .fin q) {img : Img}
    (hs : VisitsOnce p.scan img.width.toNat img.height.toNat) :
    ∃ m bytes, (AnyCodec.hilbert (.rle d)).encode p fuel img = .ok m ∧ bytesOf m = .ok bytes ∧
      bytes.length = 8 + 12 * ((img.pixels.length + 254) / 255) := by
  have hdz : d.isZero = false := by
    rcases hd with rfl | ⟨q, hq, rfl⟩
    · rfl
    · simp only [F64.isZero, beq_eq_false_iff_ne]
      intro h
      rw [h] at hq
      norm_num at hq
  obtain ⟨groups, hg, -⟩ := hilbertEncode_approx hp.float hs hdz
  obtain ⟨m, bytes, h1, h2, h3⟩ := size_of_groups hp fuel hdz hs hg
  have hcl : (colorsAlong p.scan img).length = img.pixels.length := by
    rw [colorsAlong, List.length_map, linearize_length hs, ← img.size]
  refine ⟨m, bytes, h1, h2, ?_⟩
  rw [h3, ← hcl]
  rw [greedy_full (fun g x hn => ?_) hg]
  rcases hd with rfl | ⟨q, hq, rfl⟩
  · exact (C36_special g x).1
  · exact joins_442 hp.float hq g hn x

/-- **C102**, a larger allowance can cost more: for every `m` and every picture whose pixels along the curve are
`teeth m`, the file has `m + 1` runs with the allowance 22 and `254 * m + 1` runs with the allowance 24. -/
theorem C102_not_monotone {p : Setup} (hp : p.Lawful) (fuel m : Nat) {img : Img}
    (hs : VisitsOnce p.scan img.width.toNat img.height.toNat) (hc : colorsAlong p.scan img = teeth m) :
    ∃ lo low hi high, (AnyCodec.hilbert (.rle (.fin 22))).encode p fuel img = .ok lo ∧ bytesOf lo = .ok low ∧
      (AnyCodec.hilbert (.rle (.fin 24))).encode p fuel img = .ok hi ∧ bytesOf hi = .ok high ∧
      low.length = 8 + 12 * (m + 1) ∧ high.length = 8 + 12 * (254 * m + 1) := by
  obtain ⟨gs, hg, hl⟩ := teeth_high hp.float m
  obtain ⟨lo, low, h1, h2, h3⟩ := size_of_groups (img := img) hp fuel (d := .fin 22) (by decide +kernel) hs
    (by rw [hc]; exact teeth_low hp.float m)
  obtain ⟨hi, high, h4, h5, h6⟩ := size_of_groups (img := img) hp fuel (d := .fin 24) (by decide +kernel) hs
    (by rw [hc]; exact hg)
  refine ⟨lo, low, hi, high, h1, h2, h4, h5, ?_, by rw [h6, hl]⟩
  rw [h3, List.length_cons, List.length_replicate]

/-- **C102**, such pictures exist in every shape with `2 + 255 * m` pixels. -/
theorem C102_teeth_exist (p : Setup) (m : Nat) (w h : UInt32) (hs : VisitsOnce p.scan w.toNat h.toNat)
    (hl : w.toNat * h.toNat = 2 + 255 * m) :
    ∃ img : Img, img.width = w ∧ img.height = h ∧ colorsAlong p.scan img = teeth m :=
  exists_colorsAlong w h hs _ (by rw [teeth_length, hl])

/-- A picture of 257 pixels: 32 bytes with the allowance 22, 3068 bytes with the allowance 24. -/
example : ∃ (img : Img) (lo hi : W Unit) (low high : List UInt8), img.width = 257 ∧ img.height = 1 ∧
    (AnyCodec.hilbert (.rle (.fin 22))).encode AnyCodecExamples.setup 0 img = .ok lo ∧ bytesOf lo = .ok low ∧
    (AnyCodec.hilbert (.rle (.fin 24))).encode AnyCodecExamples.setup 0 img = .ok hi ∧ bytesOf hi = .ok high ∧
    low.length = 32 ∧ high.length = 3068 := by
  obtain ⟨img, hw, hh, hc⟩ := C102_teeth_exist AnyCodecExamples.setup 1 257 1 (.refl _) (by decide)
  obtain ⟨lo, low, hi, high, h1, h2, h3, h4, h5, h6⟩ :=
    C102_not_monotone AnyCodecExamples.setup_lawful 0 1 (img := img) (.refl _) hc
  exact ⟨img, lo, hi, low, high, hw, hh, h1, h2, h3, h4, h5, h6⟩

/-- The same picture with the allowance 442 takes 2 runs. -/
example : ∃ (img : Img) (m : W Unit) (bytes : List UInt8), img.width = 257 ∧
    (AnyCodec.hilbert (.rle (.fin 442))).encode AnyCodecExamples.setup 0 img = .ok m ∧ bytesOf m = .ok bytes ∧
    bytes.length = 32 := by
  obtain ⟨img, hw, hh, -⟩ := C102_teeth_exist AnyCodecExamples.setup 1 257 1 (.refl _) (by decide)
  obtain ⟨m, bytes, h1, h2, h3⟩ := C102_everything AnyCodecExamples.setup_lawful 0 (d := .fin 442)
    (.inr ⟨442, le_refl _, rfl⟩) (img := img) (.refl _)
  refine ⟨img, m, bytes, hw, h1, h2, ?_⟩
  rw [h3, img.size, hw, hh]
  decide

/-- Hypotheses of `C102_never_larger`. -/
example : ∃ m bytes m' bytes', (AnyCodec.hilbert (.rle (.fin 3))).encode AnyCodecExamples.setup 0 example31 = .ok m ∧
    bytesOf m = .ok bytes ∧ (AnyCodec.hilbert (.rle (.fin 0))).encode AnyCodecExamples.setup 0 example31 = .ok m' ∧
    bytesOf m' = .ok bytes' ∧ bytes.length ≤ bytes'.length := by
  obtain ⟨m, bytes, m', bytes', h1, h2, h3, h4, h5, -⟩ := C102_never_larger AnyCodecExamples.setup_lawful 0
    (d := .fin 3) (z := .fin 0) (.inr ⟨3, by norm_num, rfl⟩) (by decide +kernel) (img := example31) (.refl _)
  exact ⟨m, bytes, m', bytes', h1, h2, h3, h4, h5⟩

end Cniic
