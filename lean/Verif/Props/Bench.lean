import Verif.Proofs.Bench
import Verif.Proofs.BenchError
import Verif.Props.AnyCodec

/-!
# Properties of the benchmark (C50, C51, C64 - C67)
-/

namespace Cniic
open Spec SerSpec

/-! ## The report file -/

section
variable {n : Nat} {result : Nat → Ret Failure Row}

/-- **C50.** Whatever the schedule, the report is well formed at any time: it is empty or consists
of one header followed by exactly one row for each image whose work has returned success, in the order in which they got
the lock.  Writing records may fail. -/
theorem C50_report {faults : Prop} {s : Bench} (h : Bench.Reachable n result faults s) :
    ∃ (order : List Nat) (rows : List Row), order.Nodup ∧ (∀ i, i ∈ order ↔ s.pc i = .done true) ∧
      order.map result = rows.map Ret.ok ∧ (s.file = .header :: rows.map .row ∨ s.file = [] ∧ rows = []) := by
  obtain ⟨order, rows, hi⟩ := Bench.inv_reachable h
  refine ⟨order, rows, hi.nodup, hi.mem, hi.results, ?_⟩
  cases hh : s.wroteHeader with
  | true => exact .inl (hi.after hh)
  | false =>
    obtain ⟨h1, rfl⟩ := hi.before hh
    have := hi.results
    simp only [List.map_nil] at this
    exact .inr ⟨h1, List.map_eq_nil_iff.1 this.symm⟩

/-- The images measured successfully, in their order on the command line. -/
def successes (n : Nat) (result : Nat → Ret Failure Row) : List Row :=
  (List.range n).filterMap fun i => match result i with
    | .ok r => some r
    | _ => none

/-- **C50**, the complete report: if no write fails and no worker panics, the final report is empty if no image
succeeded; otherwise it is one header followed by the rows of the images that succeeded, in some order. -/
theorem C50_complete {s : Bench} (h : Bench.Reachable n result False s) (hf : s.Finished n) :
    ∃ rows : List Row, rows.Perm (successes n result) ∧
      s.file = if rows = [] then [] else .header :: rows.map .row := by
  obtain ⟨order, rows, hi⟩ := Bench.inv_reachable h
  have hl : ∀ i, ¬ (s.pc i = .locked ∨ s.pc i = .headed) := by
    intro i hi'
    have hg : i < n := (hi.good i (hi'.elim .inl fun h => .inr (.inl h))).1
    obtain ⟨ok, hok⟩ := hf i hg
    rw [hok] at hi'
    simp at hi'
  have hmem : ∀ i, i ∈ order ↔ i ∈ (List.range n).filter fun i => match result i with | .ok _ => true | _ => false := by
    intro i
    rw [hi.mem, List.mem_filter, List.mem_range]
    constructor
    · intro hd
      obtain ⟨h1, r, h2⟩ := hi.good i (.inr (.inr hd))
      exact ⟨h1, by rw [h2]⟩
    · rintro ⟨h1, h2⟩
      obtain ⟨ok, hok⟩ := hf i h1
      cases ok with
      | true => exact hok
      | false =>
        obtain ⟨-, hx | ⟨e, he⟩⟩ := hi.bad i hok
        · exact hx.elim
        · rw [he] at h2; cases h2
  have hperm : order.Perm ((List.range n).filter fun i => match result i with | .ok _ => true | _ => false) :=
    (List.perm_ext_iff_of_nodup hi.nodup (List.nodup_range.filter _)).2 hmem
  refine ⟨rows, ?_, ?_⟩
  · have h1 : rows = order.filterMap fun i => match result i with | .ok r => some r | _ => none := by
      have := congrArg (List.filterMap fun x : Ret Failure Row => match x with | .ok r => some r | _ => none) hi.results
      rw [List.filterMap_map, List.filterMap_map] at this
      have e : (fun i : Nat => match result i with | .ok r => some r | _ => none) =
          (fun x : Ret Failure Row => match x with | .ok r => some r | _ => none) ∘ result := rfl
      rw [e, this]
      exact (List.filterMap_some).symm
    rw [h1]
    refine (hperm.filterMap _).trans ?_
    rw [List.filterMap_filter]
    refine List.Perm.of_eq ?_
    unfold successes
    apply List.filterMap_congr
    intro i _
    cases result i <;> rfl
  · cases hh : s.wroteHeader with
    | true =>
      rcases hi.whole id hh with h0 | ⟨i, h0⟩
      · have : rows ≠ [] := by
          rintro rfl
          have := hi.results
          simp at this
          exact h0 this
        rw [if_neg this, hi.after hh]
      · exact absurd (.inr h0) (hl i)
    | false =>
      obtain ⟨h1, rfl⟩ := hi.before hh
      have : rows = [] := by
        have := hi.results
        simp only [List.map_nil] at this
        exact List.map_eq_nil_iff.1 this.symm
      rw [if_pos this, h1]

/-- **C50**, no deadlock: as long as some image has not been worked on, some worker can make a step. -/
theorem C50_progress {faults : Prop} {s : Bench} (h : Bench.Reachable n result faults s) :
    (∀ i, i < n → (∃ ok, s.pc i = .done ok) ∨ s.pc i = .panicked) ∨ ∃ t, Bench.Step n result faults s t := by
  obtain ⟨order, rows, hi⟩ := Bench.inv_reachable h
  cases hl : s.lock with
  | some i =>
    refine .inr ?_
    rcases hi.holds i hl with hp | hp
    · cases hh : s.wroteHeader with
      | true => exact ⟨_, .skip hp hh⟩
      | false => exact ⟨_, .header hp hh⟩
    · obtain ⟨-, r, hr⟩ := hi.good i (.inr (.inl hp))
      exact ⟨_, .row hp hr⟩
  | none =>
    by_cases hw : ∃ i, i < n ∧ s.pc i = .working
    · obtain ⟨i, h1, h2⟩ := hw
      refine .inr ?_
      cases hr : result i with
      | ok r => exact ⟨_, .lock h1 h2 hr hl⟩
      | err e => exact ⟨_, .fail h1 h2 hr⟩
      | panic => exact ⟨_, .panic h1 h2 hr⟩
    · refine .inl fun i h1 => ?_
      cases hp : s.pc i with
      | working => exact absurd ⟨i, h1, hp⟩ hw
      | locked => have := hi.held i (.inl hp); rw [hl] at this; cases this
      | headed => have := hi.held i (.inr hp); rw [hl] at this; cases this
      | done ok => exact .inl ⟨ok, rfl⟩
      | panicked => exact .inr rfl

/-- **C50**, every schedule ends: the number of steps that are left decreases with each step, and is at most `3 n`. -/
theorem C50_ends {faults : Prop} {s t : Bench} (h : Bench.Reachable n result faults s)
    (st : Bench.Step n result faults s t) : Bench.left n t < Bench.left n s := by
  obtain ⟨order, rows, hi⟩ := Bench.inv_reachable h
  exact Bench.left_step hi st

end

/-! ## The error -/

section
variable {fl : FloatOps} {chk : Bool} {x : Img} {y : RgbImage}

theorem u32Mul_small {a b : UInt32} (h : a.toNat * b.toNat < 2 ^ 32) : u32Mul chk a b = some (a * b) := by
  simp [u32Mul]
  intro _
  omega

theorem mul_toNat {a b : UInt32} (h : a.toNat * b.toNat < 2 ^ 32) : (a * b).toNat = a.toNat * b.toNat := by
  rw [UInt32.toNat_mul]
  exact Nat.mod_eq_of_lt h

/-- **C67.** The reported error is the mean squared error of the pixels, up to a relative error of 2^-20. -/
theorem C67_mean_squared_error (hfl : fl.Lawful) (hsz : x.width.toNat * x.height.toNat < 2 ^ 32)
    (hlen : y.pixels.length = x.pixels.length) (hne : x.pixels ≠ []) :
    ∃ q, computeError fl chk x y = some (.fin q) ∧
      |q - meanSquaredError x.rgbPixels y.pixels| ≤ 1 / 2 ^ 20 * meanSquaredError x.rgbPixels y.pixels := by
  have hzip : (x.rgbPixels.zip y.pixels).length = x.width.toNat * x.height.toNat := by
    rw [List.length_zip, hlen, Img.rgbPixels, List.length_map, Nat.min_self, x.size]
  have hpos : 0 < x.pixels.length := List.length_pos_iff.2 hne
  have hn : ((x.width * x.height).toNat : Rat) = (x.rgbPixels.zip y.pixels).length := by
    rw [mul_toNat hsz, hzip]
  have hn0 : ((x.width * x.height).toNat : Rat) ≠ 0 := by
    rw [mul_toNat hsz, ← x.size]
    exact_mod_cast hpos.ne'
  have hc := error_close hfl (x.rgbPixels.zip y.pixels) (by omega)
  have hmse : meanSquaredError x.rgbPixels y.pixels =
      (((x.rgbPixels.zip y.pixels).map fun p => colorSq p.1 p.2).sum : Nat) / ((x.rgbPixels.zip y.pixels).length : Rat) := by
    unfold meanSquaredError squaredError
    rw [hzip, Img.rgbPixels, List.length_map, x.size]
  refine ⟨_, ?_, by rw [hmse]; exact hc⟩
  unfold computeError
  rw [u32Mul_small hsz]
  simp only [Option.bind_eq_bind, Option.bind_some, FloatOps.quot, if_neg hn0]
  rw [hn]

/-- **C51.** For two images of the same size with at least one pixel, the reported error is zero exactly when all RGB
pixels are equal. -/
theorem C51_zero_iff_equal (hfl : fl.Lawful) (hsz : x.width.toNat * x.height.toNat < 2 ^ 32)
    (hlen : y.pixels.length = x.pixels.length) (hne : x.pixels ≠ []) :
    ∃ e, computeError fl chk x y = some e ∧ (e.isZero = true ↔ x.rgbPixels = y.pixels) := by
  obtain ⟨q, h1, h2⟩ := C67_mean_squared_error (chk := chk) hfl hsz hlen hne
  refine ⟨_, h1, ?_⟩
  have hl : x.rgbPixels.length = y.pixels.length := by rw [hlen, Img.rgbPixels, List.length_map]
  have hx : 0 < x.rgbPixels.length := by rw [hl, hlen]; exact List.length_pos_iff.2 hne
  rw [← squaredError_eq_zero hl]
  have hx' : (0 : Rat) < x.rgbPixels.length := by exact_mod_cast hx
  have hz : meanSquaredError x.rgbPixels y.pixels = 0 ↔ squaredError x.rgbPixels y.pixels = 0 := by
    unfold meanSquaredError
    rw [div_eq_zero_iff]
    constructor
    · rintro (h | h)
      · exact_mod_cast h
      · exact absurd h hx'.ne'
    · intro h; left; exact_mod_cast h
  rw [← hz, F64.isZero, beq_iff_eq]
  constructor
  · rintro rfl
    have hm : 0 ≤ meanSquaredError x.rgbPixels y.pixels := div_nonneg (Nat.cast_nonneg _) (Nat.cast_nonneg _)
    rw [zero_sub, abs_neg, abs_of_nonneg hm] at h2
    linarith
  · intro h
    rw [h, sub_zero, mul_zero] at h2
    exact abs_eq_zero.1 (le_antisymm h2 (abs_nonneg _))

/-- **C51**, on an image without pixels the error is NaN, which counts as a mismatch. -/
theorem C51_empty (he : x.pixels = []) : computeError fl chk x y = some .nan := by
  have hsz : x.width.toNat * x.height.toNat = 0 := by rw [← x.size, he]; rfl
  have h0 : (x.width * x.height).toNat = 0 := by rw [mul_toNat (by omega), hsz]
  unfold computeError
  rw [u32Mul_small (by omega), Img.rgbPixels, he]
  simp [FloatOps.quot, FloatOps.sum, h0]

end

/-! ## One image -/

section
variable {p : Setup} {fuel : Nat} {c : AnyCodec} {j : Job} {img : Img}

/-- What a successful measurement consists of. -/
theorem measureOne_ok {r : Row} {saved : Option RgbImage} (h : measureOne p fuel c j = (.ok r, saved)) :
    ∃ img m data raw decoded error, j.opened = some img ∧ c.encode p fuel img = .ok m ∧ bytesOf m = .ok data ∧
      rawSize p.chk img = some raw ∧ c.decode p data = .ok decoded ∧
      computeError p.out.fl p.chk img decoded = some error ∧
      checkDecoded c j decoded error = (.ok (), saved) ∧
      r = { name := j.name, size := data.length
            ratio := p.out.fl.scale (ratio p.out.fl data.length raw) 100, error := error } := by
  unfold measureOne at h
  split at h
  · cases h
  · rename_i img ho
    split at h
    · cases h
    · cases h
    · rename_i m hm
      split at h
      · cases h
      · cases h
      · rename_i data hd
        split at h
        · cases h
        · rename_i raw hraw
          split at h
          · cases h
          · cases h
          · rename_i decoded hdec
            split at h
            · cases h
            · rename_i error herr
              split at h
              · rename_i u sv hck
                cases h
                exact ⟨img, m, data, raw, decoded, error, ho, hm, hd, hraw, hdec, herr, hck, rfl⟩
              · cases h
              · cases h

theorem rawSize_small (h : 24 * (img.width.toNat * img.height.toNat) < 2 ^ 32) :
    ∃ raw, rawSize p.chk img = some raw ∧ raw.toNat = 24 * (img.width.toNat * img.height.toNat) := by
  have h1 : img.width.toNat * img.height.toNat < 2 ^ 32 := by omega
  have h2 : (img.width * img.height).toNat * (24 : UInt32).toNat < 2 ^ 32 := by
    rw [mul_toNat h1, show (24 : UInt32).toNat = 24 by rfl]; omega
  refine ⟨img.width * img.height * 24, ?_, ?_⟩
  · unfold rawSize
    rw [u32Mul_small h1]
    simp only [Option.bind_eq_bind, Option.bind_some]
    exact u32Mul_small h2
  · rw [mul_toNat h2, mul_toNat h1, show (24 : UInt32).toNat = 24 by rfl]; omega

/-- **C64.** Measuring a codec that reports itself lossless never reports a mismatch: on each image with at least one pixel
and fewer than 2^32 / 24 pixels on which encoding completes, a row with error zero is reported and no picture is saved. -/
theorem C64_lossless_measured (hp : p.Lawful) (hc : c.isLossless = true) (ho : j.opened = some img)
    (hs : VisitsOnce p.scan img.width.toNat img.height.toNat)
    (hne : img.pixels ≠ []) (hsz : 24 * (img.width.toNat * img.height.toNat) < 2 ^ 32)
    {m : W Unit} (hm : c.encode p fuel img = .ok m) {data : List UInt8} (hb : bytesOf m = .ok data) :
    ∃ raw, raw.toNat = 24 * (img.width.toNat * img.height.toNat) ∧
      measureOne p fuel c j = (.ok { name := j.name, size := data.length
                                     ratio := p.out.fl.scale (ratio p.out.fl data.length raw) 100, error := .fin 0 }, none) := by
  have ha : Addressable img := by unfold Addressable; omega
  have hdec := C39_lossless_flag hp hc hs ha hm hb
  obtain ⟨raw, hraw, hraw'⟩ := rawSize_small (p := p) hsz
  have hlen : img.toRgb.pixels.length = img.pixels.length := by
    show img.rgbPixels.length = _
    rw [Img.rgbPixels, List.length_map]
  obtain ⟨q, he, hq⟩ := C67_mean_squared_error (chk := p.chk) (x := img) (y := img.toRgb) hp.float (by omega) hlen hne
  have hz : squaredError img.rgbPixels img.toRgb.pixels = 0 := (squaredError_eq_zero rfl).2 rfl
  have hm0 : meanSquaredError img.rgbPixels img.toRgb.pixels = 0 := by
    unfold meanSquaredError; rw [hz]; simp
  rw [hm0, sub_zero, mul_zero] at hq
  have hq0 : q = 0 := abs_eq_zero.1 (le_antisymm hq (abs_nonneg _))
  subst hq0
  refine ⟨raw, hraw', ?_⟩
  unfold measureOne
  rw [ho]
  simp only [hm, hb, hraw, hdec, he]
  rfl

/-- **C65.** The ratio in the report is 100 times the compressed size in bytes over the raw size in *bits*, up to a relative
error of 2^-51: one eighth of the percentage of the raw size. -/
theorem C65_ratio (hfl : p.out.fl.Lawful) {r : Row} {saved : Option RgbImage}
    (h : measureOne p fuel c j = (.ok r, saved)) (ho : j.opened = some img) (hne : img.pixels ≠ [])
    (hsz : 24 * (img.width.toNat * img.height.toNat) < 2 ^ 32) :
    ∃ q, r.ratio = .fin q ∧
      |q - 100 * r.size / (8 * (3 * img.pixels.length))| ≤ 1 / 2 ^ 51 * (100 * r.size / (8 * (3 * img.pixels.length))) := by
  obtain ⟨img', m, data, raw, decoded, error, e1, e2, e3, e4, e5, e6, e7, rfl⟩ := measureOne_ok h
  rw [ho] at e1
  cases e1
  obtain ⟨raw', hraw, hraw'⟩ := rawSize_small (p := p) hsz
  rw [e4] at hraw
  cases hraw
  have hpos : 0 < img.pixels.length := List.length_pos_iff.2 hne
  have hr : (raw.toNat : Rat) = 8 * (3 * img.pixels.length) := by
    rw [hraw', ← img.size]; push_cast; ring
  have hr0 : (raw.toNat : Rat) ≠ 0 := by
    rw [hraw', ← img.size]; exact_mod_cast (by omega)
  have hrpos : (0 : Rat) < raw.toNat := lt_of_le_of_ne (Nat.cast_nonneg _) (Ne.symm hr0)
  refine ⟨p.out.fl.rnd (p.out.fl.rnd (p.out.fl.rnd data.length / raw.toNat) * 100), ?_, ?_⟩
  · show p.out.fl.scale (ratio p.out.fl data.length raw) 100 = _
    unfold ratio FloatOps.quot
    rw [if_neg hr0]
    rfl
  · show |_ - 100 * (data.length : Rat) / _| ≤ 1 / 2 ^ 51 * (100 * (data.length : Rat) / _)
    rw [← hr]
    have hs0 : (0 : Rat) ≤ data.length := Nat.cast_nonneg _
    have hu1 : (0 : Rat) ≤ 1 - ulp := by norm_num [ulp]
    have hu3 : (0 : Rat) ≤ 1 + ulp := by norm_num [ulp]
    obtain ⟨a1, a2⟩ := rnd_nonneg_bounds hfl hs0
    have ha0 := le_trans (mul_nonneg hu1 hs0) a1
    obtain ⟨b1, b2⟩ := rnd_nonneg_bounds hfl (div_nonneg ha0 hrpos.le)
    have hb0 := le_trans (mul_nonneg hu1 (div_nonneg ha0 hrpos.le)) b1
    obtain ⟨c1, c2⟩ := rnd_nonneg_bounds hfl (mul_nonneg hb0 (by norm_num : (0 : Rat) ≤ 100))
    set s : Rat := (data.length : Rat) with hsdef
    set w : Rat := (raw.toNat : Rat) with hw
    have d1 : (1 - ulp) * (s / w) ≤ p.out.fl.rnd s / w := by
      rw [← mul_div_assoc]; exact div_le_div_of_nonneg_right a1 hrpos.le
    have d2 : p.out.fl.rnd s / w ≤ (1 + ulp) * (s / w) := by
      rw [← mul_div_assoc]; exact div_le_div_of_nonneg_right a2 hrpos.le
    have hsw : 0 ≤ s / w := div_nonneg hs0 hrpos.le
    have f1 : (1 - ulp) ^ 2 * (s / w) ≤ p.out.fl.rnd (p.out.fl.rnd s / w) := by nlinarith
    have f2 : p.out.fl.rnd (p.out.fl.rnd s / w) ≤ (1 + ulp) ^ 2 * (s / w) := by nlinarith
    have g1 : (1 - ulp) ^ 3 * (100 * (s / w)) ≤ p.out.fl.rnd (p.out.fl.rnd (p.out.fl.rnd s / w) * 100) := by nlinarith
    have g2 : p.out.fl.rnd (p.out.fl.rnd (p.out.fl.rnd s / w) * 100) ≤ (1 + ulp) ^ 3 * (100 * (s / w)) := by nlinarith
    have v1 : (1 - 1 / 2 ^ 51 : Rat) ≤ (1 - ulp) ^ 3 := by norm_num [ulp]
    have v2 : ((1 + ulp) ^ 3 : Rat) ≤ 1 + 1 / 2 ^ 51 := by norm_num [ulp]
    have h100 : (0 : Rat) ≤ 100 * (s / w) := by positivity
    rw [mul_div_assoc, abs_le]
    have k1 := mul_le_mul_of_nonneg_right v1 h100
    have k2 := mul_le_mul_of_nonneg_right v2 h100
    constructor <;> linarith

/-- **C65**, large images: with 2^32 / 24 pixels or more, measuring panics if overflow checks are compiled in (given that
encoding completes). -/
theorem C65_overflow (hchk : p.chk = true) (ho : j.opened = some img)
    (hsz : 2 ^ 32 ≤ 24 * (img.width.toNat * img.height.toNat))
    {m : W Unit} (hm : c.encode p fuel img = .ok m) {data : List UInt8} (hb : bytesOf m = .ok data) :
    measureOne p fuel c j = (.panic, none) := by
  have hraw : rawSize p.chk img = none := by
    unfold rawSize
    rw [hchk]
    by_cases h : 2 ^ 32 ≤ img.width.toNat * img.height.toNat
    · have : u32Mul true img.width img.height = none := by
        unfold u32Mul
        rw [if_pos (by simpa using h)]
      rw [this]
      rfl
    · have h1 : img.width.toNat * img.height.toNat < 2 ^ 32 := by omega
      rw [u32Mul_small h1]
      simp only [Option.bind_eq_bind, Option.bind_some]
      have h2 : 2 ^ 32 ≤ (img.width * img.height).toNat * (24 : UInt32).toNat := by
        rw [mul_toNat h1, show (24 : UInt32).toNat = 24 by rfl]; omega
      simp only [u32Mul]
      rw [if_pos (by simpa using h2)]
  unfold measureOne
  rw [ho]
  simp only [hm, hb, hraw]

/-- **C65**, large images without overflow checks: the raw size is taken modulo 2^32, so the ratio is infinite on each image
whose number of pixels is a multiple of 2^29, such as 32768 × 16384. -/
theorem C65_wraps (hchk : p.chk = false) {r : Row} {saved : Option RgbImage}
    (h : measureOne p fuel c j = (.ok r, saved)) (ho : j.opened = some img) (hfl : p.out.fl.Lawful) (hpos : 0 < r.size)
    (hsz : 2 ^ 29 ∣ img.width.toNat * img.height.toNat) : r.ratio = .posInf := by
  obtain ⟨img', m, data, raw, decoded, error, e1, e2, e3, e4, e5, e6, e7, rfl⟩ := measureOne_ok h
  rw [ho] at e1
  cases e1
  have hraw : raw.toNat = 0 := by
    unfold rawSize at e4
    rw [hchk] at e4
    simp only [u32Mul, Bool.false_and, Option.bind_eq_bind] at e4
    cases e4
    obtain ⟨k, hk⟩ := hsz
    rw [UInt32.toNat_mul, UInt32.toNat_mul, show (24 : UInt32).toNat = 24 by rfl, hk]
    omega
  have hd : (0 : Rat) < p.out.fl.rnd data.length := by
    have hd0 : (0 : Rat) < data.length := by exact_mod_cast hpos
    have := (rnd_nonneg_bounds hfl hd0.le).1
    have hu : (0 : Rat) < 1 - ulp := by norm_num [ulp]
    exact lt_of_lt_of_le (mul_pos hu hd0) this
  show p.out.fl.scale (ratio p.out.fl data.length raw) 100 = _
  unfold ratio FloatOps.quot
  rw [hraw, if_pos (by norm_num), if_neg hd.ne', if_pos hd]
  rfl

/-- **C66.** A row has error zero or belongs to a lossy codec.  The decoded picture is saved exactly when the error is not
zero. -/
theorem C66_saved {r : Row} {saved : Option RgbImage} (h : measureOne p fuel c j = (.ok r, saved)) :
    (saved = none ↔ r.error.isZero = true) ∧ (r.error.isZero = false → c.isLossless = false) := by
  obtain ⟨img, m, data, raw, decoded, error, e1, e2, e3, e4, e5, e6, e7, rfl⟩ := measureOne_ok h
  show (saved = none ↔ error.isZero = true) ∧ (error.isZero = false → c.isLossless = false)
  unfold checkDecoded at e7
  cases hz : error.isZero with
  | true =>
    rw [hz] at e7
    cases e7
    simp
  | false =>
    rw [hz] at e7
    cases hsv : j.saves <;> cases hl : c.isLossless <;> rw [hsv, hl] at e7 <;> cases e7
    simp

/-- **C66**, a mismatch is reported only for a lossless codec, and only after the decoded picture has been saved. -/
theorem C66_mismatch {saved : Option RgbImage} (h : measureOne p fuel c j = (.err .mismatch, saved)) :
    c.isLossless = true ∧ ∃ img data decoded error, j.opened = some img ∧ c.decode p data = .ok decoded ∧
      computeError p.out.fl p.chk img decoded = some error ∧ error.isZero = false ∧ saved = some decoded := by
  unfold measureOne at h
  split at h
  · cases h
  · rename_i img ho
    split at h
    · cases h
    · cases h
    · split at h
      · cases h
      · cases h
      · rename_i data hd
        split at h
        · cases h
        · split at h
          · cases h
          · cases h
          · rename_i decoded hdec
            split at h
            · cases h
            · rename_i error herr
              unfold checkDecoded at h
              cases hz : error.isZero with
              | true => rw [hz] at h; cases h
              | false =>
                rw [hz] at h
                cases hsv : j.saves <;> cases hl : c.isLossless <;> rw [hsv] at h <;> try rw [hl] at h
                · cases h
                · cases h
                · cases h
                · cases h
                  exact ⟨rfl, img, data, decoded, error, ho, hdec, herr, hz, rfl⟩

end

/-! ## Examples -/

namespace BenchExamples
open AnyCodecExamples

/-- Three images; the second one cannot be opened. -/
def outcome (i : Nat) : Ret Failure Row :=
  if i = 1 then .err .open else .ok { name := toString i, size := 10 + i, ratio := .fin 1, error := .fin 0 }

/-- A schedule in which the last image gets the lock first while the others are at work. -/
theorem some_schedule : ∃ s, Bench.Reachable 3 outcome False s ∧ s.lock = none ∧ s.Finished 3 ∧
    s.file = [.header, .row { name := "2", size := 12, ratio := .fin 1, error := .fin 0 },
      .row { name := "0", size := 10, ratio := .fin 1, error := .fin 0 }] := by
  have h0 : Bench.Reachable 3 outcome False .start := .start
  have h1 := h0.step (.lock (i := 2) (r := { name := "2", size := 12, ratio := .fin 1, error := .fin 0 })
    (by decide) rfl (by decide) rfl)
  have h2 := h1.step (.header (i := 2) rfl rfl)
  have h3 := h2.step (.fail (i := 1) (e := .open) (by decide) rfl rfl)
  have h4 := h3.step (.row (i := 2) (r := { name := "2", size := 12, ratio := .fin 1, error := .fin 0 }) rfl (by decide))
  have h5 := h4.step (.lock (i := 0) (r := { name := "0", size := 10, ratio := .fin 1, error := .fin 0 })
    (by decide) rfl (by decide) rfl)
  have h6 := h5.step (.skip (i := 0) rfl rfl)
  have h7 := h6.step (.row (i := 0) (r := { name := "0", size := 10, ratio := .fin 1, error := .fin 0 }) rfl (by decide))
  refine ⟨_, h7, rfl, ?_, rfl⟩
  intro i hi
  match i, hi with
  | 0, _ => exact ⟨true, rfl⟩
  | 1, _ => exact ⟨false, rfl⟩
  | 2, _ => exact ⟨true, rfl⟩

example : ∃ s, Bench.Reachable 3 outcome False s ∧ ∃ rows : List Row, rows.Perm (successes 3 outcome) ∧ rows.length = 2 ∧
    s.file = if rows = [] then [] else .header :: rows.map .row := by
  obtain ⟨s, h, -, hf, hfile⟩ := some_schedule
  obtain ⟨rows, h1, h2⟩ := C50_complete h hf
  exact ⟨s, h, rows, h1, by rw [h1.length_eq]; decide, h2⟩

/-- A decoded picture that differs from `example43` in one channel of one pixel. -/
def offByOne : RgbImage := { example43.toRgb with pixels := example43.toRgb.pixels.set 5 ⟨5, 1, 0⟩ }

/-- The error is 1/12, rounded. -/
example : computeError Ieee.ops true example43 offByOne = some (.fin (6004799503160661 / 72057594037927936)) ∧
    meanSquaredError example43.rgbPixels offByOne.pixels = 1 / 12 := by
  constructor <;> decide +kernel

example : ∃ e, computeError Ieee.ops true example43 offByOne = some e ∧
    (e.isZero = true ↔ example43.rgbPixels = offByOne.pixels) :=
  C51_zero_iff_equal Ieee.lawful (by decide) (by decide) (by decide)

example : computeError Ieee.ops true { width := 0, height := 7, pixels := [], size := by decide }
    { width := 0, height := 7, pixels := [] } = some .nan := C51_empty rfl

def job : Job := { name := "a.png", opened := some example43, saves := true }

/-- The hufman codec: 169 bytes for 12 pixels, so 36 bytes of raw data.  The ratio in the report is 58.7%. -/
example : measureOne setup 0 .hufman job =
    (.ok { name := "a.png", size := 169, ratio := .fin (4129277002092089 / 70368744177664), error := .fin 0 }, none) := by
  decide +kernel

example : ∃ raw data, measureOne setup 0 .hufman job =
    (.ok { name := "a.png", size := data
           ratio := setup.out.fl.scale (ratio setup.out.fl data raw) 100, error := .fin 0 }, none) := by
  obtain ⟨m, bytes, h1, h2, -⟩ := C39_completes (img := example43) (c := .hufman) setup_lawful 0 rfl (by decide) (.refl _)
    (by unfold Addressable; decide) (by decide)
  obtain ⟨raw, -, h⟩ := C64_lossless_measured (j := job) (img := example43) setup_lawful rfl rfl (.refl _) (by decide)
    (by decide) h1 h2
  exact ⟨raw, _, h⟩

/-- An image with 2^29 pixels. -/
def large : Img :=
  { width := 32768, height := 16384, pixels := List.replicate (32768 * 16384) ⟨1, 2, 3, 255⟩
    size := by rw [List.length_replicate]; rfl }

theorem visits (img : Img) : VisitsOnce setup.scan img.width.toNat img.height.toNat := .refl _

example : measureOne setup 0 (.zip .dict) { job with opened := some large } = (.panic, none) := by
  have hne : large.pixels ≠ [] := by
    intro h
    have := congrArg List.length h
    simp only [large, List.length_replicate, List.length_nil] at this
    omega
  obtain ⟨m, bytes, h1, h2, -⟩ := C39_completes (img := large) (c := .zip .dict) setup_lawful 0 rfl (by decide) (visits _)
    (show 3 * (32768 * 16384) < 2 ^ 63 by decide) hne
  exact C65_overflow rfl rfl (by decide) h1 h2

example : 2 ^ 29 ∣ large.width.toNat * large.height.toNat := ⟨1, by decide⟩

/-- A lossy measurement: the picture is saved and there is a row. -/
example : (measureOne { setup with chk := false } 9 (.voronoi 2) { name := "b.png", opened := some example91, saves := true }).2
    ≠ none := by decide +kernel

end BenchExamples

end Cniic
