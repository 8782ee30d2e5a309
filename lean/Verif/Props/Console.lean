import Verif.Proofs.Console
import Verif.Props.Bench
import Verif.Props.Decode

/-!
# The benchmark on a console that does not take everything (C120)
-/

namespace Cniic
open Spec

section
variable {k : Console} {p : Setup} {fuel : Nat} {c : AnyCodec} {j : Job}

/-- **C120**, one image: a failing print changes nothing but to end the work on the image by a panic, before or after its
picture has been saved. -/
theorem C120_one (k : Console) (p : Setup) (fuel : Nat) (c : AnyCodec) (j : Job) :
    measureOnConsole k p fuel c j = measureOne p fuel c j ∨ (measureOnConsole k p fuel c j).1 = .panic ∧
      ((measureOnConsole k p fuel c j).2 = none ∨ (measureOnConsole k p fuel c j).2 = (measureOne p fuel c j).2) := by
  unfold measureOnConsole measureOne
  split
  · exact .inr ⟨rfl, .inl rfl⟩
  cases j.opened with
  | none => exact .inl rfl
  | some img =>
    dsimp only
    split
    · exact .inr ⟨rfl, .inl rfl⟩
    cases c.encode p fuel img with
    | err e => exact .inl rfl
    | panic => exact .inl rfl
    | ok m =>
      dsimp only
      cases bytesOf m with
      | err e => exact .inl rfl
      | panic => exact .inl rfl
      | ok data =>
        dsimp only
        split
        · exact .inr ⟨rfl, .inl rfl⟩
        cases rawSize p.chk img with
        | none => exact .inl rfl
        | some raw =>
          dsimp only
          cases c.decode p data with
          | err e =>
            dsimp only
            split
            · exact .inr ⟨rfl, .inl rfl⟩
            · exact .inl rfl
          | panic => exact .inl rfl
          | ok decoded =>
            dsimp only
            cases computeError p.out.fl p.chk img decoded with
            | none => exact .inl rfl
            | some error =>
              unfold checkOnConsole checkDecoded
              cases hz : error.isZero <;> cases hs : j.saves <;> cases hk : k.saved <;> cases hl : c.isLossless <;> simp [hz]

/-- **C120**, a console that takes everything: nothing changes. -/
theorem C120_open (p : Setup) (fuel : Nat) (c : AnyCodec) (j : Job) :
    measureOnConsole ⟨true, true, true, true, true, true⟩ p fuel c j = measureOne p fuel c j := by
  unfold measureOnConsole measureOne checkOnConsole checkDecoded
  simp only [Bool.not_true, Bool.and_false, Bool.false_eq_true, if_false, if_true]
  rfl

/-- **C120**, nothing can be printed on the standard output: the image is not even opened, and nothing is saved. -/
theorem C120_no_stdout (h : k.processing = false) : measureOnConsole k p fuel c j = (.panic, none) := by
  simp [measureOnConsole, h]

/-- **C120**, nothing can be printed on the standard error: exactly the images that are reproduced without error get a row,
the one they would get otherwise.  For the others the picture is saved all the same. -/
theorem C120_no_stderr {q b : Bool} {r : Row} {saved : Option RgbImage} :
    measureOnConsole ⟨true, true, true, q, false, b⟩ p fuel c j = (.ok r, saved) ↔
      saved = none ∧ measureOne p fuel c j = (.ok r, none) := by
  unfold measureOnConsole measureOne
  cases j.opened with
  | none => simp
  | some img =>
    simp only [Bool.not_true, Bool.false_eq_true, if_false, Bool.and_false]
    cases c.encode p fuel img with
    | err e => simp
    | panic => simp
    | ok m =>
      dsimp only
      cases bytesOf m with
      | err e => simp
      | panic => simp
      | ok data =>
        dsimp only
        cases rawSize p.chk img with
        | none => simp
        | some raw =>
          dsimp only
          cases c.decode p data with
          | err e =>
            dsimp only
            split <;> simp
          | panic => simp
          | ok decoded =>
            dsimp only
            cases computeError p.out.fl p.chk img decoded with
            | none => simp
            | some error =>
              unfold checkOnConsole checkDecoded
              cases hz : error.isZero <;> cases hs : j.saves <;> cases hl : c.isLossless <;> simp [hz]
              all_goals rw [and_comm, @eq_comm _ none]

/-- **C120**, the pictures: they are saved before anything is printed about them. -/
theorem C120_no_stderr_saved {q b : Bool} :
    (measureOnConsole ⟨true, true, true, q, false, b⟩ p fuel c j).2 = (measureOne p fuel c j).2 := by
  unfold measureOnConsole measureOne
  cases j.opened with
  | none => simp
  | some img =>
    simp only [Bool.not_true, Bool.false_eq_true, if_false, Bool.and_false]
    cases c.encode p fuel img with
    | err e => simp
    | panic => simp
    | ok m =>
      dsimp only
      cases bytesOf m with
      | err e => simp
      | panic => simp
      | ok data =>
        dsimp only
        cases rawSize p.chk img with
        | none => simp
        | some raw =>
          dsimp only
          cases c.decode p data with
          | err e =>
            dsimp only
            split <;> simp
          | panic => simp
          | ok decoded =>
            dsimp only
            cases computeError p.out.fl p.chk img decoded with
            | none => simp
            | some error =>
              unfold checkOnConsole checkDecoded
              cases hz : error.isZero <;> cases hs : j.saves <;> cases hl : c.isLossless <;> simp [hz]

/-- **C120**, lossless codecs get by without the standard error. -/
theorem C120_lossless {img : Img} (hp : p.Lawful) (hc : c.isLossless = true) (ho : j.opened = some img)
    (hs : VisitsOnce p.scan img.width.toNat img.height.toNat)
    (hne : img.pixels ≠ []) (hsz : 24 * (img.width.toNat * img.height.toNat) < 2 ^ 32)
    {m : W Unit} (hm : c.encode p fuel img = .ok m) {data : List UInt8} (hb : bytesOf m = .ok data) {q b : Bool} :
    measureOnConsole ⟨true, true, true, q, false, b⟩ p fuel c j = measureOne p fuel c j := by
  obtain ⟨raw, -, h⟩ := C64_lossless_measured hp hc ho hs hne hsz hm hb
  rw [h]
  exact C120_no_stderr.2 ⟨rfl, h⟩

/-- **C120**, a codec that prints nothing while encoding does not need the standard output then. -/
theorem C120_silent {q : Bool} (hc : c = .hufman ∨ c = .delta) :
    measureOnConsole ⟨true, q, true, true, true, true⟩ p fuel c j = measureOne p fuel c j := by
  rw [← C120_open]
  rcases hc with rfl | rfl <;> rfl

/-- **C120**, every other codec does. -/
theorem C120_loud (hc : c ≠ .hufman) (hc' : c ≠ .delta) (hk : k.encoding = false) {img : Img} (ho : j.opened = some img) :
    measureOnConsole k p fuel c j = (.panic, none) := by
  have : c.printsEncoding = true := by
    cases c <;> first | rfl | exact absurd rfl hc | exact absurd rfl hc'
  unfold measureOnConsole
  split
  · rfl
  · rw [ho]
    simp [this, hk]

/-- **C120**, the sizes cannot be printed: what can be encoded ends in a panic, before it is decoded. -/
theorem C120_sizes (hk : k.sizes = false) {img : Img} (ho : j.opened = some img) {m : W Unit} (hm : c.encode p fuel img = .ok m)
    {data : List UInt8} (hb : bytesOf m = .ok data) : measureOnConsole k p fuel c j = (.panic, none) := by
  unfold measureOnConsole
  rw [ho]
  simp [hm, hb, hk]

theorem hufman_not_err {img : Img} {M : MinHeap (Rgb UInt8)} {o : List (Rgb UInt8 × Nat) → List (Rgb UInt8 × Nat)} (ho : IsOrder o)
    {data : List UInt8} (hb : bytesOf (hufmanEncode M o img) = .ok data) : hufmanDecode data ≠ .err () := by
  by_cases hne : img.pixels = []
  · rw [C28_empty_image_panics M o ho img hne] at hb
    cases hb
  by_cases ha : Addressable img
  · obtain ⟨b, h1, h2⟩ := C28_hufman_lossless M o ho img ha hne
    rw [← Ret.ok.inj (h1.bytesOf.symm.trans hb), h2]
    exact fun h => (by cases h)
  · obtain ⟨enc, t, payload, k, -, -, -, -, -, he, -⟩ :=
      encodeAll_spec M o ho img.rgbPixels (by simpa [Img.rgbPixels] using hne) fun x _ => rgb_valid x
    have h : Emits Emits.anyWay (hufmanEncode M o img) (SerSpec.bytes (img.width, img.height) ++ (treeBytes t ++ payload)) () :=
      Emits.bind (anyWay_of_err (emits_dims img)) he
    rw [← Ret.ok.inj (h.bytesOf.symm.trans hb), hufmanDecode_any, C75_size, if_pos (Nat.not_lt.1 ha)]
    exact fun h => (by cases h)

/-- **C120**, what `Hufman::decode` prints when it fails is never needed in the benchmark: it does not fail on what has just been
encoded. -/
theorem C120_decoding (hp : p.Lawful) (q : Bool) :
    measureOnConsole { k with decoding := q } p fuel c j = measureOnConsole k p fuel c j := by
  have key : ∀ img m data, c.encode p fuel img = .ok m → bytesOf m = .ok data → c.printsDecoding = true → c.decode p data ≠ .err () := by
    intro img m data hm hb hc
    cases c with
    | hufman =>
      obtain rfl := Ret.ok.inj hm
      exact hufman_not_err hp.orderRgb hb
    | clusterColors n =>
      have hm : clusterColorsEncode p.out p.chk p.orderColor p.orderRgb p.heapRgb fuel n img = .ok m := hm
      unfold clusterColorsEncode at hm
      cases hcl : Kmeans.cluster (colorEnv p.out p.chk) fuel (colorCounts p.orderColor img) n.toNat with
      | err e => rw [hcl] at hm; cases hm
      | panic => rw [hcl] at hm; cases hm
      | ok cl =>
        rw [hcl] at hm
        cases hr : Ret.expect (ε := Unit) (reducedImg (reducedColors cl) img) with
        | err e => simp only [bind, Ret.bind, hr] at hm; cases hm
        | panic => simp only [bind, Ret.bind, hr] at hm; cases hm
        | ok red =>
          simp only [bind, Ret.bind, hr] at hm
          split at hm
          · obtain rfl := Ret.ok.inj hm
            exact hufman_not_err hp.orderRgb hb
          · cases hm
    | _ => cases hc
  unfold measureOnConsole
  dsimp only
  split
  · rfl
  cases j.opened with
  | none => rfl
  | some img =>
    dsimp only
    split
    · rfl
    cases hm : c.encode p fuel img with
    | err e => rfl
    | panic => rfl
    | ok m =>
      dsimp only
      cases hb : bytesOf m with
      | err e => rfl
      | panic => rfl
      | ok data =>
        dsimp only
        split
        · rfl
        cases rawSize p.chk img with
        | none => rfl
        | some raw =>
          dsimp only
          cases hd : c.decode p data with
          | err e =>
            have : c.printsDecoding = false := by
              cases hc : c.printsDecoding with
              | false => rfl
              | true => exact absurd hd (key img m data hm hb hc)
            simp [this]
          | panic => rfl
          | ok out => rfl

end

section
variable {n : Nat} {con : Nat → Console} {p : Setup} {fuel : Nat} {c : AnyCodec} {jobs : Nat → Job} {faults : Prop} {s : Bench}

/-- The outcomes of the work on each image. -/
abbrev conResult (con : Nat → Console) (p : Setup) (fuel : Nat) (c : AnyCodec) (jobs : Nat → Job) (i : Nat) : Ret Failure Row :=
  (measureOnConsole (con i) p fuel c (jobs i)).1

/-- Where the benchmark can get with these consoles. -/
abbrev ConRuns (n : Nat) (con : Nat → Console) (p : Setup) (fuel : Nat) (c : AnyCodec) (jobs : Nat → Job) (faults : Prop)
    (s : Bench) : Prop :=
  Bench.ConReachable n (conResult con p fuel c jobs) (fun i => (con i).complaint) faults s

/-- **C120**, the report: whichever prints fail, it is empty or a header followed by one row for each image that ended well,
and these rows are the ones of a run on which everything can be printed. -/
theorem C120_report (h : ConRuns n con p fuel c jobs faults s) :
    ∃ (order : List Nat) (rows : List Row), order.Nodup ∧ (∀ i, i ∈ order ↔ s.pc i = .done true) ∧
      order.map (fun i => (measureOne p fuel c (jobs i)).1) = rows.map Ret.ok ∧
      (s.file = .header :: rows.map .row ∨ s.file = [] ∧ rows = []) := by
  obtain ⟨s0, h0, hm⟩ := h.mirrors
  obtain ⟨order, rows, h1, h2, h3, h4⟩ := C50_report h0
  refine ⟨order, rows, h1, fun i => ?_, ?_, by rw [hm.file]; exact h4⟩
  · rw [h2]
    rcases hm.pc i with e | ⟨e, e', -⟩
    · rw [e]
    · rw [e, e']; simp
  · rw [← h3]
    refine List.map_congr_left fun i hi => ?_
    have hr : conResult con p fuel c jobs i ∈ rows.map Ret.ok := by rw [← h3]; exact List.mem_map_of_mem hi
    obtain ⟨r, -, hr⟩ := List.mem_map.1 hr
    rcases C120_one (con i) p fuel c (jobs i) with e | ⟨e, -⟩
    · show _ = (measureOnConsole _ _ _ _ _).1
      rw [e]
    · rw [show conResult con p fuel c jobs i = .panic from e] at hr; cases hr

/-- **C120**, the lock: no failing print leaves the report locked, or poisoned: the image that holds the lock is about to
write its row. -/
theorem C120_lock (h : ConRuns n con p fuel c jobs faults s) {i : Nat} (hl : s.lock = some i) :
    s.pc i = .locked ∨ s.pc i = .headed := by
  obtain ⟨s0, h0, hm⟩ := h.mirrors
  obtain ⟨order, rows, hi⟩ := Bench.inv_reachable h0
  have := hi.holds i (by rw [← hm.lock, hl])
  rcases hm.pc i with e | ⟨-, e, -⟩
  · rwa [e]
  · rw [e] at this; simp at this

/-- **C120**, no deadlock: as long as an image has not been worked on, there is a step. -/
theorem C120_progress (h : ConRuns n con p fuel c jobs faults s) :
    (∀ i, i < n → (∃ ok, s.pc i = .done ok) ∨ s.pc i = .panicked) ∨
      ∃ t, Bench.Step n (conResult con p fuel c jobs) faults s t := by
  obtain ⟨s0, h0, hm⟩ := h.mirrors
  obtain ⟨order, rows, hi⟩ := Bench.inv_reachable h0
  have back : ∀ {i q}, s0.pc i = q → q ≠ .done false → s.pc i = q := by
    intro i q hq hn
    rcases hm.pc i with e | ⟨-, e, -⟩
    · rw [e, hq]
    · rw [hq] at e; exact absurd e hn
  cases hl : s0.lock with
  | some i =>
    refine .inr ?_
    rcases hi.holds i hl with hp | hp
    · cases hh : s.wroteHeader with
      | true => exact ⟨_, .skip (back hp (by simp)) hh⟩
      | false => exact ⟨_, .header (back hp (by simp)) hh⟩
    · obtain ⟨-, r, hr⟩ := hi.good i (.inr (.inl hp))
      exact ⟨_, .row (back hp (by simp)) hr⟩
  | none =>
    by_cases hw : ∃ i, i < n ∧ s.pc i = .working
    · obtain ⟨i, h1, h2⟩ := hw
      refine .inr ?_
      cases hr : conResult con p fuel c jobs i with
      | ok r => exact ⟨_, .lock h1 h2 hr (by rw [hm.lock, hl])⟩
      | err e => exact ⟨_, .fail h1 h2 hr⟩
      | panic => exact ⟨_, .panic h1 h2 hr⟩
    · refine .inl fun i h1 => ?_
      cases hp : s.pc i with
      | working => exact absurd ⟨i, h1, hp⟩ hw
      | locked => have := hi.held i (.inl (hm.same hp (by simp))); rw [hl] at this; cases this
      | headed => have := hi.held i (.inr (hm.same hp (by simp))); rw [hl] at this; cases this
      | done ok => exact .inl ⟨ok, rfl⟩
      | panicked => exact .inr rfl

/-- **C120**, nothing can be printed on the standard output: the report stays empty, and every image that is begun panics. -/
theorem C120_no_stdout_report (hk : ∀ i, i < n → (con i).processing = false) (h : ConRuns n con p fuel c jobs faults s) :
    s.file = [] ∧ ∀ i, i < n → s.pc i = .working ∨ s.pc i = .panicked := by
  obtain ⟨s0, h0, hm⟩ := h.mirrors
  obtain ⟨order, rows, hi⟩ := Bench.inv_reachable h0
  have hr : ∀ i, i < n → conResult con p fuel c jobs i = .panic := fun i hi => by
    show (measureOnConsole _ _ _ _ _).1 = _
    rw [C120_no_stdout (hk i hi)]
  have key : s0.file = [] ∧ s0.wroteHeader = false ∧ ∀ i, i < n → s0.pc i = .working ∨ s0.pc i = .panicked := by
    clear hm hi
    induction h0 with
    | start => exact ⟨rfl, rfl, fun _ _ => .inl rfl⟩
    | @step s t hs st ih =>
      obtain ⟨e1, e2, e3⟩ := ih
      obtain ⟨o, rs, hi⟩ := Bench.inv_reachable hs
      have no : ∀ i, ¬ (s.pc i = .locked ∨ s.pc i = .headed) := by
        intro i h
        obtain ⟨hn, r, hr'⟩ := hi.good i (h.elim .inl fun h => .inr (.inl h))
        rw [hr i hn] at hr'; cases hr'
      cases st with
      | fail h1 _ h3 => rw [hr _ h1] at h3; cases h3
      | @panic i h1 h2 h3 =>
        refine ⟨e1, e2, fun j hj => ?_⟩
        by_cases e : j = i
        · right; simp [Bench.set, e]
        · simpa [Bench.set, e] using e3 j hj
      | lock h1 _ h3 _ => rw [hr _ h1] at h3; cases h3
      | header h1 _ => exact absurd (.inl h1) (no _)
      | headerFails _ h1 _ => exact absurd (.inl h1) (no _)
      | skip h1 _ => exact absurd (.inl h1) (no _)
      | row h1 _ => exact absurd (.inr h1) (no _)
      | rowFails _ h1 => exact absurd (.inr h1) (no _)
  refine ⟨by rw [hm.file, key.1], fun i hi' => ?_⟩
  rcases hm.pc i with e | ⟨e, -⟩
  · rw [e]; exact key.2.2 i hi'
  · exact .inr e

/-- **C120**, complaints that cannot be printed: once nothing can happen any more, an image without a row has panicked. -/
theorem C120_complaint (h : ConRuns n con p fuel c jobs faults s)
    (hend : ∀ t, ¬ Bench.ConStep n (conResult con p fuel c jobs) (fun i => (con i).complaint) faults s t) {i : Nat} (hi : i < n)
    (hk : (con i).complaint = false) : s.pc i = .done true ∨ s.pc i = .panicked := by
  rcases C120_progress h with h1 | ⟨t, ht⟩
  · rcases h1 i hi with ⟨ok, e⟩ | e
    · cases ok with
      | true => exact .inl e
      | false => exact absurd (.complain e hk) (hend _)
    · exact .inr e
  · exact absurd (.step ht) (hend t)

end

/-! ## Examples -/

namespace ConsoleExamples
open AnyCodecExamples BenchExamples

/-- Nothing can be printed on the standard error. -/
def noStderr : Console := ⟨true, true, true, false, false, false⟩

/-- A lossy measurement without standard error: the picture is saved, but there is no row. -/
example : (measureOnConsole noStderr { setup with chk := false } 9 (.voronoi 2)
      { name := "b.png", opened := some example91, saves := true }).1 = .panic ∧
    (measureOnConsole noStderr { setup with chk := false } 9 (.voronoi 2)
      { name := "b.png", opened := some example91, saves := true }).2 ≠ none ∧
    (measureOne { setup with chk := false } 9 (.voronoi 2)
      { name := "b.png", opened := some example91, saves := true }).1 ≠ .panic := by decide +kernel

/-- A lossless one. -/
example : measureOnConsole noStderr setup 0 .hufman job = measureOne setup 0 .hufman job := by
  obtain ⟨m, bytes, h1, h2, -⟩ := C39_completes (img := example43) (c := .hufman) setup_lawful 0 rfl (by decide) (.refl _)
    (by unfold Addressable; decide) (by decide)
  exact C120_lossless (img := example43) setup_lawful rfl rfl (.refl _) (by decide) (by decide) h1 h2

/-- One without standard output. -/
example : measureOnConsole ⟨false, false, false, true, true, true⟩ setup 0 .hufman job = (.panic, none) := C120_no_stdout rfl

/-- What a codec prints does matter: hilbert-rle panics where hufman does not. -/
example : (measureOnConsole ⟨true, false, true, true, true, true⟩ setup 0 (.hilbert (.rle (.fin 0))) job).1 = .panic ∧
    measureOnConsole ⟨true, false, true, true, true, true⟩ setup 0 .hufman job = measureOne setup 0 .hufman job := by
  constructor <;> decide +kernel

/-- Without standard output while encoding. -/
example : measureOnConsole ⟨true, false, true, true, true, true⟩ setup 0 .delta job = measureOne setup 0 .delta job :=
  C120_silent (.inr rfl)

example : measureOnConsole ⟨true, false, true, true, true, true⟩ setup 0 (.zip .back) job = (.panic, none) :=
  C120_loud (by simp) (by simp) rfl (img := example43) rfl

/-- Without standard output after encoding. -/
example : measureOnConsole ⟨true, true, false, true, true, true⟩ setup 0 .hufman job = (.panic, none) := by
  obtain ⟨m, bytes, h1, h2, -⟩ := C39_completes (img := example43) (c := .hufman) setup_lawful 0 rfl (by decide) (.refl _)
    (by unfold Addressable; decide) (by decide)
  exact C120_sizes rfl (img := example43) rfl h1 h2

/-- Without the message of a failing `Hufman::decode`. -/
example : measureOnConsole ⟨true, true, true, false, true, true⟩ setup 0 .hufman job = measureOne setup 0 .hufman job :=
  (C120_decoding (k := ⟨true, true, true, true, true, true⟩) setup_lawful false).trans (C120_open _ _ _ _)

/-- Two images; the first one cannot be opened, and that cannot be printed. -/
def twoJobs (i : Nat) : Job := if i = 0 then { name := "gone.png", opened := none, saves := true } else job

def rowOfJob : Row :=
  { name := "a.png", size := 169, ratio := .fin (4129277002092089 / 70368744177664), error := .fin 0 }

/-- The worker of the first image panics while the second one holds the lock; the second one gets its row. -/
theorem some_run : ∃ s, ConRuns 2 (fun _ => noStderr) setup 0 .hufman twoJobs False s ∧ s.pc 0 = .panicked ∧
    s.pc 1 = .done true ∧ s.file = [.header, .row rowOfJob] := by
  have r0 : conResult (fun _ => noStderr) setup 0 .hufman twoJobs 0 = .err .open := by decide +kernel
  have r1 : conResult (fun _ => noStderr) setup 0 .hufman twoJobs 1 = .ok rowOfJob := by decide +kernel
  have h0 : ConRuns 2 (fun _ => noStderr) setup 0 .hufman twoJobs False .start := .start
  have h1 := h0.step (.step (.lock (i := 1) (by decide) rfl r1 rfl))
  have h2 := h1.step (.step (.fail (i := 0) (by decide) rfl r0))
  have h3 := h2.step (.complain (i := 0) rfl rfl)
  have h4 := h3.step (.step (.header (i := 1) rfl rfl))
  have h5 := h4.step (.step (.row (i := 1) rfl r1))
  exact ⟨_, h5, rfl, rfl, rfl⟩

example : ∃ s, ConRuns 2 (fun _ => noStderr) setup 0 .hufman twoJobs False s ∧
    ∃ (order : List Nat) (rows : List Row), order.Nodup ∧ (∀ i, i ∈ order ↔ s.pc i = .done true) ∧
      order.map (fun i => (measureOne setup 0 .hufman (twoJobs i)).1) = rows.map Ret.ok ∧
      (s.file = .header :: rows.map .row ∨ s.file = [] ∧ rows = []) := by
  obtain ⟨s, h, -⟩ := some_run
  exact ⟨s, h, C120_report h⟩

end ConsoleExamples

end Cniic
