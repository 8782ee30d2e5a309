import Verif.Proofs.Run
import Verif.Props.Bench
import Verif.Props.Extreme
import Verif.Props.Main

/-!
# The benchmark and its files (C81)

The images of a benchmark are worked on at the same time, and decoded pictures are saved while other images are still to be
read.  C81 says when the report and the files do not depend on the schedule, and that they may do so otherwise.
-/

namespace Cniic
open Spec

section
variable {Node : Type} [DecidableEq Node] {host : Host Node} {p : Setup} {fuel : Nat} {c : AnyCodec}
  {paths : List (List Char)} {faults : Prop} {disk : Node → Option Img} {s : Run Node}

/-- **C81**, rows: if no picture is saved in the place of an image to be measured, every image gives the outcome that it gives
alone, in every schedule. -/
theorem C81_rows (hsafe : InputsSafe host p fuel c disk paths) (h : Run.Reachable host p fuel c paths faults disk s) :
    Bench.Reachable paths.length (aloneAt host p fuel c disk paths) faults s.bench ∧
      ∀ i r, s.result i = some r → r = aloneAt host p fuel c disk paths i :=
  have hi := Run.inv_reachable hsafe h
  ⟨hi.bench, fun i r hr => (hi.result i r hr).1⟩

/-- **C81**, the complete report. -/
theorem C81_report (hsafe : InputsSafe host p fuel c disk paths) (h : Run.Reachable host p fuel c paths False disk s)
    (hf : s.bench.Finished paths.length) :
    ∃ rows : List Row, rows.Perm (successes paths.length (aloneAt host p fuel c disk paths)) ∧
      s.bench.file = if rows = [] then [] else .header :: rows.map .row :=
  C50_complete (C81_rows hsafe h).1 hf

/-- **C81**, files: at any time a file is as before, or holds a picture that a finished image saved in it. -/
theorem C81_files (hsafe : InputsSafe host p fuel c disk paths) (h : Run.Reachable host p fuel c paths faults disk s)
    (f : Node) : s.disk f = disk f ∨ ∃ i path d, paths[i]? = some path ∧ s.result i ≠ none ∧
      (alone host p fuel c disk path).2 = some (f, d) ∧ s.disk f = host.reopen d :=
  (Run.inv_reachable hsafe h).kept f

/-- **C81**, images: the images to be measured do not change. -/
theorem C81_inputs (hsafe : InputsSafe host p fuel c disk paths) (h : Run.Reachable host p fuel c paths faults disk s)
    (path : List Char) (hp : path ∈ paths) : s.disk (host.node path) = disk (host.node path) :=
  (Run.inv_reachable hsafe h).inputs path hp

/-- **C81**, one image alone: it is measured as it is; its picture, if any, goes to `output`, under the stem of its name and with
the extension `png`.  If the path has no file name, an image whose picture would be saved makes the program panic. -/
theorem C81_alone (host : Host Node) (p : Setup) (fuel : Nat) (c : AnyCodec) (disk : Node → Option Img) (path : List Char) :
    (∀ n stem, IsFileName path n → IsStem n stem →
      let out := host.node ("output/".toList ++ stem ++ ".png".toList)
      let w := measureOne p fuel c
        { name := String.ofList path, opened := disk (host.node path), saves := host.writable out }
      alone host p fuel c disk path = (w.1, w.2.map fun d => (out, d))) ∧
    ((∀ n, ¬ IsFileName path n) →
      let w := measureOne p fuel c { name := String.ofList path, opened := disk (host.node path), saves := true }
      (alone host p fuel c disk path).2 = none ∧ (w.2 = none → (alone host p fuel c disk path).1 = w.1) ∧
        (w.2 ≠ none → (alone host p fuel c disk path).1 = .panic)) := by
  constructor
  · intro n stem hn hs
    have hu : underOutput path "png".toList = some ("output/".toList ++ stem ++ ".png".toList) :=
      (C70_path path _ _).1.2 ⟨n, stem, hn, hs, rfl⟩
    dsimp only
    unfold alone workOn Host.pictureOf
    rw [hu]
    dsimp only [Option.map_some]
    cases (measureOne p fuel c _).2 <;> rfl
  · intro hn
    have hu : underOutput path "png".toList = none := (C70_path path "png".toList []).2.2 hn
    dsimp only
    unfold alone workOn Host.pictureOf
    rw [hu]
    dsimp only [Option.map_none]
    generalize measureOne p fuel c { name := String.ofList path, opened := disk (host.node path), saves := true } = w
    obtain ⟨r, d⟩ := w
    cases d <;> simp

/-- Lossless codecs save no pictures. -/
theorem lossless_saves_nothing {j : Job} (hp : p.Lawful) (hc : c.isLossless = true)
    (hj : ∀ img, j.opened = some img → VisitsOnce p.scan img.width.toNat img.height.toNat ∧ img.pixels ≠ [] ∧
      24 * (img.width.toNat * img.height.toNat) < 2 ^ 32) : (measureOne p fuel c j).2 = none := by
  cases ho : j.opened with
  | none => simp only [measureOne, ho]
  | some img =>
    obtain ⟨h1, h2, h3⟩ := hj img ho
    cases he : c.encode p fuel img with
    | err e => simp only [measureOne, ho, he]
    | panic => simp only [measureOne, ho, he]
    | ok m =>
      cases hb : bytesOf m with
      | err e => simp only [measureOne, ho, he, hb]
      | panic => simp only [measureOne, ho, he, hb]
      | ok data =>
        obtain ⟨raw, -, h⟩ := C64_lossless_measured (fuel := fuel) hp hc ho h1 h2 h3 he hb
        rw [h]

/-- **C81**, lossless codecs: for images with at least one and fewer than 2^32/24 pixels no file changes, in any schedule, and the
rows do not depend on the schedule. -/
theorem C81_lossless (hp : p.Lawful) (hc : c.isLossless = true)
    (himg : ∀ path ∈ paths, ∀ img, disk (host.node path) = some img →
      VisitsOnce p.scan img.width.toNat img.height.toNat ∧ img.pixels ≠ [] ∧
        24 * (img.width.toNat * img.height.toNat) < 2 ^ 32)
    (h : Run.Reachable host p fuel c paths faults disk s) :
    s.disk = disk ∧ Bench.Reachable paths.length (aloneAt host p fuel c disk paths) faults s.bench := by
  have hno : ∀ path ∈ paths, (alone host p fuel c disk path).2 = none := by
    intro path hp'
    have hm : ∀ sv, (measureOne p fuel c { name := String.ofList path, opened := disk (host.node path), saves := sv }).2 = none :=
      fun sv => lossless_saves_nothing hp hc fun img ho => himg path hp' img ho
    have hw : (workOn host p fuel c path (disk (host.node path))).2 = none := by
      unfold workOn
      cases underOutput path "png".toList with
      | some out => exact hm _
      | none =>
        dsimp only
        split
        · rfl
        · exact hm true
    unfold alone
    dsimp only
    rw [hw]
  have hsafe : InputsSafe host p fuel c disk paths := by
    intro path hp' f d hd
    rw [hno path hp'] at hd
    cases hd
  refine ⟨?_, (C81_rows hsafe h).1⟩
  funext f
  rcases C81_files hsafe h f with h' | ⟨i, path, d, h1, -, h3, -⟩
  · exact h'
  · rw [hno path (List.mem_of_getElem? h1)] at h3
    cases h3

/-- **C81**, final files: if besides all pictures saved in the same file are equal, then after the work on all images each file
holds its picture if there is one, and is as before otherwise. -/
theorem C81_final (hsafe : InputsSafe host p fuel c disk paths) (hag : PicturesAgree host p fuel c disk paths)
    (h : Run.Reachable host p fuel c paths faults disk s) (hw : Worked paths s) (f : Node) :
    (∀ path ∈ paths, ∀ d, (alone host p fuel c disk path).2 = some (f, d) → s.disk f = host.reopen d) ∧
      ((∀ path ∈ paths, ∀ d, (alone host p fuel c disk path).2 ≠ some (f, d)) → s.disk f = disk f) := by
  have hi := Run.inv_reachable hsafe h
  constructor
  · intro path hp d hd
    obtain ⟨i, hlt, hi'⟩ := List.mem_iff_getElem.1 hp
    have hge : paths[i]? = some path := by rw [List.getElem?_eq_getElem hlt, hi']
    obtain ⟨j, path', d', h1, -, h3, h4⟩ := hi.saved i path f d hge (hw i hlt) hd
    rw [h4, hag path hp path' (List.mem_of_getElem? h1) f d d' hd h3]
  · intro hno
    rcases hi.kept f with h' | ⟨i, path, d, h1, -, h3, -⟩
    · exact h'
    · exact absurd h3 (hno path (List.mem_of_getElem? h1) d)

/-- **C81**, two schedules: the final files are the same. -/
theorem C81_deterministic (hsafe : InputsSafe host p fuel c disk paths) (hag : PicturesAgree host p fuel c disk paths)
    {t : Run Node} (h : Run.Reachable host p fuel c paths faults disk s) (ht : Run.Reachable host p fuel c paths faults disk t)
    (hw : Worked paths s) (hwt : Worked paths t) : s.disk = t.disk := by
  funext f
  by_cases hex : ∃ path ∈ paths, ∃ d, (alone host p fuel c disk path).2 = some (f, d)
  · obtain ⟨path, hp, d, hd⟩ := hex
    rw [(C81_final hsafe hag h hw f).1 path hp d hd, (C81_final hsafe hag ht hwt f).1 path hp d hd]
  · have hno : ∀ path ∈ paths, ∀ d, (alone host p fuel c disk path).2 ≠ some (f, d) :=
      fun path hp d hd => hex ⟨path, hp, d, hd⟩
    rw [(C81_final hsafe hag h hw f).2 hno, (C81_final hsafe hag ht hwt f).2 hno]

/-- **C81**, progress: as long as the work on some image has not ended, there is a step. -/
theorem C81_progress (hsafe : InputsSafe host p fuel c disk paths) (h : Run.Reachable host p fuel c paths faults disk s) :
    (Worked paths s ∧ ∀ i, i < paths.length → (∃ ok, s.bench.pc i = .done ok) ∨ s.bench.pc i = .panicked) ∨
      ∃ t, Run.Step host p fuel c paths faults s t := by
  have hi := Run.inv_reachable hsafe h
  by_cases hw : Worked paths s
  · rcases C50_progress hi.bench with hd | ⟨b, st⟩
    · exact .inl ⟨hw, hd⟩
    · refine .inr ⟨_, .report (Run.step_congr st fun j hj => ?_) fun j hj => hw j (Run.step_range st hi.bench j hj)⟩
      cases hr : s.result j with
      | none => exact absurd hr (hw j (Run.step_range st hi.bench j hj))
      | some r => exact (hi.result j r hr).1.symm
  · refine .inr ?_
    simp only [Worked, not_forall, not_not] at hw
    obtain ⟨i, hlt, hn⟩ := hw
    have hp : paths[i]? = some paths[i] := List.getElem?_eq_getElem hlt
    cases hr : s.read i with
    | none => exact ⟨_, .read hp hr⟩
    | some o => exact ⟨_, .work hp hr hn⟩

end

/-! ## Pictures in the place of others -/

namespace RunExamples
open ExtremeExamples (release release_lawful)

/-- Two pixels. -/
def two (a b : Rgba) : Img where
  width := 2
  height := 1
  pixels := [a, b]
  size := rfl

/-- Paths that are different lead to different files, all of which can be written. -/
def host : Host (List Char) where
  node := id
  writable _ := true
  reopen d := if h : d.pixels.length = d.width.toNat * d.height.toNat then some (d.toImg h) else none

def imgA : Img := two ⟨10, 0, 0, 255⟩ ⟨20, 0, 0, 255⟩
def imgB : Img := two ⟨0, 40, 0, 255⟩ ⟨0, 90, 0, 255⟩

/-- Three files. -/
def disk (f : List Char) : Option Img :=
  if f = "a/cat.png".toList then some imgA
  else if f = "b/cat.bmp".toList then some imgB
  else if f = "output/cat.png".toList then some imgB
  else none

/-- The reds and greens of a picture. -/
def seen (x : Option Img) : List (UInt8 × UInt8) := ((x.map fun i => i.pixels).getD []).map fun c => (c.r, c.g)

/-- The error in a row. -/
def errorOf (r : Option (Ret Failure Row)) : Option F64 :=
  match r with
  | some (.ok row) => some row.error
  | _ => none

/-- Two images with the same stem. -/
def sameStem : List (List Char) := ["a/cat.png".toList, "b/cat.bmp".toList]

/-- An image, and a result of an earlier run of the benchmark. -/
def overlap : List (List Char) := ["a/cat.png".toList, "output/cat.png".toList]

def run (paths : List (List Char)) (order : List Nat) : Run (List Char) :=
  Run.inTurn host release 9 (.voronoi 1) paths disk order

/-- The outcomes of a run. -/
def outcomes (s : Run (List Char)) (i : Nat) : Ret Failure Row := (s.result i).getD .panic

theorem errors_sameStem : ((successes 2 (outcomes (run sameStem [0, 1]))).map fun r => r.error) = [.fin 25, .fin 625] ∧
    ((successes 2 (outcomes (run sameStem [1, 0]))).map fun r => r.error) = [.fin 25, .fin 625] := by
  constructor <;> decide +kernel

theorem errors_overlap : ((successes 2 (outcomes (run overlap [0, 1]))).map fun r => r.error) = [.fin 25, .fin 0] ∧
    ((successes 2 (outcomes (run overlap [1, 0]))).map fun r => r.error) = [.fin 25, .fin 625] := by
  constructor <;> decide +kernel

end RunExamples

/-- Once all images are worked on, the report can be completed unless the work on some image panicked. -/
theorem run_finishes {Node : Type} [DecidableEq Node] {host : Host Node} {p : Setup} {fuel : Nat} {c : AnyCodec}
    {paths : List (List Char)} {disk : Node → Option Img} {s : Run Node}
    (h : Run.Reachable host p fuel c paths False disk s) (hs : s.bench = .start) (hw : Worked paths s)
    (hp : ∀ i, i < paths.length → (s.result i).getD .panic ≠ .panic) :
    ∃ t, Run.Reachable host p fuel c paths False disk t ∧ t.bench.Finished paths.length ∧ t.disk = s.disk ∧
      t.result = s.result ∧ Bench.Reachable paths.length (fun i => (s.result i).getD .panic) False t.bench := by
  have main : ∀ k b, Bench.left paths.length b ≤ k →
      Bench.Reachable paths.length (fun i => (s.result i).getD .panic) False b →
      ∃ b', Bench.Reachable paths.length (fun i => (s.result i).getD .panic) False b' ∧ b'.Finished paths.length := by
    intro k
    induction k with
    | zero =>
      intro b hk hb
      rcases C50_progress hb with hd | ⟨t, st⟩
      · refine ⟨b, hb, fun i hi => (hd i hi).resolve_right fun hpc => ?_⟩
        obtain ⟨order, rows, hinv⟩ := Bench.inv_reachable hb
        exact hp i hi (hinv.broken i hpc).2
      · have := C50_ends hb st
        omega
    | succ k ih =>
      intro b hk hb
      rcases C50_progress hb with hd | ⟨t, st⟩
      · refine ⟨b, hb, fun i hi => (hd i hi).resolve_right fun hpc => ?_⟩
        obtain ⟨order, rows, hinv⟩ := Bench.inv_reachable hb
        exact hp i hi (hinv.broken i hpc).2
      · have := C50_ends hb st
        exact ih t (by omega) (hb.step st)
  obtain ⟨b, hb, hf⟩ := main _ .start (Nat.le_refl _) .start
  exact ⟨{ s with bench := b }, Run.report_reachable h hs hw hb, hf, rfl, rfl, hb⟩

/-- The errors in the rows of a report. -/
def reportedErrors (file : List Record) : List F64 :=
  file.filterMap fun
    | .header => none
    | .row r => some r.error

theorem reportedErrors_rows (rows : List Row) :
    reportedErrors (if rows = [] then [] else .header :: rows.map .row) = rows.map fun r => r.error := by
  have h : ∀ rows : List Row, reportedErrors (rows.map .row) = rows.map fun r => r.error := by
    intro rows
    induction rows with
    | nil => rfl
    | cons r rs ih => simp [reportedErrors]
  split
  · next e => subst e; rfl
  · exact h rows

namespace RunExamples
open ExtremeExamples (release release_lawful)

/-- A complete run that works on the two images in this order. -/
theorem complete (paths : List (List Char)) (order : List Nat) (hn : paths.length = 2)
    (h0 : ((run paths order).result 0).isSome = true) (h1 : ((run paths order).result 1).isSome = true)
    (hp0 : (match outcomes (run paths order) 0 with | .ok _ => true | _ => false) = true)
    (hp1 : (match outcomes (run paths order) 1 with | .ok _ => true | _ => false) = true) :
    ∃ t, Run.Reachable host release 9 (.voronoi 1) paths False disk t ∧ t.bench.Finished paths.length ∧
      t.disk = (run paths order).disk ∧ t.result = (run paths order).result ∧
      (reportedErrors t.bench.file).Perm ((successes 2 (outcomes (run paths order))).map fun r => r.error) := by
  obtain ⟨t, r1, r2, r3, r4, r5⟩ := run_finishes (Run.inTurn_reachable (host := host) (p := release) (fuel := 9)
    (c := .voronoi 1) (paths := paths) (faults := False) (disk := disk) order) (Run.inTurn_bench order) (by
      intro i hi
      rw [hn] at hi
      match i, hi with
      | 0, _ => exact Option.isSome_iff_ne_none.1 h0
      | 1, _ => exact Option.isSome_iff_ne_none.1 h1) (by
      intro i hi e
      rw [hn] at hi
      match i, hi with
      | 0, _ => rw [show outcomes (run paths order) 0 = .panic from e] at hp0; cases hp0
      | 1, _ => rw [show outcomes (run paths order) 1 = .panic from e] at hp1; cases hp1)
  refine ⟨t, r1, r2, r3, r4, ?_⟩
  obtain ⟨rows, q1, q2⟩ := C50_complete r5 r2
  rw [q2, reportedErrors_rows]
  rw [hn] at q1
  exact q1.map _

end RunExamples

/-- **C81**, two images with the same stem: the picture left in the file depends on the schedule, while the reports agree. -/
theorem C81_same_stem : ∃ (host : Host (List Char)) (p : Setup) (paths : List (List Char)) (disk : List Char → Option Img)
    (s t : Run (List Char)), host.node = id ∧ p.Lawful ∧ InputsSafe host p 9 (.voronoi 1) disk paths ∧
      Run.Reachable host p 9 (.voronoi 1) paths False disk s ∧ Run.Reachable host p 9 (.voronoi 1) paths False disk t ∧
      s.bench.Finished paths.length ∧ t.bench.Finished paths.length ∧
      (reportedErrors s.bench.file).Perm (reportedErrors t.bench.file) ∧ s.disk ≠ t.disk := by
  obtain ⟨s, s1, s2, s3, -, s5⟩ := RunExamples.complete RunExamples.sameStem [0, 1] rfl
    (by decide +kernel) (by decide +kernel) (by decide +kernel) (by decide +kernel)
  obtain ⟨t, t1, t2, t3, -, t5⟩ := RunExamples.complete RunExamples.sameStem [1, 0] rfl
    (by decide +kernel) (by decide +kernel) (by decide +kernel) (by decide +kernel)
  rw [RunExamples.errors_sameStem.1] at s5
  rw [RunExamples.errors_sameStem.2] at t5
  refine ⟨RunExamples.host, ExtremeExamples.release, RunExamples.sameStem, RunExamples.disk, s, t, rfl,
    ExtremeExamples.release_lawful, ?_, s1, t1, s2, t2, s5.trans t5.symm, ?_⟩
  · have h : ∀ path ∈ RunExamples.sameStem, ∀ path' ∈ RunExamples.sameStem,
        (alone RunExamples.host ExtremeExamples.release 9 (.voronoi 1) RunExamples.disk path).2.map Prod.fst ≠
          some (RunExamples.host.node path') := by decide +kernel
    intro path hp f d hd path' hp' e
    have := h path hp path' hp'
    rw [hd, e] at this
    exact this rfl
  · intro e
    have h : RunExamples.seen ((RunExamples.run RunExamples.sameStem [0, 1]).disk "output/cat.png".toList) ≠
        RunExamples.seen ((RunExamples.run RunExamples.sameStem [1, 0]).disk "output/cat.png".toList) := by decide +kernel
    rw [s3, t3] at e
    exact h (by rw [e])

/-- **C81**, an image that lies where the picture of another one is saved: the report depends on the schedule.  Whether that image
is still itself when it is read decides over the error in its row. -/
theorem C81_overlap : ∃ (host : Host (List Char)) (p : Setup) (paths : List (List Char)) (disk : List Char → Option Img)
    (s t : Run (List Char)), host.node = id ∧ p.Lawful ∧
      Run.Reachable host p 9 (.voronoi 1) paths False disk s ∧ Run.Reachable host p 9 (.voronoi 1) paths False disk t ∧
      s.bench.Finished paths.length ∧ t.bench.Finished paths.length ∧
      ¬ (reportedErrors s.bench.file).Perm (reportedErrors t.bench.file) := by
  obtain ⟨s, s1, s2, -, -, s5⟩ := RunExamples.complete RunExamples.overlap [0, 1] rfl
    (by decide +kernel) (by decide +kernel) (by decide +kernel) (by decide +kernel)
  obtain ⟨t, t1, t2, -, -, t5⟩ := RunExamples.complete RunExamples.overlap [1, 0] rfl
    (by decide +kernel) (by decide +kernel) (by decide +kernel) (by decide +kernel)
  rw [RunExamples.errors_overlap.1] at s5
  rw [RunExamples.errors_overlap.2] at t5
  refine ⟨RunExamples.host, ExtremeExamples.release, RunExamples.overlap, RunExamples.disk, s, t, rfl,
    ExtremeExamples.release_lawful, s1, t1, s2, t2, fun e => ?_⟩
  have := (s5.symm.trans e).trans t5
  exact absurd ((this.mem_iff (a := .fin 0)).1 (by decide)) (by decide +kernel)

/-! ## Concrete cases -/

namespace RunExamples
open ExtremeExamples (release release_lawful)

/-- One image is copied under another name in a further directory; the pictures agree. -/
def copies : List (List Char) := ["a/cat.png".toList, "b/dog.bmp".toList, "c/dog.gif".toList]

def diskC (f : List Char) : Option Img :=
  if f = "a/cat.png".toList then some imgA
  else if f = "b/dog.bmp".toList ∨ f = "c/dog.gif".toList then some imgB
  else none

theorem copies_safe : InputsSafe host release 9 (.voronoi 1) diskC copies := by
  have h : ∀ path ∈ copies, ∀ path' ∈ copies,
      (alone host release 9 (.voronoi 1) diskC path).2.map Prod.fst ≠ some (host.node path') := by decide +kernel
  intro path hp f d hd path' hp' e
  have := h path hp path' hp'
  rw [hd, e] at this
  exact this rfl

theorem copies_agree : PicturesAgree host release 9 (.voronoi 1) diskC copies := by
  have h : ∀ path ∈ copies, ∀ path' ∈ copies,
      (alone host release 9 (.voronoi 1) diskC path).2.map Prod.fst =
        (alone host release 9 (.voronoi 1) diskC path').2.map Prod.fst →
      (alone host release 9 (.voronoi 1) diskC path).2.map (fun x => (x.2.width, x.2.height, x.2.pixels)) =
        (alone host release 9 (.voronoi 1) diskC path').2.map (fun x => (x.2.width, x.2.height, x.2.pixels)) := by
    decide +kernel
  intro path hp path' hp' f d d' hd hd'
  have := h path hp path' hp' (by rw [hd, hd']; rfl)
  rw [hd, hd'] at this
  simp only [Option.map_some, Option.some.injEq, Prod.mk.injEq] at this
  cases d
  cases d'
  simp only [RgbImage.mk.injEq]
  exact this

/-- C81: two pictures are saved, whatever the schedule. -/
example {s : Run (List Char)} (h : Run.Reachable host release 9 (.voronoi 1) copies False diskC s) (hw : Worked copies s) :
    s.disk "output/cat.png".toList = (Run.inTurn host release 9 (.voronoi 1) copies diskC [0, 1, 2]).disk
      "output/cat.png".toList := by
  rw [C81_deterministic copies_safe copies_agree h (Run.inTurn_reachable [0, 1, 2]) hw]
  intro i hi
  match i, hi with
  | 0, _ => exact Option.isSome_iff_ne_none.1 (by decide +kernel)
  | 1, _ => exact Option.isSome_iff_ne_none.1 (by decide +kernel)
  | 2, _ => exact Option.isSome_iff_ne_none.1 (by decide +kernel)

example : seen ((Run.inTurn host release 9 (.voronoi 1) copies diskC [2, 0, 1]).disk "output/dog.png".toList) =
    [(0, 65), (0, 65)] := by decide +kernel

/-- C81, lossless: the image in `output` survives. -/
example {s : Run (List Char)} (h : Run.Reachable host release 9 .hufman overlap False disk s) : s.disk = disk := by
  refine (C81_lossless release_lawful rfl ?_ h).1
  have hall : ∀ path ∈ overlap, ∀ i, disk (host.node path) = some i → i = imgA ∨ i = imgB := by
    intro path _ i hi
    simp only [disk] at hi
    split at hi
    · exact .inl (Option.some.inj hi).symm
    · split at hi
      · exact .inr (Option.some.inj hi).symm
      · split at hi
        · exact .inr (Option.some.inj hi).symm
        · cases hi
  intro path hp i hi
  rcases hall path hp i hi with rfl | rfl <;>
    exact ⟨.refl _, (by simp [imgA, imgB, two]), by decide⟩

/-- C81, alone: a path without a file name. -/
example : (alone host release 9 (.voronoi 1) (fun _ => some imgA) "a/..".toList).1 = .panic := by
  obtain ⟨-, h⟩ := C81_alone host release 9 (.voronoi 1) (fun _ => some imgA) "a/..".toList
  refine (h ((C70_path _ "png".toList []).2.1 (by decide +kernel))).2.2 ?_
  exact Option.isSome_iff_ne_none.1 (by decide +kernel)

/-- C81, progress: nothing has been done yet. -/
example : ∃ t, Run.Step host release 9 (.voronoi 1) copies False (.start diskC) t :=
  (C81_progress copies_safe .start).resolve_left fun h => h.1 0 (by decide) rfl

end RunExamples
end Cniic
