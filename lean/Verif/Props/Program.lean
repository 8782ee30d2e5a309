import Verif.Proofs.Program
import Verif.Props.Run

/-!
# The program as a whole (C85)

From the command line and the files to the exit, the report and the files.
-/

namespace Cniic
open Spec

section
variable {Node : Type} [DecidableEq Node] {m : Machine Node} {faults : Prop} {args files : List (List Char)}
  {prog s : List Char} {w w' : World Node} {e : Exit} {c : AnyCodec}

/-- A command line that asks for a benchmark. -/
def Machine.Asks (m : Machine Node) (args : List (List Char)) (c : AnyCodec) (files : List (List Char)) : Prop :=
  ∃ prog s, args = prog :: ("--codec=".toList ++ s) :: files ∧
    anyCodecFromStr m.setup.chk m.uniDigit m.parseF64 s = .ok c

/-- The outcome of each image if it is the only one. -/
def Machine.outcome (m : Machine Node) (c : AnyCodec) (files : List (List Char)) (w : World Node) : Nat → Ret Failure Row :=
  aloneAt m.host m.setup m.fuel c (m.created (reportPath m.showF64 c) w) files

/-- No picture is saved in the place of an image. -/
def Machine.Safe (m : Machine Node) (c : AnyCodec) (files : List (List Char)) (w : World Node) : Prop :=
  InputsSafe m.host m.setup m.fuel c (m.created (reportPath m.showF64 c) w) files

/-- **C85**, anything else on the command line: the program panics before it touches a file. -/
theorem C85_refused (h1 : ∀ prog files, args ≠ prog :: "--special=hilbert".toList :: files)
    (h2 : ∀ c files, ¬ m.Asks args c files) : Main m faults args w e w' ↔ e = .panic ∧ w' = w := by
  have hno : ∀ t, mainTask m.setup.chk m.uniDigit m.parseF64 args ≠ .ok t := by
    intro t ht
    cases t with
    | exportTraversals files =>
      obtain ⟨prog, rfl⟩ := (C68_export ..).1 ht
      exact h1 _ _ rfl
    | benchmark c files =>
      obtain ⟨prog, s, h, h'⟩ := (C68_benchmark ..).1 ht
      exact h2 c files ⟨prog, s, h, h'⟩
  constructor
  · intro h
    cases h with
    | refused h => exact ⟨rfl, rfl⟩
    | exported h => exact absurd h (hno _)
    | exportStops h => exact absurd h (hno _)
    | noReport h => exact absurd h (hno _)
    | measured h => exact absurd h (hno _)
    | notFlushed h => exact absurd h (hno _)
    | imagePanics h => exact absurd h (hno _)
  · rintro ⟨rfl, rfl⟩
    exact .refused hno

/-- **C85**, `--special=hilbert`: the exit says whether all traversals have been written; only traversals are written. -/
theorem C85_export (h : Main m faults (prog :: "--special=hilbert".toList :: files) w e w') :
    ∃ r, exportAll { opened := fun p => w.images (m.host.node p), creates := m.creates } m.setup.scan m.setup.chk files
        w.tables = (r, w'.tables) ∧
      (e = .success ↔ r = .ok ()) ∧ w'.images = w.images ∧ w'.reports = w.reports := by
  have ht : mainTask m.setup.chk m.uniDigit m.parseF64 (prog :: "--special=hilbert".toList :: files) =
      .ok (.exportTraversals files) := (C68_export ..).2 ⟨prog, rfl⟩
  cases h with
  | refused h => exact absurd ht (h _)
  | exported h h' =>
    rw [ht] at h
    cases h
    exact ⟨.ok (), h', by simp, rfl, rfl⟩
  | exportStops h h' =>
    rw [ht] at h
    cases h
    exact ⟨.panic, h', by simp, rfl, rfl⟩
  | noReport h => rw [ht] at h; cases h
  | measured h => rw [ht] at h; cases h
  | notFlushed h => rw [ht] at h; cases h
  | imagePanics h => rw [ht] at h; cases h

/-- The cases of a benchmark. -/
theorem main_benchmark (ha : m.Asks args c files) (h : Main m faults args w e w') :
    (m.creates (reportPath m.showF64 c) = false ∧ e = .panic ∧ w' = w) ∨
    (m.creates (reportPath m.showF64 c) = true ∧ ∃ s, s.Halted ∧
      Run.Reachable m.host m.setup m.fuel c files faults (m.created (reportPath m.showF64 c) w) s ∧
      ((e = .success ∧ s.bench.Finished files.length ∧
          w' = { w with images := s.disk, reports := replaced w.reports (reportPath m.showF64 c) (some s.bench.file) }) ∨
        (e = .panic ∧ faults ∧ s.bench.Finished files.length ∧ ∃ part, part <+: s.bench.file ∧
          w' = { w with images := s.disk, reports := replaced w.reports (reportPath m.showF64 c) (some part) }) ∨
        (e = .panic ∧ (∃ i, i < files.length ∧ s.bench.pc i = .panicked) ∧
          w' = { w with images := s.disk, reports := replaced w.reports (reportPath m.showF64 c) (some s.bench.file) }))) := by
  obtain ⟨prog, s, rfl, hs⟩ := ha
  have ht : mainTask m.setup.chk m.uniDigit m.parseF64 (prog :: ("--codec=".toList ++ s) :: files) =
      .ok (.benchmark c files) := (C68_benchmark ..).2 ⟨prog, s, rfl, hs⟩
  cases h with
  | refused h => exact absurd ht (h _)
  | exported h => rw [ht] at h; cases h
  | exportStops h => rw [ht] at h; cases h
  | noReport h h1 => rw [ht] at h; cases h; exact .inl ⟨h1, rfl, rfl⟩
  | measured h h1 h2 h3 h4 => rw [ht] at h; cases h; exact .inr ⟨h1, _, h4, h2, .inl ⟨rfl, h3, rfl⟩⟩
  | notFlushed h h1 h2 h3 h4 h5 h6 =>
    rw [ht] at h; cases h; exact .inr ⟨h1, _, h4, h2, .inr (.inl ⟨rfl, h5, h3, _, h6, rfl⟩)⟩
  | imagePanics h h1 h2 h3 h4 h5 h6 =>
    rw [ht] at h; cases h; exact .inr ⟨h1, _, h6, h2, .inr (.inr ⟨rfl, ⟨_, h3, h4⟩, rfl⟩)⟩

/-- **C85**, the exit of a benchmark: status 0 exactly if the report could be created and the work on no image panics.  That
images cannot be opened, encoded, decoded or saved, or that a lossless codec changes them, does not show. -/
theorem C85_exit (ha : m.Asks args c files) (hsafe : m.Safe c files w) (h : Main m False args w e w') :
    e = .success ↔ m.creates (reportPath m.showF64 c) = true ∧ ∀ i, i < files.length → m.outcome c files w i ≠ .panic := by
  rcases main_benchmark ha h with ⟨h1, rfl, -⟩ | ⟨h1, s, -, hr, hcase⟩
  · simp [h1]
  · have hb := (C81_rows hsafe hr).1
    rcases hcase with ⟨rfl, hf, -⟩ | ⟨-, hf, -⟩ | ⟨rfl, ⟨i, hi, hpc⟩, -⟩
    · refine ⟨fun _ => ⟨h1, fun i hi => ?_⟩, fun _ => rfl⟩
      obtain ⟨ok, hok⟩ := hf i hi
      exact Bench.not_panic hb i (by rw [hok]; simp) (by rw [hok]; simp)
    · exact hf.elim
    · obtain ⟨order, rows, hinv⟩ := Bench.inv_reachable hb
      have := (hinv.broken i hpc).2
      constructor
      · intro h
        cases h
      · intro h
        exact absurd this (h.2 i hi)

/-- **C85**, an image whose work panics: the program panics, even when writing fails. -/
theorem C85_panic (ha : m.Asks args c files) (hsafe : m.Safe c files w) (h : Main m faults args w e w') {i : Nat}
    (hi : i < files.length) (hp : m.outcome c files w i = .panic) : e = .panic := by
  rcases main_benchmark ha h with ⟨-, rfl, -⟩ | ⟨h1, s, -, hr, hcase⟩
  · rfl
  · rcases hcase with ⟨rfl, hf, -⟩ | ⟨rfl, -⟩ | ⟨rfl, -⟩
    · obtain ⟨ok, hok⟩ := hf i hi
      exact absurd hp (Bench.not_panic (C81_rows hsafe hr).1 i (by rw [hok]; simp) (by rw [hok]; simp))
    · rfl
    · rfl

/-- **C85**, files: a benchmark writes the report of its codec and saves pictures; other reports and the traversals stay. -/
theorem C85_files (ha : m.Asks args c files) (h : Main m faults args w e w') :
    w'.tables = w.tables ∧ ∀ q, q ≠ reportPath m.showF64 c → w'.reports q = w.reports q := by
  rcases main_benchmark ha h with ⟨-, -, rfl⟩ | ⟨h1, s, -, hr, hcase⟩
  · exact ⟨rfl, fun _ _ => rfl⟩
  · rcases hcase with ⟨-, -, rfl⟩ | ⟨-, -, -, part, -, rfl⟩ | ⟨-, -, rfl⟩ <;>
      exact ⟨rfl, fun q hq => by simp [replaced, hq]⟩

/-- **C85**, the report after status 0: it is empty if no image succeeded; otherwise it is one header and the rows of the
images that succeeded, in some order. -/
theorem C85_report (ha : m.Asks args c files) (hsafe : m.Safe c files w) (h : Main m False args w .success w') :
    ∃ rows : List Row, rows.Perm (successes files.length (m.outcome c files w)) ∧
      w'.reports (reportPath m.showF64 c) = some (if rows = [] then [] else .header :: rows.map .row) := by
  rcases main_benchmark ha h with ⟨-, h1, -⟩ | ⟨h1, s, -, hr, hcase⟩
  · cases h1
  · rcases hcase with ⟨-, hf, rfl⟩ | ⟨h1, -⟩ | ⟨h1, -⟩
    · obtain ⟨rows, k1, k2⟩ := C81_report hsafe hr hf
      exact ⟨rows, k1, by simp [replaced, k2]⟩
    · cases h1
    · cases h1

/-- **C85**, the report after a panic, if it could be created and no write fails: it is empty, or one header and the rows of some
of the images that succeeded, each at most once. -/
theorem C85_report_panic (ha : m.Asks args c files) (hsafe : m.Safe c files w) (h : Main m False args w .panic w')
    (hc : m.creates (reportPath m.showF64 c) = true) :
    ∃ (order : List Nat) (rows : List Row), order.Nodup ∧ (∀ i ∈ order, i < files.length) ∧
      order.map (m.outcome c files w) = rows.map Ret.ok ∧
      (w'.reports (reportPath m.showF64 c) = some (.header :: rows.map .row) ∨
        w'.reports (reportPath m.showF64 c) = some [] ∧ rows = []) := by
  rcases main_benchmark ha h with ⟨h1, -, -⟩ | ⟨h1, s, -, hr, hcase⟩
  · rw [hc] at h1
    cases h1
  · rcases hcase with ⟨h1, -⟩ | ⟨-, hf, -⟩ | ⟨-, -, rfl⟩
    · cases h1
    · exact hf.elim
    · obtain ⟨order, rows, k1, k2, k3, k4⟩ := C50_report (C81_rows hsafe hr).1
      refine ⟨order, rows, k1, fun i hi => ?_, k3, ?_⟩
      · obtain ⟨order', rows', hinv⟩ := Bench.inv_reachable (C81_rows hsafe hr).1
        exact (hinv.good i (.inr (.inr ((k2 i).1 hi)))).1
      · simpa [replaced] using k4

/-- **C85**, no image can be opened: status 0 and an empty report. -/
theorem C85_nothing_opened (ha : m.Asks args c files) (hc : m.creates (reportPath m.showF64 c) = true)
    (hn : ∀ path ∈ files, w.images (m.host.node path) = none) (h : Main m False args w e w') :
    e = .success ∧ w'.reports (reportPath m.showF64 c) = some [] ∧
      w'.images = m.created (reportPath m.showF64 c) w := by
  have hn' : ∀ path ∈ files, m.created (reportPath m.showF64 c) w (m.host.node path) = none := by
    intro path hp
    unfold Machine.created replaced
    split
    · rfl
    · exact hn path hp
  have hw : ∀ path ∈ files, alone m.host m.setup m.fuel c (m.created (reportPath m.showF64 c) w) path = (.err .open, none) := by
    intro path hp
    have hm : ∀ j : Job, j.opened = none → measureOne m.setup m.fuel c j = (.err .open, none) := by
      intro j hj
      simp only [measureOne, hj]
    unfold alone workOn
    rw [hn' path hp]
    cases underOutput path "png".toList with
    | none => simp only [hm]
    | some out => simp only [hm]
  have hsafe : m.Safe c files w := by
    intro path hp f d hd
    rw [hw path hp] at hd
    cases hd
  have hout : ∀ i, i < files.length → m.outcome c files w i = .err .open := by
    intro i hi
    unfold Machine.outcome aloneAt
    rw [List.getElem?_eq_getElem hi]
    dsimp only
    rw [hw _ (List.getElem_mem hi)]
  have he : e = .success := (C85_exit ha hsafe h).2 ⟨hc, fun i hi => by rw [hout i hi]; simp⟩
  subst he
  refine ⟨rfl, ?_, ?_⟩
  · obtain ⟨rows, k1, k2⟩ := C85_report ha hsafe h
    have : successes files.length (m.outcome c files w) = [] := by
      unfold successes
      rw [List.filterMap_eq_nil_iff]
      intro i hi
      rw [hout i (List.mem_range.1 hi)]
    rw [this, List.perm_nil] at k1
    rw [k2, k1, if_pos rfl]
  · rcases main_benchmark ha h with ⟨-, h1, -⟩ | ⟨h1, s, -, hr, hcase⟩
    · cases h1
    · rcases hcase with ⟨-, hf, rfl⟩ | ⟨h1, -⟩ | ⟨h1, -⟩
      · funext f
        rcases C81_files hsafe hr f with h' | ⟨i, path, d, h1, -, h3, -⟩
        · exact h'
        · rw [hw path (List.mem_of_getElem? h1)] at h3
          cases h3
      · cases h1
      · cases h1

/-- The outcome of a lossless codec on one image. -/
theorem lossless_alone {disk : Node → Option Img} {path : List Char} {img : Img} (hp : m.setup.Lawful)
    (hc : c.isLossless = true) (hz : c ≠ .zip .back) (hi : disk (m.host.node path) = some img)
    (hs : VisitsOnce m.setup.scan img.width.toNat img.height.toNat) (hne : img.pixels ≠ [])
    (hsz : 24 * (img.width.toNat * img.height.toNat) < 2 ^ 32) :
    ∃ r : Row, alone m.host m.setup m.fuel c disk path = (.ok r, none) ∧ r.name = String.ofList path ∧ r.error = .fin 0 := by
  obtain ⟨mm, bytes, h1, h2, -⟩ := C39_completes hp m.fuel hc hz hs (by unfold Addressable; omega) hne
  have key : ∀ sv, ∃ r : Row, measureOne m.setup m.fuel c
      { name := String.ofList path, opened := disk (m.host.node path), saves := sv } = (.ok r, none) ∧
      r.name = String.ofList path ∧ r.error = .fin 0 := by
    intro sv
    obtain ⟨raw, -, h⟩ := C64_lossless_measured (fuel := m.fuel)
      (j := { name := String.ofList path, opened := disk (m.host.node path), saves := sv }) hp hc hi hs hne hsz h1 h2
    exact ⟨_, h, rfl, rfl⟩
  unfold alone workOn
  cases underOutput path "png".toList with
  | some out =>
    obtain ⟨r, k1, k2, k3⟩ := key (m.host.writable (m.host.node out))
    refine ⟨r, ?_, k2, k3⟩
    dsimp only
    rw [k1]
  | none =>
    obtain ⟨r, k1, k2, k3⟩ := key true
    refine ⟨r, ?_, k2, k3⟩
    dsimp only
    rw [k1]

/-- **C85**, lossless codecs other than zip(back), on images with at least one and fewer than 2^32/24 pixels: status 0, and the
report has one row for each image, with error 0; apart from the report no file changes. -/
theorem C85_lossless (hp : m.setup.Lawful) (hl : c.isLossless = true) (hz : c ≠ .zip .back) (ha : m.Asks args c files)
    (hc : m.creates (reportPath m.showF64 c) = true)
    (himg : ∀ path ∈ files, m.host.node path ≠ m.host.node (reportPath m.showF64 c) ∧
      ∃ img, w.images (m.host.node path) = some img ∧ VisitsOnce m.setup.scan img.width.toNat img.height.toNat ∧
        img.pixels ≠ [] ∧ 24 * (img.width.toNat * img.height.toNat) < 2 ^ 32)
    (h : Main m False args w e w') :
    e = .success ∧ w'.images = m.created (reportPath m.showF64 c) w ∧
      ∃ rows : List Row, (rows.map Row.name).Perm (files.map String.ofList) ∧ (∀ r ∈ rows, r.error = .fin 0) ∧
        w'.reports (reportPath m.showF64 c) = some (if rows = [] then [] else .header :: rows.map .row) := by
  have himg' : ∀ path ∈ files, ∃ img, m.created (reportPath m.showF64 c) w (m.host.node path) = some img ∧
      VisitsOnce m.setup.scan img.width.toNat img.height.toNat ∧ img.pixels ≠ [] ∧
      24 * (img.width.toNat * img.height.toNat) < 2 ^ 32 := by
    intro path hp'
    obtain ⟨h1, img, h2, h3⟩ := himg path hp'
    exact ⟨img, by simp [Machine.created, replaced, h1, h2], h3⟩
  have hal : ∀ path ∈ files, ∃ r : Row, alone m.host m.setup m.fuel c (m.created (reportPath m.showF64 c) w) path =
      (.ok r, none) ∧ r.name = String.ofList path ∧ r.error = .fin 0 := by
    intro path hp'
    obtain ⟨img, h1, h2, h3, h4⟩ := himg' path hp'
    exact lossless_alone hp hl hz h1 h2 h3 h4
  have hsafe : m.Safe c files w := by
    intro path hp' f d hd
    obtain ⟨r, h1, -⟩ := hal path hp'
    rw [h1] at hd
    cases hd
  have hout : ∀ i (hi : i < files.length), ∃ r : Row, m.outcome c files w i = .ok r ∧ r.name = String.ofList files[i] ∧
      r.error = .fin 0 := by
    intro i hi
    obtain ⟨r, h1, h2⟩ := hal _ (List.getElem_mem hi)
    refine ⟨r, ?_, h2⟩
    unfold Machine.outcome aloneAt
    rw [List.getElem?_eq_getElem hi]
    dsimp only
    rw [h1]
  have he : e = .success := (C85_exit ha hsafe h).2 ⟨hc, fun i hi => by
    obtain ⟨r, h1, -⟩ := hout i hi
    rw [h1]
    simp⟩
  subst he
  refine ⟨rfl, ?_, ?_⟩
  · rcases main_benchmark ha h with ⟨-, h1, -⟩ | ⟨h1, s, -, hr, hcase⟩
    · cases h1
    · rcases hcase with ⟨-, hf, rfl⟩ | ⟨h1, -⟩ | ⟨h1, -⟩
      · refine (C81_lossless hp hl (fun path hp' img hi => ?_) hr).1
        obtain ⟨img', h1, h2⟩ := himg' path hp'
        rw [hi] at h1
        cases h1
        exact h2
      · cases h1
      · cases h1
  · obtain ⟨rows, k1, k2⟩ := C85_report ha hsafe h
    refine ⟨rows, ?_, ?_, k2⟩
    · refine (k1.map _).trans ?_
      have : (successes files.length (m.outcome c files w)).map Row.name = files.map String.ofList := by
        unfold successes
        rw [List.map_filterMap]
        refine (List.filterMap_congr (g := fun i => some ((files.map String.ofList).getD i "")) fun i hi => ?_).trans ?_
        · obtain ⟨r, h1, h2, -⟩ := hout i (List.mem_range.1 hi)
          rw [h1]
          simp [h2, List.mem_range.1 hi]
        · refine List.ext_getElem (by simp) fun i h1 h2 => ?_
          simp at h1 h2 ⊢
          simp [h2]
      rw [this]
    · intro r hr
      have hr' := k1.mem_iff.1 hr
      unfold successes at hr'
      obtain ⟨i, hi, hri⟩ := List.mem_filterMap.1 hr'
      obtain ⟨r', h1, -, h3⟩ := hout i (List.mem_range.1 hi)
      rw [h1] at hri
      cases hri
      exact h3

/-- **C85**, there is an exit whenever no clustering is endless. -/
theorem C85_ends (m : Machine Node) (args : List (List Char)) (w : World Node)
    (hend : ∀ c files, m.Asks args c files → m.creates (reportPath m.showF64 c) = true →
      m.Safe c files w ∧ ∀ i, i < files.length → m.outcome c files w i ≠ .err .endless) :
    ∃ e w', Main m False args w e w' := by
  cases ht : mainTask m.setup.chk m.uniDigit m.parseF64 args with
  | err e => exact ⟨.panic, w, .refused fun t => by rw [ht]; simp⟩
  | panic => exact ⟨.panic, w, .refused fun t => by rw [ht]; simp⟩
  | ok t =>
    cases t with
    | exportTraversals files =>
      cases hx : exportAll { opened := fun p => w.images (m.host.node p), creates := m.creates } m.setup.scan m.setup.chk files
          w.tables with
      | mk r tables =>
        cases r with
        | ok u => exact ⟨_, _, .exported ht hx⟩
        | err e => exact absurd (by rw [hx]) (exportAll_no_err _ _ _ _ _ e)
        | panic => exact ⟨_, _, .exportStops ht hx⟩
    | benchmark c files =>
      cases hc : m.creates (reportPath m.showF64 c) with
      | false => exact ⟨_, _, .noReport ht hc⟩
      | true =>
        obtain ⟨hsafe, hfin⟩ := hend c files ((C68_benchmark ..).1 ht) hc
        have hr := Run.inTurn_reachable (host := m.host) (p := m.setup) (fuel := m.fuel) (c := c) (paths := files)
          (faults := False) (disk := m.created (reportPath m.showF64 c) w) (List.range files.length)
        have hw : Worked files (Run.inTurn m.host m.setup m.fuel c files (m.created (reportPath m.showF64 c) w)
          (List.range files.length)) := Run.inTurn_worked
        generalize Run.inTurn m.host m.setup m.fuel c files (m.created (reportPath m.showF64 c) w)
          (List.range files.length) = s at hr hw
        have main : ∀ k (s : Run Node), Bench.left files.length s.bench ≤ k → Worked files s →
            Run.Reachable m.host m.setup m.fuel c files False (m.created (reportPath m.showF64 c) w) s →
            ∃ t, Run.Reachable m.host m.setup m.fuel c files False (m.created (reportPath m.showF64 c) w) t ∧
              ∀ i, i < files.length → (∃ ok, t.bench.pc i = .done ok) ∨ t.bench.pc i = .panicked := by
          intro k
          induction k with
          | zero =>
            intro s hk hw hr
            have hi := Run.inv_reachable hsafe hr
            rcases C50_progress hi.bench with hd | ⟨b, st⟩
            · exact ⟨s, hr, hd⟩
            · have := C50_ends hi.bench st
              omega
          | succ k ih =>
            intro s hk hw hr
            have hi := Run.inv_reachable hsafe hr
            rcases C50_progress hi.bench with hd | ⟨b, st⟩
            · exact ⟨s, hr, hd⟩
            · have := C50_ends hi.bench st
              refine ih { s with bench := b } (by dsimp only; omega) hw (hr.step (.report (Run.step_congr st fun j hj => ?_)
                fun j hj => hw j (Run.step_range st hi.bench j hj)))
              cases hr : s.result j with
              | none => exact absurd hr (hw j (Run.step_range st hi.bench j hj))
              | some r => exact (hi.result j r hr).1.symm
        obtain ⟨t, k1, k2⟩ := main _ s (Nat.le_refl _) hw hr
        have hhalt : t.Halted := by
          intro i hi
          obtain ⟨h1, h2⟩ := (Run.inv_reachable hsafe k1).result i _ hi
          exact hfin i h2 h1.symm
        by_cases hp : ∃ i, i < files.length ∧ t.bench.pc i = .panicked
        · obtain ⟨i, hi, hp⟩ := hp
          exact ⟨_, _, .imagePanics ht hc k1 hi hp (fun j hj => (k2 j hj).imp_right .inl) hhalt⟩
        · exact ⟨_, _, .measured ht hc k1 (fun i hi => (k2 i hi).resolve_right fun h => hp ⟨i, hi, h⟩) hhalt⟩

end

/-! ## Concrete cases -/

namespace ProgramExamples
open RunExamples (disk imgA imgB)

/-- All files can be created. -/
def machine : Machine (List Char) where
  uniDigit _ := false
  parseF64 _ := none
  showF64 _ := []
  host := RunExamples.host
  creates _ := true
  setup := ExtremeExamples.release
  fuel := 9

/-- Three images, and the report of an earlier run. -/
def world : World (List Char) where
  images := disk
  tables _ := none
  reports q := if q = "output/Hufman.csv".toList then some [.header] else none

def command (codec : String) (files : List String) : List (List Char) :=
  ("cniic" :: ("--codec=" ++ codec) :: files).map String.toList

theorem asks_hufman (files : List String) : machine.Asks (command "hufman" files) .hufman (files.map String.toList) :=
  ⟨"cniic".toList, "hufman".toList, rfl, rfl⟩

theorem asks_voronoi (files : List String) :
    machine.Asks (command "voronoi(0)" files) (.voronoi 0) (files.map String.toList) :=
  ⟨"cniic".toList, "voronoi(0)".toList, rfl, rfl⟩

def twoFiles : List String := ["a/cat.png", "b/cat.bmp"]

/-- C85, lossless: two images. -/
example {e : Exit} {w' : World (List Char)} (h : Main machine False (command "hufman" twoFiles) world e w') :
    e = .success ∧ ∃ a b : Row, (∀ r ∈ [a, b], r.error = .fin 0) ∧
      ([a.name, b.name].Perm ["a/cat.png", "b/cat.bmp"]) ∧
      w'.reports "output/Hufman.csv".toList = some [.header, .row a, .row b] := by
  obtain ⟨h1, -, rows, h2, h3, h4⟩ := C85_lossless ExtremeExamples.release_lawful rfl (by decide) (asks_hufman twoFiles) rfl
    (by
      intro path hp
      simp only [twoFiles, List.map_cons, List.map_nil, List.mem_cons, List.not_mem_nil, or_false] at hp
      rcases hp with rfl | rfl
      · exact ⟨by decide, imgA, rfl, .refl _, by simp [imgA, RunExamples.two], by decide⟩
      · exact ⟨by decide, imgB, rfl, .refl _, by simp [imgB, RunExamples.two], by decide⟩) h
  refine ⟨h1, ?_⟩
  have hl : rows.length = 2 := by simpa [twoFiles] using h2.length_eq
  match rows, hl with
  | [a, b], _ => exact ⟨a, b, h3, by simpa [twoFiles] using h2, by rw [if_neg (by simp)] at h4; exact h4⟩

/-- C85, ends: so there is such a run. -/
example : ∃ e w', Main machine False (command "hufman" twoFiles) world e w' := by
  refine C85_ends machine _ _ fun c files ha _ => ?_
  have hc : c = .hufman ∧ files = twoFiles.map String.toList := by
    obtain ⟨prog, s, h1, h2⟩ := ha
    simp only [command, List.map_cons, List.cons.injEq] at h1
    obtain ⟨-, h1, rfl⟩ := h1
    have hs : s = "hufman".toList := by
      have : ("--codec=" ++ "hufman").toList = "--codec=".toList ++ "hufman".toList := rfl
      rw [this] at h1
      exact (List.append_cancel_left h1).symm
    subst hs
    have : anyCodecFromStr machine.setup.chk machine.uniDigit machine.parseF64 "hufman".toList = .ok .hufman := rfl
    rw [this] at h2
    cases h2
    exact ⟨rfl, rfl⟩
  obtain ⟨rfl, rfl⟩ := hc
  have hal : ∀ path ∈ twoFiles.map String.toList, ∃ r : Row,
      alone machine.host machine.setup machine.fuel .hufman (machine.created (reportPath machine.showF64 .hufman) world) path =
        (.ok r, none) := by
    intro path hp
    simp only [twoFiles, List.map_cons, List.map_nil, List.mem_cons, List.not_mem_nil, or_false] at hp
    rcases hp with rfl | rfl
    · obtain ⟨r, h, -⟩ := lossless_alone (m := machine) (c := .hufman) (path := "a/cat.png".toList) (img := imgA)
        (disk := machine.created (reportPath machine.showF64 .hufman) world) ExtremeExamples.release_lawful rfl (by decide) rfl
        (.refl _) (by simp [imgA, RunExamples.two]) (by decide)
      exact ⟨r, h⟩
    · obtain ⟨r, h, -⟩ := lossless_alone (m := machine) (c := .hufman) (path := "b/cat.bmp".toList) (img := imgB)
        (disk := machine.created (reportPath machine.showF64 .hufman) world) ExtremeExamples.release_lawful rfl (by decide) rfl
        (.refl _) (by simp [imgB, RunExamples.two]) (by decide)
      exact ⟨r, h⟩
  constructor
  · intro path hp f d hd
    obtain ⟨r, h⟩ := hal path hp
    rw [h] at hd
    cases hd
  · intro i hi
    obtain ⟨r, h⟩ := hal _ (List.getElem_mem hi)
    unfold Machine.outcome aloneAt
    rw [List.getElem?_eq_getElem hi]
    dsimp only
    rw [h]
    simp

/-- C85, panic: voronoi(0) on an image. -/
example {e : Exit} {w' : World (List Char)} (h : Main machine False (command "voronoi(0)" ["a/cat.png"]) world e w') :
    e = .panic := by
  have hw : alone machine.host machine.setup machine.fuel (.voronoi 0)
      (machine.created (reportPath machine.showF64 (.voronoi 0)) world) "a/cat.png".toList = (.panic, none) := by rfl
  refine C85_panic (i := 0) (asks_voronoi ["a/cat.png"]) ?_ h (by decide) ?_
  · intro path hp f d hd
    simp only [List.map_cons, List.map_nil, List.mem_cons, List.not_mem_nil, or_false] at hp
    subst hp
    rw [hw] at hd
    cases hd
  · exact congrArg Prod.fst hw

/-- C85, exit: the same, and no image at all. -/
example {e : Exit} {w' : World (List Char)} (h : Main machine False (command "voronoi(0)" []) world e w') : e = .success :=
  (C85_exit (asks_voronoi []) (fun path hp => by simp at hp) h).2 ⟨rfl, fun i hi => absurd hi (Nat.not_lt_zero i)⟩

/-- C85, nothing opened: a misspelt path. -/
example {e : Exit} {w' : World (List Char)} (h : Main machine False (command "hufman" ["a/kat.png"]) world e w') :
    e = .success ∧ w'.reports "output/Hufman.csv".toList = some [] := by
  obtain ⟨h1, h2, -⟩ := C85_nothing_opened (asks_hufman ["a/kat.png"]) rfl (by
    intro path hp
    simp only [List.map_cons, List.map_nil, List.mem_cons, List.not_mem_nil, or_false] at hp
    subst hp
    rfl) h
  exact ⟨h1, h2⟩

/-- C85, refused: no arguments. -/
example {e : Exit} {w' : World (List Char)} (h : Main machine True ["cniic".toList] world e w') : e = .panic ∧ w' = world :=
  (C85_refused (by simp) (by rintro c files ⟨prog, s, h, -⟩; simp at h)).1 h

/-- C85, export: an image that does not exist. -/
example {e : Exit} {w' : World (List Char)}
    (h : Main machine False ["cniic".toList, "--special=hilbert".toList, "a/kat.png".toList] world e w') : e = .panic := by
  obtain ⟨r, h1, h2, -⟩ := C85_export (files := ["a/kat.png".toList]) h
  have : (exportAll { opened := fun p => world.images (machine.host.node p), creates := machine.creates } machine.setup.scan
      machine.setup.chk ["a/kat.png".toList] world.tables).1 = .panic := rfl
  rw [h1] at this
  dsimp only at this
  subst this
  cases e with
  | panic => rfl
  | success => exact absurd (h2.1 rfl) (by simp)

end ProgramExamples
end Cniic
