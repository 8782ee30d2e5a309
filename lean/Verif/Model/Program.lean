import Verif.Model.Run

/-!
# Model of `src/main.rs` as a whole

What the program leaves behind: how it exits, the report of the benchmark, the exported traversals and the saved pictures.  The
steps are those of `Model/Main.lean` and `Model/Run.lean`.  The report and the traversals are kept apart from the pictures: a
saved picture that replaces a report is not modelled.  A file that has just been created as a report is no image.

After a panic in the work on one image, images that no worker has begun may be left out; those that have been begun are brought
to an end (rayon).  The writer of the report flushes when it is dropped, so a panic leaves the records written so far.
-/

namespace Cniic

/-- The exit of a program. -/
inductive Exit where
  /-- status 0 -/
  | success
  /-- a panic in the main thread, status 101 -/
  | panic
  deriving DecidableEq

/-- What the program takes from outside. -/
structure Machine (Node : Type) where
  /-- the digits of `\d` outside ASCII (see `isDecimal`) -/
  uniDigit : Char → Bool
  /-- `f64::from_str` -/
  parseF64 : List Char → Option F64
  /-- `Display for f64` -/
  showF64  : F64 → List Char
  host     : Host Node
  /-- whether `csv::Writer::from_path` succeeds -/
  creates  : List Char → Bool
  setup    : Setup
  /-- as much as a clustering is followed -/
  fuel     : Nat

/-- The files. -/
structure World (Node : Type) where
  /-- what `image::open` makes of the files -/
  images  : Node → Option Img
  /-- the exported traversals -/
  tables  : Files
  /-- the records of the report with this path -/
  reports : List Char → Option (List Record)

/-- The images after the report has been created (bench.rs:21,90): it is truncated. -/
def Machine.created {Node : Type} [DecidableEq Node] (m : Machine Node) (path : List Char) (w : World Node) :
    Node → Option Img :=
  replaced w.images (m.host.node path) none

/-- The work on this image has ended, or has not begun. -/
def Run.Settled {Node : Type} (s : Run Node) (i : Nat) : Prop :=
  (∃ ok, s.bench.pc i = .done ok) ∨ s.bench.pc i = .panicked ∨ (s.read i = none ∧ s.bench.pc i = .working)

/-- Every clustering that has been begun has ended. -/
def Run.Halted {Node : Type} (s : Run Node) : Prop := ∀ i, s.result i ≠ some (.err .endless)

/-- `main` (main.rs:17-21): from which files it may come to which exit and files.  Writing a record or flushing may fail if
`faults` holds.  A run in which a clustering does not end comes to no exit. -/
inductive Main {Node : Type} [DecidableEq Node] (m : Machine Node) (faults : Prop) (args : List (List Char))
    (w : World Node) : Exit → World Node → Prop where
  /-- `unwrap` of an error (main.rs:20), or a panic of the parser -/
  | refused : (∀ t, mainTask m.setup.chk m.uniDigit m.parseF64 args ≠ .ok t) → Main m faults args w .panic w
  /-- main.rs:31-48 -/
  | exported {files tables} :
      mainTask m.setup.chk m.uniDigit m.parseF64 args = .ok (.exportTraversals files) →
      exportAll { opened := fun p => w.images (m.host.node p), creates := m.creates } m.setup.scan m.setup.chk files w.tables =
        (.ok (), tables) →
      Main m faults args w .success { w with tables }
  | exportStops {files tables} :
      mainTask m.setup.chk m.uniDigit m.parseF64 args = .ok (.exportTraversals files) →
      exportAll { opened := fun p => w.images (m.host.node p), creates := m.creates } m.setup.scan m.setup.chk files w.tables =
        (.panic, tables) →
      Main m faults args w .panic { w with tables }
  /-- `csv_writer(codec)?` and `unwrap` (bench.rs:21, main.rs:68) -/
  | noReport {c files} :
      mainTask m.setup.chk m.uniDigit m.parseF64 args = .ok (.benchmark c files) →
      m.creates (reportPath m.showF64 c) = false → Main m faults args w .panic w
  /-- all images have been worked on, and the report is flushed (bench.rs:78-82) -/
  | measured {c files s} :
      mainTask m.setup.chk m.uniDigit m.parseF64 args = .ok (.benchmark c files) →
      m.creates (reportPath m.showF64 c) = true →
      Run.Reachable m.host m.setup m.fuel c files faults (m.created (reportPath m.showF64 c) w) s →
      s.bench.Finished files.length → s.Halted →
      Main m faults args w .success
        { w with images := s.disk, reports := replaced w.reports (reportPath m.showF64 c) (some s.bench.file) }
  /-- the report cannot be flushed (bench.rs:81, main.rs:68); some of it may be missing -/
  | notFlushed {c files s part} :
      mainTask m.setup.chk m.uniDigit m.parseF64 args = .ok (.benchmark c files) →
      m.creates (reportPath m.showF64 c) = true →
      Run.Reachable m.host m.setup m.fuel c files faults (m.created (reportPath m.showF64 c) w) s →
      s.bench.Finished files.length → s.Halted → faults → part <+: s.bench.file →
      Main m faults args w .panic
        { w with images := s.disk, reports := replaced w.reports (reportPath m.showF64 c) (some part) }
  /-- the work on some image panicked; `for_each` passes it on (bench.rs:27-78) -/
  | imagePanics {c files s i} :
      mainTask m.setup.chk m.uniDigit m.parseF64 args = .ok (.benchmark c files) →
      m.creates (reportPath m.showF64 c) = true →
      Run.Reachable m.host m.setup m.fuel c files faults (m.created (reportPath m.showF64 c) w) s →
      i < files.length → s.bench.pc i = .panicked → (∀ j, j < files.length → s.Settled j) → s.Halted →
      Main m faults args w .panic
        { w with images := s.disk, reports := replaced w.reports (reportPath m.showF64 c) (some s.bench.file) }

end Cniic
