import Verif.Model.Bench
import Verif.Model.Main

/-!
# Model of `measure_all` in `src/bench.rs` with the files

The workers of `Model/Bench.lean` together with the files they read and write.  A path leads to a file; several paths may lead
to the same file.  A file is what `image::open` makes of it.  Reading and saving a picture are single steps: a picture that is
read while it is being written is not modelled.  Creating the report (bench.rs:21) has succeeded.
-/

namespace Cniic

/-- What a run takes from outside besides the initial files. -/
structure Host (Node : Type) where
  /-- which file a path leads to -/
  node     : List Char → Node
  /-- whether saving a picture in this file succeeds -/
  writable : Node → Bool
  /-- `image::open` of a picture saved with `save` -/
  reopen   : RgbImage → Option Img

/-- The work on one image given what `image::open` returned (bench.rs:33-60).  Where no path for the picture can be made,
`under_output` panics (main.rs:93), if it is called (bench.rs:50-52).  The name is that of the path: it is valid Unicode, being a
`String` (main.rs:74, bench.rs:73). -/
def workOn {Node : Type} (host : Host Node) (p : Setup) (fuel : Nat) (c : AnyCodec) (path : List Char)
    (opened : Option Img) : Ret Failure Row × Option RgbImage :=
  match underOutput path "png".toList with
  | some out => measureOne p fuel c { name := String.ofList path, opened := opened, saves := host.writable (host.node out) }
  | none =>
    match measureOne p fuel c { name := String.ofList path, opened := opened, saves := true } with
    | (_, some _) => (.panic, none)
    | r => r

/-- The file that gets the picture of an image (bench.rs:52). -/
def Host.pictureOf {Node : Type} (host : Host Node) (path : List Char) : Option Node :=
  (underOutput path "png".toList).map host.node

/-- The state of a run. -/
structure Run (Node : Type) where
  disk   : Node → Option Img
  /-- what `image::open` returned for each image, once it did (bench.rs:30) -/
  read   : Nat → Option (Option Img)
  /-- the outcome of the work on each image up to the lock (bench.rs:33-60), once it is done -/
  result : Nat → Option (Ret Failure Row)
  /-- the report and the lock -/
  bench  : Bench

/-- Before the first step (bench.rs:20-27). -/
def Run.start {Node : Type} (disk : Node → Option Img) : Run Node :=
  { disk, read := fun _ => none, result := fun _ => none, bench := .start }

/-- Replaces the value at one place. -/
def replaced {α β : Type} [DecidableEq α] (f : α → β) (a : α) (b : β) : α → β := fun x => if x = a then b else f x

/-- The files after the work on an image: its picture may have been saved (bench.rs:52-55). -/
def savedTo {Node : Type} [DecidableEq Node] (host : Host Node) (path : List Char) (pic : Option RgbImage)
    (disk : Node → Option Img) : Node → Option Img :=
  match pic, host.pictureOf path with
  | some d, some f => replaced disk f (host.reopen d)
  | _, _ => disk

/-- One step of a run. -/
inductive Run.Step {Node : Type} [DecidableEq Node] (host : Host Node) (p : Setup) (fuel : Nat) (c : AnyCodec)
    (paths : List (List Char)) (faults : Prop) : Run Node → Run Node → Prop where
  /-- `image::open` (bench.rs:30) -/
  | read {s i path} : paths[i]? = some path → s.read i = none →
      Step host p fuel c paths faults s { s with read := replaced s.read i (some (s.disk (host.node path))) }
  /-- bench.rs:33-60 -/
  | work {s i path opened} : paths[i]? = some path → s.read i = some opened → s.result i = none →
      Step host p fuel c paths faults s
        { s with result := replaced s.result i (some (workOn host p fuel c path opened).1)
                 disk := savedTo host path (workOn host p fuel c path opened).2 s.disk }
  /-- returning early, or writing to the report (bench.rs:62-76); only images whose work is done take part -/
  | report {s b} : Bench.Step paths.length (fun i => (s.result i).getD .panic) faults s.bench b →
      (∀ j, b.pc j ≠ s.bench.pc j → s.result j ≠ none) →
      Step host p fuel c paths faults s { s with bench := b }

/-- The states that some schedule reaches. -/
inductive Run.Reachable {Node : Type} [DecidableEq Node] (host : Host Node) (p : Setup) (fuel : Nat) (c : AnyCodec)
    (paths : List (List Char)) (faults : Prop) (disk : Node → Option Img) : Run Node → Prop where
  | start : Reachable host p fuel c paths faults disk (.start disk)
  | step {s t} : Reachable host p fuel c paths faults disk s → Step host p fuel c paths faults s t →
      Reachable host p fuel c paths faults disk t

end Cniic
