import Verif.Model.AnyCodec

/-!
# Model of `src/bench.rs`

The work on one image (`measureOne`) and, as a transition system, the workers that share the report file.

Not modelled: console output; `image::open`, the conversion of a path to text and whether a picture can be saved are
inputs (`Job`).
-/

namespace Cniic

/-! ## Arithmetic -/

/-- `a * b` on `u32`. -/
def u32Mul (chk : Bool) (a b : UInt32) : Option UInt32 :=
  if chk && decide (2 ^ 32 ≤ a.toNat * b.toNat) then none else some (a * b)

/-- `a / b` on `f64` for finite `a`, and `b` zero or finite. -/
def FloatOps.quot (fl : FloatOps) (a b : Rat) : F64 :=
  if b = 0 then
    if a = 0 then .nan else if 0 < a then .posInf else .negInf
  else .fin (fl.div a b)

/-- `x * b` on `f64` for finite `b > 0`. -/
def FloatOps.scale (fl : FloatOps) (x : F64) (b : Rat) : F64 :=
  match x with
  | .fin q => .fin (fl.mul q b)
  | x => x

/-- `Iterator::sum` on `f64`. -/
def FloatOps.sum (fl : FloatOps) (xs : List Rat) : Rat := xs.foldl fl.add 0

/-! ## One image -/

/-- `compute_error` (bench.rs:95-104).  Both lists of pixels come row by row; `zip` stops at the end of the shorter one.
`none` is a panic. -/
def computeError (fl : FloatOps) (chk : Bool) (x : Img) (y : RgbImage) : Option F64 := do
  let tot := fl.sum ((x.rgbPixels.zip y.pixels).map fun (px, py) => fl.powi2 (rgbDist fl px py))
  let n ← u32Mul chk x.width x.height
  some (fl.quot tot n.toNat)

/-- What the work on one image takes from outside. -/
structure Job where
  /-- `p.to_str().unwrap_or("???")` -/
  name   : String
  /-- `image::open` -/
  opened : Option Img
  /-- whether saving a picture succeeds -/
  saves  : Bool

/-- A row of the report (bench.rs:74). -/
structure Row where
  name  : String
  size  : Nat
  ratio : F64
  error : F64
  deriving DecidableEq

/-- Why there is no row for an image. -/
inductive Failure where
  | open
  | encode
  | decode
  | save
  | mismatch
  /-- clustering has not ended -/
  | endless
  deriving DecidableEq

/-- bench.rs:50-60, given the error; the second part of the result is the picture written to a file. -/
def checkDecoded (c : AnyCodec) (j : Job) (decoded : RgbImage) (error : F64) : Ret Failure Unit × Option RgbImage :=
  if error.isZero then (.ok (), none)
  else if j.saves then
    if c.isLossless then (.err .mismatch, some decoded) else (.ok (), some decoded)
  else (.err .save, none)

/-- The sizes and the ratio (bench.rs:37-43); `none` is a panic. -/
def rawSize (chk : Bool) (img : Img) : Option UInt32 := do
  let n ← u32Mul chk img.width img.height
  u32Mul chk n 24

/-- bench.rs:43. -/
def ratio (fl : FloatOps) (compressed : Nat) (raw : UInt32) : F64 := fl.quot (fl.rnd compressed) raw.toNat

/-- The work on one image up to the point where the report is locked (bench.rs:29-60), and the row to be written. -/
def measureOne (p : Setup) (fuel : Nat) (c : AnyCodec) (j : Job) : Ret Failure Row × Option RgbImage :=
  match j.opened with
  | none => (.err .open, none)
  | some img =>
    match c.encode p fuel img with
    | .err _ => (.err .endless, none)
    | .panic => (.panic, none)
    | .ok m =>
      match bytesOf m with
      | .err _ => (.err .encode, none)
      | .panic => (.panic, none)
      | .ok data =>
        match rawSize p.chk img with
        | none => (.panic, none)
        | some raw =>
          match c.decode p data with
          | .err _ => (.err .decode, none)
          | .panic => (.panic, none)
          | .ok decoded =>
            match computeError p.out.fl p.chk img decoded with
            | none => (.panic, none)
            | some error =>
              match checkDecoded c j decoded error with
              | (.ok _, saved) =>
                (.ok { name := j.name, size := data.length
                       ratio := p.out.fl.scale (ratio p.out.fl data.length raw) 100, error := error }, saved)
              | (.err e, saved) => (.err e, saved)
              | (.panic, saved) => (.panic, saved)

/-! ## The report -/

/-- A record of the report file. -/
inductive Record where
  /-- `name,compressed_size,compression_ratio,error` (bench.rs:68) -/
  | header
  | row (r : Row)
  deriving DecidableEq

/-- How far the work on an image has come. -/
inductive Pc where
  /-- not started or before the lock (bench.rs:29-60) -/
  | working
  /-- holds the lock, before the test in bench.rs:67 -/
  | locked
  /-- holds the lock, before the row is written in bench.rs:74 -/
  | headed
  /-- returned `Ok` or `Err` -/
  | done (ok : Bool)
  | panicked
  deriving DecidableEq

/-- The shared state (bench.rs:20-22) and how far each image is. -/
structure Bench where
  /-- which image holds the lock -/
  lock   : Option Nat
  wroteHeader : Bool
  file   : List Record
  pc     : Nat → Pc

/-- Before the first step (bench.rs:20-27). -/
def Bench.start : Bench := { lock := none, wroteHeader := false, file := [], pc := fun _ => .working }

def Bench.set (s : Bench) (i : Nat) (pc : Pc) : Bench := { s with pc := fun j => if j = i then pc else s.pc j }

/-- One step of the work on image `i` out of `n`.  `result i` is the outcome of `measureOne`.  Writing a record may
fail if `faults` holds; it then has no effect on the file.  The guard is dropped at the end of the closure. -/
inductive Bench.Step (n : Nat) (result : Nat → Ret Failure Row) (faults : Prop) : Bench → Bench → Prop where
  /-- an `Err` before the lock -/
  | fail {s i e} : i < n → s.pc i = .working → result i = .err e → Step n result faults s (s.set i (.done false))
  /-- a panic before the lock -/
  | panic {s i} : i < n → s.pc i = .working → result i = .panic → Step n result faults s (s.set i .panicked)
  /-- `writer_state.write()` (bench.rs:62) -/
  | lock {s i r} : i < n → s.pc i = .working → result i = .ok r → s.lock = none →
      Step n result faults s { s.set i .locked with lock := some i }
  /-- bench.rs:67-71 -/
  | header {s i} : s.pc i = .locked → s.wroteHeader = false →
      Step n result faults s { s.set i .headed with file := s.file ++ [.header], wroteHeader := true }
  | headerFails {s i} : faults → s.pc i = .locked → s.wroteHeader = false →
      Step n result faults s { s.set i (.done false) with lock := none }
  /-- bench.rs:67, the header has been written -/
  | skip {s i} : s.pc i = .locked → s.wroteHeader = true → Step n result faults s (s.set i .headed)
  /-- bench.rs:73-76 -/
  | row {s i r} : s.pc i = .headed → result i = .ok r →
      Step n result faults s { s.set i (.done true) with file := s.file ++ [.row r], lock := none }
  | rowFails {s i} : faults → s.pc i = .headed →
      Step n result faults s { s.set i (.done false) with lock := none }

/-- The states that some schedule reaches. -/
inductive Bench.Reachable (n : Nat) (result : Nat → Ret Failure Row) (faults : Prop) : Bench → Prop where
  | start : Reachable n result faults .start
  | step {s t} : Reachable n result faults s → Step n result faults s t → Reachable n result faults t

/-- All images have been worked on (the end of `for_each`). -/
def Bench.Finished (n : Nat) (s : Bench) : Prop := ∀ i, i < n → ∃ ok, s.pc i = .done ok

end Cniic
