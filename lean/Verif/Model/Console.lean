import Verif.Model.Bench

/-!
# Model of `src/bench.rs` on a console that does not take everything

`println!` and `eprintln!` panic if the standard output or the standard error cannot be written (a pipe whose reader has gone,
a full disk).  Which prints fail is arbitrary, image by image.  The texts and how the lines of different images mix are left
out.
-/

namespace Cniic

/-- Which prints succeed while an image is worked on. -/
structure Console where
  /-- `Processing ...` (bench.rs:29), standard output -/
  processing : Bool
  /-- all that `encode` prints, if it prints anything (hilbertc.rs:34,41,133, kmeans.rs:33,118-120,317,401-412,
  dict.rs:387-398,537, back.rs:67,78,236,312), standard output -/
  encoding   : Bool
  /-- the sizes (bench.rs:38,42), standard output -/
  sizes      : Bool
  /-- what `Hufman::decode` prints when it fails (hufc.rs:30,32), standard error -/
  decoding   : Bool
  /-- `Saved to ...` (bench.rs:55), standard error -/
  saved      : Bool
  /-- the error printed at the end (bench.rs:108), standard error -/
  complaint  : Bool
  deriving DecidableEq

/-- Whether `encode` prints anything: `Hufman` (hufc.rs:12-17) and `Delta` (hilbertc.rs:405-415) do not. -/
def AnyCodec.printsEncoding : AnyCodec → Bool
  | .hufman => false
  | .delta => false
  | _ => true

/-- Whether `decode` may print: `Hufman` (hufc.rs:19-38) and `ClusterColors`, which calls it (clusterc.rs:55-57). -/
def AnyCodec.printsDecoding : AnyCodec → Bool
  | .hufman => true
  | .clusterColors _ => true
  | _ => false

/-- bench.rs:50-60: the picture has been saved before that is printed. -/
def checkOnConsole (k : Console) (c : AnyCodec) (j : Job) (decoded : RgbImage) (error : F64) :
    Ret Failure Unit × Option RgbImage :=
  if error.isZero then (.ok (), none)
  else if j.saves then
    if k.saved then
      if c.isLossless then (.err .mismatch, some decoded) else (.ok (), some decoded)
    else (.panic, some decoded)
  else (.err .save, none)

/-- bench.rs:29-60, with the prints. -/
def measureOnConsole (k : Console) (p : Setup) (fuel : Nat) (c : AnyCodec) (j : Job) : Ret Failure Row × Option RgbImage :=
  if !k.processing then (.panic, none)
  else
    match j.opened with
    | none => (.err .open, none)
    | some img =>
      if c.printsEncoding && !k.encoding then (.panic, none)
      else
        match c.encode p fuel img with
        | .err _ => (.err .endless, none)
        | .panic => (.panic, none)
        | .ok m =>
          match bytesOf m with
          | .err _ => (.err .encode, none)
          | .panic => (.panic, none)
          | .ok data =>
            if !k.sizes then (.panic, none)
            else
              match rawSize p.chk img with
              | none => (.panic, none)
              | some raw =>
                match c.decode p data with
                | .err _ => if c.printsDecoding && !k.decoding then (.panic, none) else (.err .decode, none)
                | .panic => (.panic, none)
                | .ok decoded =>
                  match computeError p.out.fl p.chk img decoded with
                  | none => (.panic, none)
                  | some error =>
                    match checkOnConsole k c j decoded error with
                    | (.ok _, saved) =>
                      (.ok { name := j.name, size := data.length
                             ratio := p.out.fl.scale (ratio p.out.fl data.length raw) 100, error := error }, saved)
                    | (.err e, saved) => (.err e, saved)
                    | (.panic, saved) => (.panic, saved)

/-- One step of the workers.  When the work on an image has returned `Err`, the lock has been given back, and `print_err`
(bench.rs:78,106-111) may panic. -/
inductive Bench.ConStep (n : Nat) (result : Nat → Ret Failure Row) (complaint : Nat → Bool) (faults : Prop) :
    Bench → Bench → Prop where
  | step {s t} : Bench.Step n result faults s t → ConStep n result complaint faults s t
  | complain {s i} : s.pc i = .done false → complaint i = false →
      ConStep n result complaint faults s (s.set i .panicked)

/-- The states that some schedule reaches. -/
inductive Bench.ConReachable (n : Nat) (result : Nat → Ret Failure Row) (complaint : Nat → Bool) (faults : Prop) :
    Bench → Prop where
  | start : ConReachable n result complaint faults .start
  | step {s t} : ConReachable n result complaint faults s → ConStep n result complaint faults s t →
      ConReachable n result complaint faults t

end Cniic
