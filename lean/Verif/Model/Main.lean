import Verif.Model.Codec
import Verif.Model.Hilbert

/-!
# Model of `src/main.rs`, the names of the codecs and the paths of the files

Text is a list of characters.  `std::env::args` panics when an argument is not Unicode; such arguments are not modelled.
Paths are those of Unix.  `Display for f64` is the parameter `showF64`.

Of the files, the traversals exported by `--special=hilbert` are modelled (`Files`); the report of the benchmark is in
`Model/Bench.lean`.  Opening an image (`image::open`) and whether a file can be created are parameters (`Disk`).  Not
modelled: a fault while the rows are written (it is a panic and leaves an incomplete file), quoting in the CSV format (no
field needs it).
-/

namespace Cniic

/-! ## Paths -/

/-- The parts between the separators `/`. -/
def splitSlash : List Char → List (List Char)
  | [] => [[]]
  | c :: cs =>
    match splitSlash cs with
    | [] => [[c]]
    | w :: ws => if c = '/' then [] :: w :: ws else (c :: w) :: ws

/-- `Path::file_name` (used in main.rs:93): the last component, unless it is `..` or the root.  Empty components and `.` do
not count. -/
def fileName (p : List Char) : Option (List Char) :=
  match (splitSlash p).reverse.dropWhile fun c => c == [] || c == ['.'] with
  | [] => none
  | c :: _ => if c = ['.', '.'] then none else some c

/-- The text before and after the last `.`. -/
def rsplitDot : List Char → Option (List Char × List Char)
  | [] => none
  | c :: cs =>
    match rsplitDot cs with
    | some (a, b) => some (c :: a, b)
    | none => if c = '.' then some ([], cs) else none

/-- `Path::file_stem` for a path that ends in this file name (used by `set_extension` in main.rs:94): a `.` at the
beginning does not start an extension. -/
def fileStem (name : List Char) : List Char :=
  match rsplitDot name with
  | none => name
  | some (a, _) => if a = [] then name else a

/-- `under_output` (main.rs:91-96); `none` is a panic.  `set_extension` replaces what follows the stem by `.` and the new
extension, which is never empty here. -/
def underOutput (p : List Char) (ext : List Char) : Option (List Char) :=
  (fileName p).map fun name => "output/".toList ++ fileStem name ++ '.' :: ext

/-! ## Names -/

/-- `Display` for an unsigned integer. -/
def showNat (n : Nat) : List Char := Nat.toDigits 10 n

/-- `Codec::name` (codec.rs:80-86, clusterc.rs:59-61,191-193, hilbertc.rs:81-87,433-435, hufc.rs:42-44, zipc.rs:50-55). -/
def AnyCodec.name (showF64 : F64 → List Char) : AnyCodec → List Char
  | .clusterColors n => "cluster-colors_".toList ++ showNat n.toNat
  | .voronoi n => "voronoi_".toList ++ showNat n.toNat
  | .delta => "delta".toList
  | .hilbert (.rle d) => if d.isZero then "hilbert-rle".toList else "hilbert-rle-approx_".toList ++ showF64 d
  | .hilbert .zip => "hilbert-zip".toList
  | .hufman => "Hufman".toList
  | .zip .dict => "zip-dict".toList
  | .zip .back => "zip-back".toList

/-- The path of the report (`csv_writer`, bench.rs:85-91). -/
def reportPath (showF64 : F64 → List Char) (c : AnyCodec) : List Char :=
  "output/".toList ++ c.name showF64 ++ ".csv".toList

/-! ## The command line -/

/-- The messages of `main.rs`. -/
inductive Msg where
  /-- `usage()` (main.rs:84-89) -/
  | usage
  /-- main.rs:51 -/
  | invalidSpecial (s : List Char)
  /-- main.rs:63 -/
  | malformedCodec (e : Prs.ParseError)

/-- What the program sets out to do. -/
inductive Task where
  /-- main.rs:32-48 -/
  | exportTraversals (files : List (List Char))
  /-- main.rs:68 -/
  | benchmark (c : AnyCodec) (files : List (List Char))
  deriving DecidableEq

/-- `str::strip_prefix`. -/
def stripPrefix (pre s : List Char) : Option (List Char) :=
  if pre.isPrefixOf s then some (s.drop pre.length) else none

/-- `separate_args` (main.rs:74-82); the first of `args` is the name of the program. -/
def separateArgs (args : List (List Char)) : Ret Msg (List Char × List (List Char)) :=
  match args.drop 1 with
  | [] => .err .usage
  | command :: files => .ok (command, files)

/-- `try_special` (main.rs:23-55) up to the work itself. -/
def trySpecial (args : List (List Char)) : Ret Msg Task :=
  match separateArgs args with
  | .err e => .err e
  | .panic => .panic
  | .ok (command, files) =>
    match stripPrefix "--special=".toList command with
    | none => .err .usage
    | some s => if s = "hilbert".toList then .ok (.exportTraversals files) else .err (.invalidSpecial s)

/-- `try_bench` (main.rs:57-70) up to the work itself. -/
def tryBench (chk : Bool) (uniDigit : Char → Bool) (parseF64 : List Char → Option F64) (args : List (List Char)) :
    Ret Msg Task :=
  match separateArgs args with
  | .err e => .err e
  | .panic => .panic
  | .ok (command, files) =>
    match stripPrefix "--codec=".toList command with
    | none => .err .usage
    | some s =>
      match anyCodecFromStr chk uniDigit parseF64 s with
      | .ok c => .ok (.benchmark c files)
      | .err e => .err (.malformedCodec e)
      | .panic => .panic

/-- `main` (main.rs:17-21) up to the work itself.  The work of `try_special` ends in `Ok` or in a panic, so `or_else` does
not follow it.  An `err` is a panic with this message. -/
def mainTask (chk : Bool) (uniDigit : Char → Bool) (parseF64 : List Char → Option F64) (args : List (List Char)) :
    Ret Msg Task :=
  match trySpecial args with
  | .err _ => tryBench chk uniDigit parseF64 args
  | r => r

/-! ## Exporting the traversals -/

/-- The files: the records of the one with a given path. -/
abbrev Files := List Char → Option (List (List (List Char)))

/-- What the export takes from outside. -/
structure Disk where
  /-- `image::open` -/
  opened : List Char → Option Img
  /-- whether `csv::Writer::from_path` succeeds -/
  creates : List Char → Bool

/-- The header (main.rs:38). -/
def traversalHeader : List (List Char) := ["red".toList, "blue".toList, "green".toList]

/-- `csv.serialize(px.to_rgb().0)` (main.rs:40): an array becomes one record. -/
def traversalRow (px : Rgba) : List (List Char) :=
  let c := px.toRgb
  [showNat c.r.toNat, showNat c.g.toNat, showNat c.b.toNat]

/-- `write_to_csv` (main.rs:34-41), where the argument `iter` is evaluated first (main.rs:45-47).  The traversal is lazy in
the code; here it is computed at once, so a traversal that leaves the image writes nothing here. -/
def writeToCsv (disk : Disk) (iter : Option (List Rgba)) (path meth : List Char) : Proc Msg Files Unit := fun fs =>
  match iter with
  | none => (.panic, fs)
  | some ps =>
    match underOutput path (meth ++ ".hilbert.csv".toList) with
    | none => (.panic, fs)
    | some out =>
      if disk.creates out then
        (.ok (), fun p => if p = out then some (traversalHeader :: ps.map traversalRow) else fs p)
      else (.panic, fs)

/-- The closure for one image (main.rs:33-48). -/
def exportImage (disk : Disk) (scan : Scan) (chk : Bool) (path : List Char) : Proc Msg Files Unit := fun fs =>
  match disk.opened path with
  | none => (.panic, fs)
  | some img =>
    (do writeToCsv disk (linearize scan img) path "rect".toList
        writeToCsv disk (linearizeSmall scan chk img) path "small".toList
        writeToCsv disk (linearizeLarge scan chk img) path "large".toList : Proc Msg Files Unit) fs

/-- The loop over the images (main.rs:32-48). -/
def exportAll (disk : Disk) (scan : Scan) (chk : Bool) (paths : List (List Char)) : Proc Msg Files Unit :=
  Proc.forEach (exportImage disk scan chk) paths

end Cniic
