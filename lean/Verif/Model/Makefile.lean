import Verif.Model.Program

/-!
# Model of `Makefile` and of the choice of files in `scripts/`

The rules that run the program (Makefile:63-98), as far as reports are concerned: which file make expects (`Rule.target`) and
the commands it runs (`Rule.recipe`).  `$*` is the stem `s`.  Not modelled: when make decides to run a rule, the shell (the stem
is taken to have no character with a meaning inside double quotes), `touch` (it creates a file that is no report), and the
drawing of the diagrams.  The images are the files of `data/DIV2K_valid_HR` (Makefile:27), here any list.
-/

namespace Cniic

/-- The rules. -/
inductive Rule where
  /-- Makefile:63-64 -/
  | hufman
  /-- Makefile:69-71 -/
  | restore
  /-- Makefile:73-75 -/
  | clusterColors
  /-- Makefile:77-79 -/
  | voronoi
  /-- Makefile:81-82 -/
  | zipDict
  /-- Makefile:84-86 -/
  | zipBack
  /-- Makefile:88-89 -/
  | hilbertRle
  /-- Makefile:91-92 -/
  | hilbertApprox
  /-- Makefile:94-95 -/
  | hilbertZip
  /-- Makefile:97-98 -/
  | delta
  deriving DecidableEq

/-- The commands in the recipes. -/
inductive Command where
  /-- `$(CARGO_RUN) --codec=... $(DATASET)` (Makefile:26-27) -/
  | bench (codec : List Char)
  /-- `cp a b` -/
  | cp (a b : List Char)

/-- The file that the rule is to make (Makefile:30-31,33,63,69,73,77,81,84,88,91,94,97). -/
def Rule.target (r : Rule) (s : List Char) : List Char :=
  match r with
  | .hufman => "output/Hufman.csv".toList
  | .restore => "output/".toList ++ s ++ ".cp".toList
  | .clusterColors => "output/cluster-colors_".toList ++ s ++ ".csv.bak".toList
  | .voronoi => "output/voronoi_".toList ++ s ++ ".csv.bak".toList
  | .zipDict => "output/zip-dict.csv".toList
  | .zipBack => "output/zip-back.csv.bak".toList
  | .hilbertRle => "output/hilbert-rle.csv".toList
  | .hilbertApprox => "output/hilbert-rle-approx_".toList ++ s ++ ".csv".toList
  | .hilbertZip => "output/hilbert-zip.csv".toList
  | .delta => "output/delta.csv".toList

/-- The recipe (Makefile:64,70,74-75,78-79,82,85-86,89,92,95,98). -/
def Rule.recipe (r : Rule) (s : List Char) : List Command :=
  match r with
  | .hufman => [.bench "hufman".toList]
  | .restore => [.cp ("output/".toList ++ s ++ ".bak".toList) ("output/".toList ++ s)]
  | .clusterColors =>
    [.bench ("cluster-colors(".toList ++ s ++ ")".toList),
     .cp ("output/cluster-colors_".toList ++ s ++ ".csv".toList) ("output/cluster-colors_".toList ++ s ++ ".csv.bak".toList)]
  | .voronoi =>
    [.bench ("voronoi(".toList ++ s ++ ")".toList),
     .cp ("output/voronoi_".toList ++ s ++ ".csv".toList) ("output/cluster-colors_".toList ++ s ++ ".csv.bak".toList)]
  | .zipDict => [.bench "zip(dict)".toList]
  | .zipBack => [.bench "zip(back)".toList, .cp "output/zip-back.csv".toList "output/zip-back.csv.bak".toList]
  | .hilbertRle => [.bench "hilbert(rle)".toList]
  | .hilbertApprox => [.bench ("hilbert(rle(".toList ++ s ++ "))".toList)]
  | .hilbertZip => [.bench "hilbert(zip)".toList]
  | .delta => [.bench "delta".toList]

/-- The commands of a recipe one after the other, all of them succeeding; make stops at the first that fails. -/
inductive Ran {Node : Type} [DecidableEq Node] (m : Machine Node) (faults : Prop) (files : List (List Char)) :
    List Command → World Node → World Node → Prop where
  | done {w} : Ran m faults files [] w w
  | bench {prog codec cmds w w1 w2} :
      Main m faults (prog :: ("--codec=".toList ++ codec) :: files) w .success w1 →
      Ran m faults files cmds w1 w2 → Ran m faults files (.bench codec :: cmds) w w2
  | cp {a b rs cmds w w2} :
      w.reports a = some rs →
      Ran m faults files cmds { w with images := m.created b w, reports := replaced w.reports b (some rs) } w2 →
      Ran m faults files (.cp a b :: cmds) w w2

/-- The files in the diagrams (`diagram_csvs`, scripts/cniic.py:10-12), by their name in the directory `output`.  `glob` does not
match names that begin with a dot. -/
def diagramCsv (name : List Char) : Bool :=
  ".csv".toList.isSuffixOf name && !".".toList.isPrefixOf name && !".hilbert.csv".toList.isSuffixOf name

/-- The series to which a file belongs (scripts/diagrams/error_vs_compression_plot.py:14-16); `os.path.splitext` cuts where
`Path::file_stem` does. -/
def seriesOf (name : List Char) : List Char := (fileStem name).takeWhile (· ≠ '_')

end Cniic
