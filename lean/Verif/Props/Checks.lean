import Verif.Proofs.ChecksCount
import Verif.Props.Quality
import Verif.Props.Reproduce

/-!
# C93: overflow checks only turn results into panics

A debug build checks for overflow, a release build does not.  Wherever a debug build does not panic, a release build does the
same: the arithmetic, the clustering, the parser and the program have no other dependence on the mode of compilation.
-/

namespace Cniic
open Kmeans Prs

/-- **C93**, encoders: unless the debug build panics, both write the same (or both do not end). -/
theorem C93_encode (p : Setup) (fuel : Nat) (c : AnyCodec) (img : Img) (h : c.encode p.debug fuel img ≠ .panic) :
    c.encode p.release fuel img = c.encode p.debug fuel img :=
  ((encode_checks p fuel c img).resolve_left h).symm

/-- **C93**, decoders, on any bytes. -/
theorem C93_decode (p : Setup) (c : AnyCodec) (file : List UInt8) (h : c.decode p.debug file ≠ .panic) :
    c.decode p.release file = c.decode p.debug file :=
  ((decode_checks p c file).resolve_left h).symm

/-- **C93**, parser, on any argument. -/
theorem C93_parse (ud : Char → Bool) (pf : List Char → Option F64) (s : List Char)
    (h : anyCodecFromStr true ud pf s ≠ .panic) : anyCodecFromStr false ud pf s = anyCodecFromStr true ud pf s :=
  ((parse_checks ud pf s).resolve_left h).symm

/-- **C93**, rows: a row of the report of a debug build is that of a release build, and so is the saved picture; where a
release build panics, so does a debug build. -/
theorem C93_row (p : Setup) (fuel : Nat) (c : AnyCodec) (j : Job) :
    ((measureOne p.debug fuel c j).1 ≠ .panic → measureOne p.release fuel c j = measureOne p.debug fuel c j) ∧
    ((measureOne p.release fuel c j).1 = .panic → (measureOne p.debug fuel c j).1 = .panic) := by
  refine ⟨fun h => ((measureOne_checks p fuel c j).resolve_left h).symm, fun h => ?_⟩
  rcases measureOne_checks p fuel c j with h' | h'
  · exact h'
  · rw [h']; exact h

/-- The same machine with other codecs. -/
def Machine.compiled {Node : Type} (m : Machine Node) (p : Setup) : Machine Node := { m with setup := p }

/-- **C93**, the program: whatever a debug build can do without a panic, a release build can do, too: the same exit, report,
tables and pictures. -/
theorem C93_program {Node : Type} [DecidableEq Node] {m : Machine Node} {faults : Prop} {args : List (List Char)}
    {w w' : World Node} (h : Main (m.compiled m.setup.debug) faults args w .success w') :
    Main (m.compiled m.setup.release) faults args w .success w' := by
  have task : ∀ {t}, mainTask true m.uniDigit m.parseF64 args = .ok t → mainTask false m.uniDigit m.parseF64 args = .ok t := by
    intro t ht
    rcases mainTask_checks m.uniDigit m.parseF64 args with h | h
    · rw [h] at ht; cases ht
    · rw [← h]; exact ht
  cases h with
  | exported h1 h2 =>
    refine .exported (task h1) ?_
    rename_i files tables
    rcases exportAll_checks { opened := fun p => w.images (m.host.node p), creates := m.creates } m.setup.scan files w.tables
      with h | h
    · exact absurd ((congrArg Prod.fst h2).symm.trans h) (by simp)
    · exact h.symm.trans h2
  | measured h1 h2 h3 h4 h5 =>
    exact .measured (task h1) h2 (Run.reachable_checks h3 (Run.finished_no_panic h3 h4)) h4 h5

/-- **C93**, counters: the same with the counters that only feed messages (C86, C87): those of clustering, and those of the
statistics of the dictionary, whatever the writer `s`. -/
theorem C93_counters (p : Setup) (fuel : Nat) (n : UInt64) (img : Img) :
    (clusterColorsEncodeCount p.out true p.orderColor p.orderRgb p.heapRgb fuel n img ≠ .panic →
      clusterColorsEncodeCount p.out false p.orderColor p.orderRgb p.heapRgb fuel n img =
        clusterColorsEncodeCount p.out true p.orderColor p.orderRgb p.heapRgb fuel n img) ∧
    (voronoiEncodeCount p.out true fuel n img ≠ .panic →
      voronoiEncodeCount p.out false fuel n img = voronoiEncodeCount p.out true fuel n img) ∧
    (∀ s, (zipEncodeStats true img s).1 ≠ .panic → zipEncodeStats false img s = zipEncodeStats true img s) ∧
    (∀ s, (hilbertZipEncodeStats true p.scan img s).1 ≠ .panic →
      hilbertZipEncodeStats false p.scan img s = hilbertZipEncodeStats true p.scan img s) :=
  ⟨fun h => ((clusterColorsEncodeCount_checks _ _ _ _ _ _ _).resolve_left h).symm,
   fun h => ((voronoiEncodeCount_checks _ _ _ _).resolve_left h).symm,
   fun s h => ((zipEncodeStats_checks img s).resolve_left h).symm,
   fun s h => ((hilbertZipEncodeStats_checks p.scan img s).resolve_left h).symm⟩

/-- Whether there is a row. -/
def hasRow (r : Ret Failure Row × Option RgbImage) : Bool :=
  match r.1 with
  | .ok _ => true
  | _ => false

theorem hasRow_ok {r : Ret Failure Row × Option RgbImage} (h : hasRow r = true) : ∃ row, r.1 = .ok row := by
  obtain ⟨r | e | _, d⟩ := r
  · exact ⟨r, rfl⟩
  · cases h
  · cases h

/-- **C93**: the converse does not hold.  A release build may give a row where a debug build panics. -/
theorem C93_strict : ∃ (p : Setup) (fuel : Nat) (c : AnyCodec) (j : Job) (row : Row),
    p.Lawful ∧ (measureOne p.release fuel c j).1 = .ok row ∧ (measureOne p.debug fuel c j).1 = .panic := by
  obtain ⟨row, h⟩ := hasRow_ok (r := measureOne ExtremeExamples.release.release 9 (.voronoi 2)
    ⟨"a.png", some (redRow [255, 0] (by decide)), true⟩) (by decide +kernel)
  exact ⟨_, _, _, _, row, ExtremeExamples.release_lawful, h, by decide +kernel⟩

/-! ## Non-trivial cases -/

namespace ChecksExamples
open ExtremeExamples ProgramExamples RunExamples

/-- C93: a debug build reduces the colours of a picture, so a release build gives the same row. -/
example : ∃ row, (measureOne release.debug 9 (.clusterColors 2) ⟨"a.png", some (redRow [8, 10, 5, 0, 6, 7] (by decide)), true⟩).1 =
      .ok row ∧
    (measureOne release.release 9 (.clusterColors 2) ⟨"a.png", some (redRow [8, 10, 5, 0, 6, 7] (by decide)), true⟩).1 =
      .ok row := by
  obtain ⟨row, h⟩ := hasRow_ok (r := measureOne release.debug 9 (.clusterColors 2)
    ⟨"a.png", some (redRow [8, 10, 5, 0, 6, 7] (by decide)), true⟩) (by decide +kernel)
  refine ⟨row, h, ?_⟩
  rw [(C93_row release 9 (.clusterColors 2) _).1 (by rw [h]; simp)]
  exact h

/-- C93, encoder: the two builds write the same. -/
example : (AnyCodec.voronoi 1).encode release.release 9 (redRow [8] (by decide)) =
    (AnyCodec.voronoi 1).encode release.debug 9 (redRow [8] (by decide)) := by
  obtain ⟨m, _, _, h, -⟩ := outcomeOf_some (p := release.debug) (fuel := 9) (c := .voronoi 1) (img := redRow [8] (by decide))
    (l := 35) (e := 0) (by decide +kernel)
  exact C93_encode _ _ _ _ (by rw [h]; simp)

/-- C93, decoder: a picture of 2 × 1 pixels with its centroid on the right. -/
example : (AnyCodec.voronoi 1).decode release.release (Spec.voronoiBytes 2 1 [⟨1, 0, ⟨7, 8, 9⟩⟩]) =
    .ok ⟨2, 1, [⟨7, 8, 9⟩, ⟨7, 8, 9⟩]⟩ := by
  have h : (AnyCodec.voronoi 1).decode release.debug (Spec.voronoiBytes 2 1 [⟨1, 0, ⟨7, 8, 9⟩⟩]) =
    .ok ⟨2, 1, [⟨7, 8, 9⟩, ⟨7, 8, 9⟩]⟩ := by decide +kernel
  rw [C93_decode _ _ _ (by rw [h]; simp)]
  exact h

/-- C93, parser: an argument that a debug build understands. -/
example : anyCodecFromStr false (fun _ => false) (fun _ => none) "hilbert(rle)".toList = .ok (.hilbert (.rle (.fin 0))) := by
  have h : anyCodecFromStr true (fun _ => false) (fun _ => none) "hilbert(rle)".toList = .ok (.hilbert (.rle (.fin 0))) := rfl
  rw [C93_parse _ _ _ (by rw [h]; simp)]
  exact h

/-- C93, counters: the clustering of a debug build ends within the range of its counters. -/
example : ∃ m, clusterColorsEncodeCount release.out true release.orderColor release.orderRgb release.heapRgb 9 2
      (redRow [8, 10, 5, 0, 6, 7] (by decide)) = .ok m ∧
    clusterColorsEncodeCount release.out false release.orderColor release.orderRgb release.heapRgb 9 2
      (redRow [8, 10, 5, 0, 6, 7] (by decide)) = .ok m := by
  have hx : (match clusterColorsEncodeCount release.out true release.orderColor release.orderRgb release.heapRgb 9 2
      (redRow [8, 10, 5, 0, 6, 7] (by decide)) with | .ok _ => true | _ => false) = true := by decide +kernel
  obtain ⟨h, -⟩ := C93_counters release 9 2 (redRow [8, 10, 5, 0, 6, 7] (by decide))
  revert hx h
  generalize clusterColorsEncodeCount release.out true release.orderColor release.orderRgb release.heapRgb 9 2
      (redRow [8, 10, 5, 0, 6, 7] (by decide)) = r
  intro hx h
  rcases r with m | e | _
  · exact ⟨m, rfl, h (by simp)⟩
  · cases hx
  · cases hx

/-- A debug build. -/
def debugMachine : Machine (List Char) := machine.compiled machine.setup.debug

/-- How the export ends in a debug build, and what it leaves. -/
def exported : Ret Msg Unit × Files :=
  exportAll { opened := fun p => world.images (debugMachine.host.node p), creates := debugMachine.creates }
    debugMachine.setup.scan debugMachine.setup.chk ["a/cat.png".toList] world.tables

theorem exported_ok : exported.1 = .ok () := by
  have h : (match exported.1 with | .ok () => true | _ => false) = true := by decide +kernel
  generalize exported.1 = r at h
  rcases r with u | e | _
  · rfl
  · cases h
  · cases h

/-- C93, program: a debug build exports the traversals of an image, so a release build can do the same. -/
example : Main (machine.compiled machine.setup.release) False
    ["cniic".toList, "--special=hilbert".toList, "a/cat.png".toList] world .success { world with tables := exported.2 } := by
  have h1 : mainTask debugMachine.setup.chk debugMachine.uniDigit debugMachine.parseF64
      ["cniic".toList, "--special=hilbert".toList, "a/cat.png".toList] = .ok (.exportTraversals ["a/cat.png".toList]) :=
    (C68_export _ _ _ _ _).2 ⟨_, rfl⟩
  have h2 : exportAll { opened := fun p => world.images (debugMachine.host.node p), creates := debugMachine.creates }
      debugMachine.setup.scan debugMachine.setup.chk ["a/cat.png".toList] world.tables = (.ok (), exported.2) := by
    rw [← exported_ok]
    unfold exported
    exact (Prod.eta _).symm
  have h3 : Main debugMachine False ["cniic".toList, "--special=hilbert".toList, "a/cat.png".toList] world .success
      { world with tables := exported.2 } := Main.exported h1 h2
  exact C93_program (m := machine) h3

end ChecksExamples

end Cniic
