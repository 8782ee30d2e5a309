import Verif.Proofs.Main
import Verif.Props.Codecs
import Verif.Props.Parse

/-!
# C68, C69, C70, C71: the command line, the exported traversals, paths and names
-/

namespace Cniic
open Spec Prs

/-! ## C68 -/

theorem stripPrefix_iff {pre s t : List Char} : stripPrefix pre s = some t ↔ s = pre ++ t := by
  unfold stripPrefix
  by_cases h : pre.isPrefixOf s = true
  · obtain ⟨u, rfl⟩ := List.isPrefixOf_iff_prefix.1 h
    simp only [h, if_true, List.drop_left, Option.some.injEq, List.append_cancel_left_eq]
  · simp only [h]
    constructor
    · intro h'; cases h'
    · rintro rfl
      exact absurd (List.isPrefixOf_iff_prefix.2 ⟨t, rfl⟩) h

theorem stripPrefix_none {pre s : List Char} : stripPrefix pre s = none ↔ ¬ pre <+: s := by
  unfold stripPrefix
  by_cases h : pre.isPrefixOf s = true
  · have := List.isPrefixOf_iff_prefix.1 h
    simp [h, this]
  · simpa [h] using fun h' => h (List.isPrefixOf_iff_prefix.2 h')

theorem not_both {s t : List Char} : "--special=".toList ++ s ≠ "--codec=".toList ++ t := by
  intro h
  have := congrArg (fun l => l[2]?) h
  simp at this

/-- What `main` does with at least one argument. -/
theorem mainTask_cons (chk : Bool) (uniDigit : Char → Bool) (parseF64 : List Char → Option F64)
    (prog command : List Char) (files : List (List Char)) :
    mainTask chk uniDigit parseF64 (prog :: command :: files) =
      if command = "--special=hilbert".toList then .ok (.exportTraversals files)
      else tryBench chk uniDigit parseF64 (prog :: command :: files) := by
  unfold mainTask trySpecial
  simp only [separateArgs, List.drop_succ_cons, List.drop_zero]
  cases h : stripPrefix "--special=".toList command with
  | none =>
    rw [if_neg]
    rintro rfl
    exact absurd ⟨"hilbert".toList, rfl⟩ (stripPrefix_none.1 h)
  | some s =>
    have := stripPrefix_iff.1 h
    subst this
    by_cases hs : s = "hilbert".toList
    · subst hs; rfl
    · have hne : ¬ "--special=".toList ++ s = "--special=hilbert".toList := by
        intro he
        exact hs (List.append_cancel_left (he.trans (by rfl : _ = "--special=".toList ++ "hilbert".toList)))
      simp only [hs, hne, if_false]

theorem tryBench_cons (chk : Bool) (uniDigit : Char → Bool) (parseF64 : List Char → Option F64)
    (prog command : List Char) (files : List (List Char)) :
    (¬ "--codec=".toList <+: command →
      tryBench chk uniDigit parseF64 (prog :: command :: files) = .err .usage) ∧
    ∀ s, command = "--codec=".toList ++ s → tryBench chk uniDigit parseF64 (prog :: command :: files) =
      match anyCodecFromStr chk uniDigit parseF64 s with
      | .ok c => .ok (.benchmark c files)
      | .err e => .err (.malformedCodec e)
      | .panic => .panic := by
  unfold tryBench
  simp only [separateArgs, List.drop_succ_cons, List.drop_zero]
  constructor
  · intro h
    rw [stripPrefix_none.2 h]
  · intro s h
    rw [stripPrefix_iff.2 h]
    rfl

/-- **C68.** The traversals are exported exactly if the first argument is `--special=hilbert`; the images are the other
arguments. -/
theorem C68_export (chk : Bool) (uniDigit : Char → Bool) (parseF64 : List Char → Option F64)
    (args files : List (List Char)) :
    mainTask chk uniDigit parseF64 args = .ok (.exportTraversals files) ↔
      ∃ prog, args = prog :: "--special=hilbert".toList :: files := by
  match args with
  | [] => simp [mainTask, trySpecial, tryBench, separateArgs]
  | [p] => simp [mainTask, trySpecial, tryBench, separateArgs]
  | p :: command :: fs =>
    rw [mainTask_cons]
    by_cases h : command = "--special=hilbert".toList
    · simp [h]
    · rw [if_neg h]
      constructor
      · intro h'
        by_cases hc : "--codec=".toList <+: command
        · obtain ⟨s, rfl⟩ := hc
          rw [(tryBench_cons chk uniDigit parseF64 p _ fs).2 s rfl] at h'
          cases ha : anyCodecFromStr chk uniDigit parseF64 s <;> rw [ha] at h' <;> simp at h'
        · rw [(tryBench_cons chk uniDigit parseF64 p command fs).1 hc] at h'
          simp at h'
      · rintro ⟨prog, he⟩
        simp only [List.cons.injEq] at he
        exact absurd he.2.1 h

/-- **C68.** A codec is benchmarked exactly if the first argument is `--codec=` followed by text that selects this codec;
the images are the other arguments. -/
theorem C68_benchmark (chk : Bool) (uniDigit : Char → Bool) (parseF64 : List Char → Option F64)
    (args files : List (List Char)) (c : AnyCodec) :
    mainTask chk uniDigit parseF64 args = .ok (.benchmark c files) ↔
      ∃ prog s, args = prog :: ("--codec=".toList ++ s) :: files ∧ anyCodecFromStr chk uniDigit parseF64 s = .ok c := by
  match args with
  | [] => simp [mainTask, trySpecial, tryBench, separateArgs]
  | [p] => simp [mainTask, trySpecial, tryBench, separateArgs]
  | p :: command :: fs =>
    rw [mainTask_cons]
    by_cases h : command = "--special=hilbert".toList
    · subst h
      simp only [if_true]
      constructor
      · intro h'; simp at h'
      · rintro ⟨prog, s, he, _⟩
        simp only [List.cons.injEq] at he
        exact absurd he.2.1 (not_both (s := "hilbert".toList))
    · rw [if_neg h]
      by_cases hc : "--codec=".toList <+: command
      · obtain ⟨s, rfl⟩ := hc
        rw [(tryBench_cons chk uniDigit parseF64 p _ fs).2 s rfl]
        constructor
        · intro h'
          cases ha : anyCodecFromStr chk uniDigit parseF64 s with
          | ok c' =>
            rw [ha] at h'
            simp only [Ret.ok.injEq, Task.benchmark.injEq] at h'
            exact ⟨p, s, by rw [h'.2], by rw [ha, h'.1]⟩
          | err e => rw [ha] at h'; simp at h'
          | panic => rw [ha] at h'; simp at h'
        · rintro ⟨prog, t, he, ht⟩
          simp only [List.cons.injEq, List.append_cancel_left_eq] at he
          rw [he.2.1, ht, he.2.2]
      · rw [(tryBench_cons chk uniDigit parseF64 p command fs).1 hc]
        constructor
        · intro h'; simp at h'
        · rintro ⟨prog, s, he, _⟩
          simp only [List.cons.injEq] at he
          exact absurd ⟨s, he.2.1.symm⟩ hc

/-- **C68.** In all other cases the program panics before any work.  The message is about the codec exactly if the first
argument starts with `--codec=`, else it is the usage message: also for an unknown command after `--special=`. -/
theorem C68_otherwise (chk : Bool) (uniDigit : Char → Bool) (parseF64 : List Char → Option F64)
    (args : List (List Char)) :
    (mainTask chk uniDigit parseF64 args = .err .usage ↔
      ∀ prog command files, args = prog :: command :: files →
        command ≠ "--special=hilbert".toList ∧ ¬ "--codec=".toList <+: command) ∧
    (∀ e, mainTask chk uniDigit parseF64 args = .err (.malformedCodec e) ↔
      ∃ prog s files, args = prog :: ("--codec=".toList ++ s) :: files ∧
        anyCodecFromStr chk uniDigit parseF64 s = .err e) ∧
    (mainTask chk uniDigit parseF64 args = .panic ↔
      ∃ prog s files, args = prog :: ("--codec=".toList ++ s) :: files ∧
        anyCodecFromStr chk uniDigit parseF64 s = .panic) ∧
    ∀ s, mainTask chk uniDigit parseF64 args ≠ .err (.invalidSpecial s) := by
  match args with
  | [] => simp [mainTask, trySpecial, tryBench, separateArgs]
  | [p] => simp [mainTask, trySpecial, tryBench, separateArgs]
  | p :: command :: fs =>
    rw [mainTask_cons]
    by_cases h : command = "--special=hilbert".toList
    · subst h
      have hno : ∀ s, "--special=hilbert".toList ≠ "--codec=".toList ++ s := fun s => not_both (s := "hilbert".toList)
      simp only [if_true, reduceCtorEq, false_iff, ne_eq, not_false_eq_true, implies_true, and_true]
      refine ⟨fun h => (h _ _ _ rfl).1 rfl, ?_, ?_⟩
      · rintro e ⟨prog, s, files, he, _⟩
        simp only [List.cons.injEq] at he
        exact hno s he.2.1
      · rintro ⟨prog, s, files, he, _⟩
        simp only [List.cons.injEq] at he
        exact hno s he.2.1
    · rw [if_neg h]
      by_cases hc : "--codec=".toList <+: command
      · obtain ⟨s, rfl⟩ := hc
        rw [(tryBench_cons chk uniDigit parseF64 p _ fs).2 s rfl]
        refine ⟨⟨?_, fun h' => absurd ⟨s, rfl⟩ (h' _ _ _ rfl).2⟩, fun e => ⟨?_, ?_⟩, ⟨?_, ?_⟩, fun t => ?_⟩
        · cases ha : anyCodecFromStr chk uniDigit parseF64 s <;> simp
        · cases ha : anyCodecFromStr chk uniDigit parseF64 s <;> intro h' <;> simp at h'
          subst h'
          exact ⟨p, s, fs, rfl, ha⟩
        · rintro ⟨prog, t, files, he, ht⟩
          simp only [List.cons.injEq, List.append_cancel_left_eq] at he
          rw [he.2.1, ht]
        · cases ha : anyCodecFromStr chk uniDigit parseF64 s <;> intro h' <;> simp at h'
          exact ⟨p, s, fs, rfl, ha⟩
        · rintro ⟨prog, t, files, he, ht⟩
          simp only [List.cons.injEq, List.append_cancel_left_eq] at he
          rw [he.2.1, ht]
        · cases ha : anyCodecFromStr chk uniDigit parseF64 s <;> simp
      · rw [(tryBench_cons chk uniDigit parseF64 p command fs).1 hc]
        refine ⟨⟨fun _ prog cmd files he => ?_, fun _ => rfl⟩, fun e => ⟨fun h' => by simp at h', ?_⟩,
          ⟨fun h' => by simp at h', ?_⟩, fun t => by simp⟩
        · simp only [List.cons.injEq] at he
          rw [← he.2.1]
          exact ⟨h, hc⟩
        · rintro ⟨prog, s, files, he, _⟩
          simp only [List.cons.injEq] at he
          exact absurd ⟨s, he.2.1.symm⟩ hc
        · rintro ⟨prog, s, files, he, _⟩
          simp only [List.cons.injEq] at he
          exact absurd ⟨s, he.2.1.symm⟩ hc

/-- **C68.** The message about an unknown command is made, and lost. -/
theorem C68_message_lost (chk : Bool) (uniDigit : Char → Bool) (parseF64 : List Char → Option F64)
    (prog s : List Char) (files : List (List Char)) (hs : s ≠ "hilbert".toList) :
    trySpecial (prog :: ("--special=".toList ++ s) :: files) = .err (.invalidSpecial s) ∧
    mainTask chk uniDigit parseF64 (prog :: ("--special=".toList ++ s) :: files) = .err .usage := by
  constructor
  · unfold trySpecial
    simp only [separateArgs, List.drop_succ_cons, List.drop_zero]
    rw [stripPrefix_iff.2 rfl]
    simp only [hs, if_false]
  · rw [(C68_otherwise chk uniDigit parseF64 _).1]
    intro prog' command files' he
    simp only [List.cons.injEq] at he
    rw [← he.2.1]
    refine ⟨fun h => hs (List.append_cancel_left (h.trans (by rfl : _ = "--special=".toList ++ "hilbert".toList))), ?_⟩
    rintro ⟨t, ht⟩
    exact not_both ht.symm

/-- The four outcomes. -/
example : mainTask true (fun _ => false) (fun _ => none) ["cniic".toList, "--codec=zip(back)".toList, "a.png".toList] =
      .ok (.benchmark (.zip .back) ["a.png".toList]) :=
  (C68_benchmark _ _ _ _ _ _).2 ⟨_, "zip(back)".toList, rfl, rfl⟩
example : mainTask true (fun _ => false) (fun _ => none) ["cniic".toList, "--special=hilbert".toList, "a.png".toList] =
      .ok (.exportTraversals ["a.png".toList]) := (C68_export _ _ _ _ _).2 ⟨_, rfl⟩
example : mainTask true (fun _ => false) (fun _ => none) ["cniic".toList, "--special=zorder".toList] = .err .usage :=
  (C68_message_lost true _ _ _ "zorder".toList [] (by decide)).2
example : mainTask true (fun _ => false) (fun _ => none) ["cniic".toList] = .err .usage := rfl

/-! ## C70 -/

/-- **C70.** A result for an image goes directly into the directory `output`, under the stem of the name of the image and
the given extension; nothing else of the path matters.  A path without a file name is a panic. -/
theorem C70_path (p e q : List Char) :
    (underOutput p e = some q ↔ ∃ n s, IsFileName p n ∧ IsStem n s ∧ q = "output/".toList ++ s ++ '.' :: e) ∧
    (underOutput p e = none ↔ ∀ n, ¬ IsFileName p n) := by
  unfold underOutput
  constructor
  · rw [Option.map_eq_some_iff]
    constructor
    · rintro ⟨n, hn, rfl⟩
      exact ⟨n, fileStem n, (fileName_iff p n).1 hn, (fileStem_iff n _).1 rfl, rfl⟩
    · rintro ⟨n, s, hn, hs, rfl⟩
      exact ⟨n, (fileName_iff p n).2 hn, by rw [(fileStem_iff n s).2 hs]⟩
  · rw [Option.map_eq_none_iff]
    constructor
    · intro h n hn
      rw [(fileName_iff p n).2 hn] at h
      cases h
    · intro h
      cases hf : fileName p with
      | none => rfl
      | some n => exact absurd ((fileName_iff p n).1 hf) (h n)

/-- **C70.** The name and its stem are determined by the path; the stem is not empty and has no separator. -/
theorem C70_determined {p n n' s s' : List Char} (h : IsFileName p n) (h' : IsFileName p n') (hs : IsStem n s)
    (hs' : IsStem n' s') : n = n' ∧ s = s' ∧ s ≠ [] ∧ '/' ∉ s := by
  have e : n = n' := Option.some.inj (((fileName_iff p n).2 h).symm.trans ((fileName_iff p n').2 h'))
  subst e
  have e1 := (fileStem_iff n s).2 hs
  have e2 := (fileStem_iff n s').2 hs'
  have := stem_of_fileName h
  rw [e1] at this
  exact ⟨rfl, e1.symm.trans e2, this⟩

/-- **C70.** Two images get the same path for a result exactly if their names have the same stem, whatever their
directories and extensions. -/
theorem C70_collision {p n s p' n' s' : List Char} (e : List Char) (h : IsFileName p n) (hs : IsStem n s)
    (h' : IsFileName p' n') (hs' : IsStem n' s') : underOutput p e = underOutput p' e ↔ s = s' := by
  rw [((C70_path p e _).1).2 ⟨n, s, h, hs, rfl⟩, ((C70_path p' e _).1).2 ⟨n', s', h', hs', rfl⟩]
  simp

/-- **C70.** The decoded picture takes the place of the image itself exactly if the image is a `.png` file directly in
`output`. -/
theorem C70_overwrites (p : List Char) : underOutput p "png".toList = some p ↔
    ∃ s, s ≠ [] ∧ '/' ∉ s ∧ p = "output/".toList ++ s ++ ".png".toList := by
  constructor
  · intro h
    obtain ⟨n, s, hn, hs, hp⟩ := (C70_path p _ p).1.1 h
    obtain ⟨_, _, h0, h1⟩ := C70_determined hn hn hs hs
    exact ⟨s, h0, h1, hp⟩
  · rintro ⟨s, h0, h1, hp⟩
    refine (C70_path p _ p).1.2 ⟨s ++ ".png".toList, s, ⟨"output/".toList, [], ?_, .inr ⟨"output".toList, rfl⟩, by simp, ?_,
      by simp, ?_, ?_⟩, .inl ⟨h0, "png".toList, by decide, rfl⟩, hp⟩
    · rw [hp]; simp
    · simp [h1]
    · intro h
      have := congrArg List.length h
      simp at this
    · intro h
      have := congrArg List.length h
      simp at this

/-- Directory and extension are dropped; two pictures with one stem share their result. -/
example : underOutput "photos/2020/cat.old.jpg".toList "png".toList = some "output/cat.old.png".toList := by
  decide +kernel
example : underOutput "a/cat.jpg".toList "png".toList = underOutput "b/cat.bmp".toList "png".toList := by decide +kernel
/-- A name that starts with a dot; a path that ends in a separator; the parent directory. -/
example : underOutput ".cat".toList "png".toList = some "output/.cat.png".toList := by decide +kernel
example : underOutput "a/cat.jpg/./".toList "png".toList = some "output/cat.png".toList := by decide +kernel
example : underOutput "a/..".toList "png".toList = none := by decide +kernel
/-- The hypotheses of C70 are met. -/
example : IsFileName "a/cat.jpg".toList "cat.jpg".toList ∧ IsStem "cat.jpg".toList "cat".toList :=
  ⟨(fileName_iff _ _).1 (by decide +kernel), (fileStem_iff _ _).1 (by decide +kernel)⟩
example : underOutput "output/cat.png".toList "png".toList = some "output/cat.png".toList := by decide +kernel

/-! ## C69 -/

/-- The three traversals of an image. -/
def traversals (scan : Scan) (chk : Bool) (img : Img) : List (List Char × Option (List Rgba)) :=
  [("rect".toList, linearize scan img), ("small".toList, linearizeSmall scan chk img),
   ("large".toList, linearizeLarge scan chk img)]

/-- The path of a traversal. -/
def traversalPath (p meth : List Char) : Option (List Char) := underOutput p (meth ++ ".hilbert.csv".toList)

/-- The names of the traversals. -/
def traversalNames : List (List Char) := ["rect".toList, "small".toList, "large".toList]

/-- **C69.** Different traversals, and traversals of images with different stems, go to different files. -/
theorem C69_paths_distinct {p p' m m' q : List Char} (hm : m ∈ traversalNames) (hm' : m' ∈ traversalNames)
    (h : traversalPath p m = some q) (h' : traversalPath p' m' = some q) :
    m = m' ∧ (fileName p).map fileStem = (fileName p').map fileStem := by
  have hd : ∀ m ∈ traversalNames, '.' ∉ m := by decide
  unfold traversalPath underOutput at h h'
  rw [Option.map_eq_some_iff] at h h'
  obtain ⟨n, hn, rfl⟩ := h
  obtain ⟨n', hn', he⟩ := h'
  rw [List.append_assoc, List.append_assoc] at he
  have h2 := List.append_cancel_left he
  rw [← List.cons_append, ← List.append_assoc, ← List.cons_append, ← List.append_assoc] at h2
  have h3 := List.append_cancel_right h2
  have a : rsplitDot (fileStem n ++ '.' :: m) = some (fileStem n, m) := rsplitDot_some.2 ⟨rfl, hd m hm⟩
  have b : rsplitDot (fileStem n' ++ '.' :: m') = some (fileStem n', m') := rsplitDot_some.2 ⟨rfl, hd m' hm'⟩
  rw [h3, a] at b
  simp only [Option.some.injEq, Prod.mk.injEq] at b
  exact ⟨b.2, by rw [hn, hn']; simp [b.1]⟩

theorem writeToCsv_ok {disk : Disk} {iter : Option (List Rgba)} {p m : List Char} {fs fs' : Files}
    (h : writeToCsv disk iter p m fs = (.ok (), fs')) :
    ∃ ps out, iter = some ps ∧ traversalPath p m = some out ∧ disk.creates out = true ∧
      fs' = fun q => if q = out then some (traversalHeader :: ps.map traversalRow) else fs q := by
  unfold writeToCsv at h
  cases iter with
  | none => simp at h
  | some ps =>
    cases ho : underOutput p (m ++ ".hilbert.csv".toList) with
    | none => rw [ho] at h; simp at h
    | some out =>
      rw [ho] at h
      by_cases hc : disk.creates out = true
      · simp only [hc, if_true, Prod.mk.injEq, true_and] at h
        exact ⟨ps, out, rfl, ho, hc, h.symm⟩
      · simp [hc] at h

theorem writeToCsv_run {disk : Disk} {ps : List Rgba} {p m out : List Char} (fs : Files)
    (h : traversalPath p m = some out) (hc : disk.creates out = true) :
    writeToCsv disk (some ps) p m fs =
      (.ok (), fun q => if q = out then some (traversalHeader :: ps.map traversalRow) else fs q) := by
  unfold traversalPath at h
  unfold writeToCsv
  rw [h]
  simp [hc]

/-- Other files stay as they are. -/
theorem writeToCsv_other (disk : Disk) (iter : Option (List Rgba)) (p m : List Char) (fs : Files) (q : List Char)
    (h : traversalPath p m ≠ some q) : (writeToCsv disk iter p m fs).2 q = fs q := by
  unfold traversalPath at h
  unfold writeToCsv
  cases iter with
  | none => rfl
  | some ps =>
    cases ho : underOutput p (m ++ ".hilbert.csv".toList) with
    | none => rfl
    | some out =>
      rw [ho] at h
      by_cases hc : disk.creates out = true
      · have : q ≠ out := fun e => h (by rw [e])
        simp [hc, this]
      · simp [hc]

theorem snd_bind {ε σ α β : Type} (m : Proc ε σ α) (f : α → Proc ε σ β) (s : σ) (P : σ → Prop) (h1 : P (m s).2)
    (h2 : ∀ a s', m s = (.ok a, s') → P (f a s').2) : P ((m >>= f) s).2 := by
  rw [Proc.bind_def]
  cases hm : m s with
  | mk r s' =>
    rw [hm] at h1
    cases r with
    | ok a => exact h2 a s' hm
    | err e => exact h1
    | panic => exact h1

theorem exportImage_other (disk : Disk) (scan : Scan) (chk : Bool) (p : List Char) (fs : Files) (q : List Char)
    (h : ∀ m ∈ traversalNames, traversalPath p m ≠ some q) : (exportImage disk scan chk p fs).2 q = fs q := by
  unfold exportImage
  cases disk.opened p with
  | none => rfl
  | some img =>
    have w := fun iter m (hm : m ∈ traversalNames) s => writeToCsv_other disk iter p m s q (h m hm)
    refine snd_bind _ _ _ (fun s : Files => s q = fs q) (w _ _ (by decide) _) fun _ s1 h1 => ?_
    have e1 : s1 q = fs q := by
      have := w (linearize scan img) "rect".toList (by decide) fs
      rw [h1] at this
      exact this
    refine snd_bind _ _ _ (fun s : Files => s q = fs q) ((w _ _ (by decide) _).trans e1) fun _ s2 h2 => ?_
    have e2 : s2 q = s1 q := by
      have := w (linearizeSmall scan chk img) "small".toList (by decide) s1
      rw [h2] at this
      exact this
    exact (w _ _ (by decide) _).trans (e2.trans e1)

/-- **C69.** Whatever happens, only files with the path of a traversal of one of the images change. -/
theorem C69_other_files (disk : Disk) (scan : Scan) (chk : Bool) (paths : List (List Char)) (fs : Files) (q : List Char)
    (h : ∀ p ∈ paths, ∀ m ∈ traversalNames, traversalPath p m ≠ some q) :
    (exportAll disk scan chk paths fs).2 q = fs q := by
  unfold exportAll
  induction paths generalizing fs with
  | nil => rfl
  | cons p paths ih =>
    rw [Proc.forEach_cons]
    have e := exportImage_other disk scan chk p fs q (h p (by simp))
    refine snd_bind _ _ _ (fun s : Files => s q = fs q) e fun _ s1 h1 => ?_
    rw [h1] at e
    exact (ih s1 fun p' hp' => h p' (by simp [hp'])).trans e

theorem exportImage_ok {disk : Disk} {scan : Scan} {chk : Bool} {p : List Char} {fs fs' : Files}
    (h : exportImage disk scan chk p fs = (.ok (), fs')) :
    ∃ img, disk.opened p = some img ∧ ∀ m iter, (m, iter) ∈ traversals scan chk img →
      ∃ ps out, iter = some ps ∧ traversalPath p m = some out ∧
        fs' out = some (traversalHeader :: ps.map traversalRow) := by
  unfold exportImage at h
  cases ho : disk.opened p with
  | none => rw [ho] at h; simp at h
  | some img =>
    rw [ho] at h
    refine ⟨img, rfl, ?_⟩
    simp only [Proc.bind_def] at h
    cases h1 : writeToCsv disk (linearize scan img) p "rect".toList fs with
    | mk r1 s1 =>
    rw [h1] at h
    cases r1 with
    | err e => simp at h
    | panic => simp at h
    | ok _ =>
    simp only at h
    cases h2 : writeToCsv disk (linearizeSmall scan chk img) p "small".toList s1 with
    | mk r2 s2 =>
    rw [h2] at h
    cases r2 with
    | err e => simp at h
    | panic => simp at h
    | ok _ =>
    simp only at h
    obtain ⟨ps1, o1, i1, t1, _, f1⟩ := writeToCsv_ok h1
    obtain ⟨ps2, o2, i2, t2, _, f2⟩ := writeToCsv_ok h2
    obtain ⟨ps3, o3, i3, t3, _, f3⟩ := writeToCsv_ok h
    have n12 : o1 ≠ o2 := fun e => absurd (C69_paths_distinct (by decide) (by decide) t1 (e ▸ t2)).1 (by decide)
    have n13 : o1 ≠ o3 := fun e => absurd (C69_paths_distinct (by decide) (by decide) t1 (e ▸ t3)).1 (by decide)
    have n23 : o2 ≠ o3 := fun e => absurd (C69_paths_distinct (by decide) (by decide) t2 (e ▸ t3)).1 (by decide)
    intro m iter hm
    simp only [traversals, List.mem_cons, Prod.mk.injEq, List.not_mem_nil, or_false] at hm
    rcases hm with ⟨rfl, rfl⟩ | ⟨rfl, rfl⟩ | ⟨rfl, rfl⟩
    · exact ⟨ps1, o1, i1, t1, by rw [f3, f2, f1]; simp [n12, n13]⟩
    · exact ⟨ps2, o2, i2, t2, by rw [f3, f2]; simp [n23]⟩
    · exact ⟨ps3, o3, i3, t3, by rw [f3]; simp⟩

/-- **C69.** When the export ends regularly, there are three files for each image whose stem does not occur again in the
rest of the list: the header and then one record for each pixel, in the order of the traversal. -/
theorem C69_files {disk : Disk} {scan : Scan} {chk : Bool} {pre post : List (List Char)} {p : List Char} {fs fs' : Files}
    (h : exportAll disk scan chk (pre ++ p :: post) fs = (.ok (), fs'))
    (hlast : ∀ q ∈ post, (fileName q).map fileStem ≠ (fileName p).map fileStem) :
    ∃ img, disk.opened p = some img ∧ ∀ m iter, (m, iter) ∈ traversals scan chk img →
      ∃ ps out, iter = some ps ∧ traversalPath p m = some out ∧
        fs' out = some (traversalHeader :: ps.map traversalRow) := by
  unfold exportAll at h
  rw [Proc.forEach_append, Proc.bind_def] at h
  cases h1 : Proc.forEach (exportImage disk scan chk) pre fs with
  | mk r1 s1 =>
  rw [h1] at h
  cases r1 with
  | err e => simp at h
  | panic => simp at h
  | ok _ =>
  simp only [Proc.forEach_cons, Proc.bind_def] at h
  cases h2 : exportImage disk scan chk p s1 with
  | mk r2 s2 =>
  rw [h2] at h
  cases r2 with
  | err e => simp at h
  | panic => simp at h
  | ok _ =>
  simp only at h
  obtain ⟨img, hi, hf⟩ := exportImage_ok h2
  refine ⟨img, hi, fun m iter hm => ?_⟩
  obtain ⟨ps, out, e1, e2, e3⟩ := hf m iter hm
  refine ⟨ps, out, e1, e2, ?_⟩
  have hmn : m ∈ traversalNames := by
    simp only [traversals, List.mem_cons, Prod.mk.injEq, List.not_mem_nil, or_false] at hm
    rcases hm with ⟨rfl, _⟩ | ⟨rfl, _⟩ | ⟨rfl, _⟩ <;> decide
  have := C69_other_files disk scan chk post s2 out fun q hq m' hm' he =>
    hlast q hq (C69_paths_distinct hm' hmn he e2).2
  unfold exportAll at this
  rw [h] at this
  exact this.trans e3

theorem exportImage_run {disk : Disk} {scan : Scan} {chk : Bool} {p n : List Char} {img : Img} (fs : Files)
    (hn : IsFileName p n) (ho : disk.opened p = some img) (hw : img.width.toNat ≤ 2 ^ 31)
    (hh : img.height.toNat ≤ 2 ^ 31) (hc : ∀ q, disk.creates q = true) (hs : ∀ w h, VisitsOnce scan w h) :
    ∃ fs', exportImage disk scan chk p fs = (.ok (), fs') := by
  have hp : ∀ m, ∃ out, traversalPath p m = some out := fun m =>
    ⟨_, (C70_path p _ _).1.2 ⟨n, _, hn, (fileStem_iff n _).1 rfl, rfl⟩⟩
  obtain ⟨o1, t1⟩ := hp "rect".toList
  obtain ⟨o2, t2⟩ := hp "small".toList
  obtain ⟨o3, t3⟩ := hp "large".toList
  obtain ⟨ps1, l1, _⟩ := C52_linearize scan img (hs _ _)
  obtain ⟨ps2, l2⟩ : ∃ ps, linearizeSmall scan chk img = some ps := by
    by_cases h2 : img.width.toNat < 2 ∨ img.height.toNat < 2
    · exact ⟨[], C52_linearize_small_thin chk img hw hh h2 scan (hs _ _)⟩
    · obtain ⟨k, _, hk⟩ := C52_linearize_small chk img hw hh (by omega) (by omega)
      obtain ⟨ps, hps, _⟩ := hk scan (hs _ _)
      exact ⟨ps, hps⟩
  obtain ⟨k, _, hk⟩ := C52_linearize_large chk img hw hh
  obtain ⟨ps3, l3, _⟩ := hk scan (hs _ _)
  unfold exportImage
  rw [ho]
  simp only [l1, l2, l3, Proc.bind_def, writeToCsv_run _ t1 (hc _), writeToCsv_run _ t2 (hc _),
    writeToCsv_run _ t3 (hc _)]
  exact ⟨_, rfl⟩

/-- **C69.** The export ends regularly if all paths name images with dimensions up to 2^31 that can be opened, and all
files can be created. -/
theorem C69_completes {disk : Disk} {scan : Scan} (chk : Bool) (paths : List (List Char)) (fs : Files)
    (hp : ∀ p ∈ paths, (∃ n, IsFileName p n) ∧
      ∃ img, disk.opened p = some img ∧ img.width.toNat ≤ 2 ^ 31 ∧ img.height.toNat ≤ 2 ^ 31)
    (hc : ∀ q, disk.creates q = true) (hs : ∀ w h, VisitsOnce scan w h) :
    ∃ fs', exportAll disk scan chk paths fs = (.ok (), fs') := by
  unfold exportAll
  induction paths generalizing fs with
  | nil => exact ⟨fs, rfl⟩
  | cons p paths ih =>
    obtain ⟨⟨n, hn⟩, img, ho, hw, hh⟩ := hp p (by simp)
    obtain ⟨s1, h1⟩ := exportImage_run (chk := chk) fs hn ho hw hh hc hs
    obtain ⟨fs', h2⟩ := ih s1 fun p' hp' => hp p' (by simp [hp'])
    exact ⟨fs', by rw [Proc.forEach_cons, Proc.bind_ok h1, h2]⟩

/-- **C69.** An image that cannot be opened ends the program: the images before it have been exported, those after it are
not looked at. -/
theorem C69_stops {disk : Disk} {scan : Scan} {chk : Bool} {pre : List (List Char)} {p : List Char}
    (post : List (List Char)) {fs fs' : Files} (h : exportAll disk scan chk pre fs = (.ok (), fs'))
    (hp : disk.opened p = none) : exportAll disk scan chk (pre ++ p :: post) fs = (.panic, fs') := by
  unfold exportAll at h ⊢
  rw [Proc.forEach_append, Proc.bind_ok h, Proc.forEach_cons]
  apply Proc.bind_panic
  unfold exportImage
  rw [hp]

/-- **C69.** The columns of a file: the one called `blue` has the green values and the one called `green` the blue
ones. -/
theorem C69_columns (ps : List Rgba) :
    column "red".toList (traversalHeader :: ps.map traversalRow) = ps.map (fun p => some (showNat p.r.toNat)) ∧
    column "blue".toList (traversalHeader :: ps.map traversalRow) = ps.map (fun p => some (showNat p.g.toNat)) ∧
    column "green".toList (traversalHeader :: ps.map traversalRow) = ps.map (fun p => some (showNat p.b.toNat)) := by
  have h1 : traversalHeader.idxOf "red".toList = 0 := by decide
  have h2 : traversalHeader.idxOf "blue".toList = 1 := by decide
  have h3 : traversalHeader.idxOf "green".toList = 2 := by decide
  simp only [column, List.map_map, h1, h2, h3]
  exact ⟨rfl, rfl, rfl⟩

/-- **C69.** So the columns carry the values they name exactly if green and blue agree in every pixel. -/
theorem C69_mislabelled (ps : List Rgba) :
    (column "blue".toList (traversalHeader :: ps.map traversalRow) = ps.map (fun p => some (showNat p.b.toNat)) ∧
     column "green".toList (traversalHeader :: ps.map traversalRow) = ps.map (fun p => some (showNat p.g.toNat))) ↔
    ∀ p ∈ ps, p.g = p.b := by
  obtain ⟨_, h2, h3⟩ := C69_columns ps
  rw [h2, h3]
  constructor
  · rintro ⟨h, _⟩ p hp
    have := List.map_inj_left.1 h p hp
    exact UInt8.toNat_inj.1 (showNat_inj (Option.some.inj this))
  · intro h
    exact ⟨List.map_inj_left.2 fun p hp => by rw [h p hp], List.map_inj_left.2 fun p hp => by rw [h p hp]⟩

/-- The export of one image, 2 × 1 pixels, next to a file that cannot be opened. -/
def exportDisk : Disk where
  opened p := if p = "in/cat.png".toList then
      some { width := 2, height := 1, pixels := [⟨1, 2, 3, 255⟩, ⟨255, 0, 9, 0⟩], size := by decide } else none
  creates _ := true

example : IsFileName "in/cat.png".toList "cat.png".toList ∧ exportDisk.opened "dog.png".toList = none :=
  ⟨(fileName_iff _ _).1 (by decide +kernel), by decide +kernel⟩

example : let fs := (exportAll exportDisk cells true ["in/cat.png".toList] (fun _ => none)).2
    fs "output/cat.rect.hilbert.csv".toList = some [["red".toList, "blue".toList, "green".toList],
      ["1".toList, "2".toList, "3".toList], ["255".toList, "0".toList, "9".toList]] ∧
    fs "output/cat.small.hilbert.csv".toList = some [["red".toList, "blue".toList, "green".toList]] ∧
    fs "output/cat.png".toList = none := by decide +kernel

example : (match exportAll exportDisk cells true ["in/cat.png".toList] (fun _ => none) with
    | (.ok _, _) => true | _ => false) = true ∧
    (match exportAll exportDisk cells true ["in/cat.png".toList, "dog.png".toList, "in/cat.png".toList] (fun _ => none) with
    | (.panic, _) => true | _ => false) = true := by decide +kernel

/-! ## C71 -/

/-- What is assumed about the way `f64` is shown: other numbers than zero have different texts, made of digits, `-`, `.`
and the letters of `NaN` and `inf`. -/
structure ShowsF64 (showF64 : F64 → List Char) : Prop where
  inj : ∀ x y, x.isZero = false → y.isZero = false → showF64 x = showF64 y → x = y
  chars : ∀ x, ∀ c ∈ showF64 x, c.isDigit = true ∨ c ∈ "-.Nainf".toList

theorem isZero_iff {d : F64} : d.isZero = true ↔ d = .fin 0 := by
  cases d <;> simp [F64.isZero]

theorem uint64_eq {a b : UInt64} (h : showNat a.toNat = showNat b.toNat) : a = b := UInt64.toNat_inj.1 (showNat_inj h)

/-- The fixed beginnings of the names. -/
def nameHeads : List (List Char) :=
  ["cluster-colors_".toList, "voronoi_".toList, "delta".toList, "hilbert-rle".toList, "hilbert-rle-approx_".toList,
   "hilbert-zip".toList, "Hufman".toList, "zip-dict".toList, "zip-back".toList]

/-- A name in two parts. -/
theorem name_parts (showF64 : F64 → List Char) (c : AnyCodec) : ∃ i t, c.name showF64 = nameHeads.getD i [] ++ t ∧
    ((i = 0 ∧ ∃ n, c = .clusterColors n ∧ t = showNat n.toNat) ∨ (i = 1 ∧ ∃ n, c = .voronoi n ∧ t = showNat n.toNat) ∨
     (i = 2 ∧ c = .delta ∧ t = []) ∨ (i = 3 ∧ c = .hilbert (.rle (.fin 0)) ∧ t = []) ∨
     (i = 4 ∧ ∃ d, c = .hilbert (.rle d) ∧ d.isZero = false ∧ t = showF64 d) ∨ (i = 5 ∧ c = .hilbert .zip ∧ t = []) ∨
     (i = 6 ∧ c = .hufman ∧ t = []) ∨ (i = 7 ∧ c = .zip .dict ∧ t = []) ∨ (i = 8 ∧ c = .zip .back ∧ t = [])) := by
  rcases c with n | n | _ | (d | _) | _ | (_ | _)
  · exact ⟨0, _, rfl, .inl ⟨rfl, n, rfl, rfl⟩⟩
  · exact ⟨1, _, rfl, .inr (.inl ⟨rfl, n, rfl, rfl⟩)⟩
  · exact ⟨2, [], rfl, .inr (.inr (.inl ⟨rfl, rfl, rfl⟩))⟩
  · cases hd : d.isZero with
    | true =>
      obtain rfl := isZero_iff.1 hd
      exact ⟨3, [], by rw [List.append_nil]; rfl, .inr (.inr (.inr (.inl ⟨rfl, rfl, rfl⟩)))⟩
    | false =>
      refine ⟨4, showF64 d, ?_, .inr (.inr (.inr (.inr (.inl ⟨rfl, d, rfl, hd, rfl⟩))))⟩
      show (if d.isZero = true then _ else _) = _
      rw [hd]
      rfl
  · exact ⟨5, [], rfl, .inr (.inr (.inr (.inr (.inr (.inl ⟨rfl, rfl, rfl⟩)))))⟩
  · exact ⟨6, [], rfl, .inr (.inr (.inr (.inr (.inr (.inr (.inl ⟨rfl, rfl, rfl⟩))))))⟩
  · exact ⟨7, [], rfl, .inr (.inr (.inr (.inr (.inr (.inr (.inr (.inl ⟨rfl, rfl, rfl⟩)))))))⟩
  · exact ⟨8, [], rfl, .inr (.inr (.inr (.inr (.inr (.inr (.inr (.inr ⟨rfl, rfl, rfl⟩)))))))⟩

theorem nameHeads_prefix : ∀ i < 9, ∀ j < 9, nameHeads.getD i [] <+: nameHeads.getD j [] → i = j ∨ i = 3 ∧ j = 4 := by
  decide +kernel

theorem name_inj {showF64 : F64 → List Char} (hs : ShowsF64 showF64) {c c' : AnyCodec}
    (h : c.name showF64 = c'.name showF64) : c = c' := by
  obtain ⟨i, t, hi, hc⟩ := name_parts showF64 c
  obtain ⟨j, u, hj, hc'⟩ := name_parts showF64 c'
  rw [hi, hj] at h
  have hi9 : i < 9 := by rcases hc with h | h | h | h | h | h | h | h | h <;> omega
  have hj9 : j < 9 := by rcases hc' with h | h | h | h | h | h | h | h | h <;> omega
  have rle : ∀ {u}, nameHeads.getD 3 [] ++ [] ≠ nameHeads.getD 4 [] ++ u := by
    intro u he
    have := congrArg List.length he
    simp [nameHeads] at this
  have hij : i = j := by
    have h1 : nameHeads.getD i [] <+: nameHeads.getD j [] ++ u := ⟨t, h⟩
    rcases List.prefix_or_prefix_of_prefix h1 ⟨u, rfl⟩ with h2 | h2
    · rcases nameHeads_prefix i hi9 j hj9 h2 with e | ⟨rfl, rfl⟩
      · exact e
      · have : t = [] := by
          rcases hc with ⟨e, _⟩ | ⟨e, _⟩ | ⟨e, _⟩ | ⟨e, _, ht⟩ | ⟨e, _⟩ | ⟨e, _⟩ | ⟨e, _⟩ | ⟨e, _⟩ | ⟨e, _⟩ <;>
            first | exact ht | cases e
        subst this
        exact absurd h rle
    · rcases nameHeads_prefix j hj9 i hi9 h2 with e | ⟨rfl, rfl⟩
      · exact e.symm
      · have : u = [] := by
          rcases hc' with ⟨e, _⟩ | ⟨e, _⟩ | ⟨e, _⟩ | ⟨e, _, ht⟩ | ⟨e, _⟩ | ⟨e, _⟩ | ⟨e, _⟩ | ⟨e, _⟩ | ⟨e, _⟩ <;>
            first | exact ht | cases e
        subst this
        exact absurd h.symm rle
  subst hij
  have htu := List.append_cancel_left h
  rcases hc with ⟨rfl, n, rfl, rfl⟩ | ⟨rfl, n, rfl, rfl⟩ | ⟨rfl, rfl, _⟩ | ⟨rfl, rfl, _⟩ | ⟨rfl, d, rfl, hd, rfl⟩ |
      ⟨rfl, rfl, _⟩ | ⟨rfl, rfl, _⟩ | ⟨rfl, rfl, _⟩ | ⟨rfl, rfl, _⟩ <;>
    rcases hc' with ⟨e, n', rfl, rfl⟩ | ⟨e, n', rfl, rfl⟩ | ⟨e, rfl, _⟩ | ⟨e, rfl, _⟩ | ⟨e, d', rfl, hd', rfl⟩ |
      ⟨e, rfl, _⟩ | ⟨e, rfl, _⟩ | ⟨e, rfl, _⟩ | ⟨e, rfl, _⟩ <;> first
    | cases e; done
    | rfl
    | rw [uint64_eq htu]
    | rw [hs.inj _ _ hd hd' htu]

/-- **C71.** Different codecs have different names, so their reports do not overwrite each other. -/
theorem C71_names_distinct {showF64 : F64 → List Char} (hs : ShowsF64 showF64) (c c' : AnyCodec) :
    reportPath showF64 c = reportPath showF64 c' ↔ c = c' := by
  constructor
  · intro h
    unfold reportPath at h
    rw [List.append_assoc, List.append_assoc] at h
    exact name_inj hs (List.append_cancel_right (List.append_cancel_left h))
  · rintro rfl; rfl

theorem name_chars {showF64 : F64 → List Char} (hs : ShowsF64 showF64) (c : AnyCodec) :
    ∀ x ∈ c.name showF64, x.toNat < 128 ∧ x ≠ '/' ∧ x ≠ '(' := by
  have dig : ∀ x : Char, x.isDigit = true → x.toNat < 128 ∧ x ≠ '/' ∧ x ≠ '(' := by
    intro x h
    refine ⟨?_, ?_, ?_⟩
    · have : x.val ≤ 57 := (by simpa [Char.isDigit] using h : _ ∧ _).2
      rw [UInt32.le_iff_toNat_le] at this
      show x.val.toNat < 128
      exact Nat.lt_of_le_of_lt this (by decide)
    · rintro rfl; exact absurd h (by decide)
    · rintro rfl; exact absurd h (by decide)
  have nat : ∀ n, ∀ x ∈ showNat n, x.toNat < 128 ∧ x ≠ '/' ∧ x ≠ '(' := fun n x hx => dig x (showNat_digits n x hx)
  have flt : ∀ d, ∀ x ∈ showF64 d, x.toNat < 128 ∧ x ≠ '/' ∧ x ≠ '(' := by
    intro d x hx
    rcases hs.chars d x hx with h | h
    · exact dig x h
    · have : ∀ x ∈ "-.Nainf".toList, x.toNat < 128 ∧ x ≠ '/' ∧ x ≠ '(' := by decide
      exact this x h
  have app : ∀ {a b : List Char}, (∀ x ∈ a, x.toNat < 128 ∧ x ≠ '/' ∧ x ≠ '(') →
      (∀ x ∈ b, x.toNat < 128 ∧ x ≠ '/' ∧ x ≠ '(') → ∀ x ∈ a ++ b, x.toNat < 128 ∧ x ≠ '/' ∧ x ≠ '(' :=
    fun h1 h2 x hx => (List.mem_append.1 hx).elim (h1 x) (h2 x)
  rcases c with n | n | _ | (d | _) | _ | (_ | _)
  · exact app (by decide) (nat _)
  · exact app (by decide) (nat _)
  · exact (by decide : ∀ x ∈ "delta".toList, x.toNat < 128 ∧ x ≠ '/' ∧ x ≠ '(')
  · show ∀ x ∈ (if d.isZero = true then "hilbert-rle".toList else "hilbert-rle-approx_".toList ++ showF64 d), _
    cases hd : d.isZero with
    | true => exact (by decide : ∀ x ∈ "hilbert-rle".toList, x.toNat < 128 ∧ x ≠ '/' ∧ x ≠ '(')
    | false =>
      exact app (by decide : ∀ x ∈ "hilbert-rle-approx_".toList, x.toNat < 128 ∧ x ≠ '/' ∧ x ≠ '(') (flt _)
  · exact (by decide : ∀ x ∈ "hilbert-zip".toList, x.toNat < 128 ∧ x ≠ '/' ∧ x ≠ '(')
  · exact (by decide : ∀ x ∈ "Hufman".toList, x.toNat < 128 ∧ x ≠ '/' ∧ x ≠ '(')
  · exact (by decide : ∀ x ∈ "zip-dict".toList, x.toNat < 128 ∧ x ≠ '/' ∧ x ≠ '(')
  · exact (by decide : ∀ x ∈ "zip-back".toList, x.toNat < 128 ∧ x ≠ '/' ∧ x ≠ '(')

theorem name_last {showF64 : F64 → List Char} (hs : ShowsF64 showF64) (c : AnyCodec) (s : List Char) :
    c.name showF64 ≠ s ++ ".hilbert".toList := by
  intro h
  have hl : ∀ {a b : List Char}, (∀ x ∈ b, x ≠ 't') → b ≠ [] → a ++ b ≠ s ++ ".hilbert".toList := by
    intro a b hb h0 he
    have h1 := congrArg List.getLast? he
    rw [List.getLast?_append, List.getLast?_append, List.getLast?_eq_some_getLast h0] at h1
    exact hb _ (List.getLast_mem h0) (Option.some.inj h1)
  have lit : ∀ {a : List Char}, ¬ ".hilbert".toList <:+ a → a ≠ s ++ ".hilbert".toList := fun hn he => hn ⟨s, he.symm⟩
  have hdig : ∀ n, ∀ x ∈ showNat n, x ≠ 't' := by
    rintro n x hx rfl
    exact absurd (showNat_digits n _ hx) (by decide)
  obtain ⟨i, t, hi, hc⟩ := name_parts showF64 c
  rw [hi] at h
  rcases hc with ⟨rfl, n, _, rfl⟩ | ⟨rfl, n, _, rfl⟩ | ⟨rfl, _, rfl⟩ | ⟨rfl, _, rfl⟩ | ⟨rfl, d, _, _, rfl⟩ |
    ⟨rfl, _, rfl⟩ | ⟨rfl, _, rfl⟩ | ⟨rfl, _, rfl⟩ | ⟨rfl, _, rfl⟩
  · exact hl (hdig _) Nat.toDigits_ne_nil h
  · exact hl (hdig _) Nat.toDigits_ne_nil h
  · exact lit (by decide +kernel) h
  · exact lit (by decide +kernel) h
  · by_cases h0 : showF64 d = []
    · rw [h0] at h
      exact lit (by decide +kernel) h
    · refine hl (fun x hx => ?_) h0 h
      rintro rfl
      rcases hs.chars d _ hx with h | h
      · exact absurd h (by decide)
      · exact absurd h (by decide)
  · exact lit (by decide +kernel) h
  · exact lit (by decide +kernel) h
  · exact lit (by decide +kernel) h
  · exact lit (by decide +kernel) h

/-- **C71.** The report is a file directly in `output`.  It is neither the place of a decoded picture nor that of an
exported traversal. -/
theorem C71_report_path {showF64 : F64 → List Char} (hs : ShowsF64 showF64) (c : AnyCodec) :
    (∃ n, '/' ∉ n ∧ reportPath showF64 c = "output/".toList ++ n ∧ IsFileName (reportPath showF64 c) n) ∧
    (∀ p, underOutput p "png".toList ≠ some (reportPath showF64 c)) ∧
    ∀ p, ∀ m ∈ traversalNames, traversalPath p m ≠ some (reportPath showF64 c) := by
  refine ⟨⟨c.name showF64 ++ ".csv".toList, ?_, ?_, "output/".toList, [], ?_, .inr ⟨"output".toList, rfl⟩, by simp, ?_, by simp,
    ?_, ?_⟩, ?_, ?_⟩
  · intro h
    rcases List.mem_append.1 h with h | h
    · exact (name_chars hs c _ h).2.1 rfl
    · exact absurd h (by decide)
  · unfold reportPath
    rw [List.append_assoc]
  · unfold reportPath
    simp
  · intro h
    rcases List.mem_append.1 h with h | h
    · exact (name_chars hs c _ h).2.1 rfl
    · exact absurd h (by decide)
  · intro h
    have := congrArg List.length h
    simp at this
  · intro h
    have := congrArg List.length h
    simp at this
  · intro p h
    obtain ⟨n, s, _, _, he⟩ := (C70_path p _ _).1.1 h
    have h1 := congrArg List.getLast? he
    unfold reportPath at h1
    rw [List.getLast?_append, List.getLast?_append, List.getLast?_append] at h1
    exact absurd (Option.some.inj (h1 : some 'v' = some 'g')) (by decide)
  · intro p m hm h
    obtain ⟨n, s, _, _, he⟩ := (C70_path p _ _).1.1 h
    unfold reportPath at he
    have h2 : c.name showF64 ++ ".csv".toList = (s ++ '.' :: m ++ ".hilbert".toList) ++ ".csv".toList := by
      rw [List.append_assoc, List.append_assoc] at he
      have := List.append_cancel_left he
      rw [this]
      simp
    exact name_last hs c _ (List.append_cancel_right h2)

/-- **C71.** The name in the report cannot be given as the codec to use, except for `delta` and `Hufman`. -/
theorem C71_name_as_argument {showF64 : F64 → List Char} (hs : ShowsF64 showF64) (chk : Bool) (uniDigit : Char → Bool)
    (parseF64 : List Char → Option F64) (c c' : AnyCodec) :
    anyCodecFromStr chk uniDigit parseF64 (c.name showF64) = .ok c' ↔ c = c' ∧ (c = .delta ∨ c = .hufman) := by
  have hch := name_chars hs c
  have hp : '(' ∉ c.name showF64 := fun h => (hch _ h).2.2 rfl
  have ha : Ascii (c.name showF64) := fun x hx => (hch x hx).1
  have hsh : Shallow (c.name showF64) := by
    rintro p ⟨t, ht⟩
    have : p.count '(' = 0 := List.count_eq_zero.2 fun h => hp (by rw [← ht]; simp [h])
    omega
  have hno : ∀ names, ¬ Mentions (isDecimal uniDigit) names (c.name showF64) := by
    rintro names ⟨pre, post, name, ds, he, _⟩
    exact hp (by rw [he]; simp [applied])
  rw [C42_selects chk uniDigit parseF64 _ ha hsh (hno _) (hno _)]
  constructor
  · intro h
    generalize hn : c.name showF64 = s at h
    cases h with
    | delta =>
      have : c = .delta := name_inj hs (hn.trans rfl)
      exact ⟨this, .inl this⟩
    | hufman hl =>
      subst hn
      have : c = .hufman := by
        obtain ⟨i, t, hi, hc⟩ := name_parts showF64 c
        rw [hi, List.map_append] at hl
        have h1 := congrArg (fun l : List Char => l[1]?) hl
        rcases hc with ⟨rfl, _⟩ | ⟨rfl, _⟩ | ⟨rfl, _⟩ | ⟨rfl, _⟩ | ⟨rfl, _⟩ | ⟨rfl, _⟩ | ⟨rfl, h, _⟩ | ⟨rfl, _⟩ | ⟨rfl, _⟩
        · exact absurd (Option.some.inj (h1 : some 'l' = some 'u')) (by decide)
        · exact absurd (Option.some.inj (h1 : some 'o' = some 'u')) (by decide)
        · exact absurd (Option.some.inj (h1 : some 'e' = some 'u')) (by decide)
        · exact absurd (Option.some.inj (h1 : some 'i' = some 'u')) (by decide)
        · exact absurd (Option.some.inj (h1 : some 'i' = some 'u')) (by decide)
        · exact absurd (Option.some.inj (h1 : some 'i' = some 'u')) (by decide)
        · exact h
        · exact absurd (Option.some.inj (h1 : some 'i' = some 'u')) (by decide)
        · exact absurd (Option.some.inj (h1 : some 'i' = some 'u')) (by decide)
      exact ⟨this, .inr this⟩
    | zipDict => exact absurd (by rw [hn]; decide) hp
    | zipBack => exact absurd (by rw [hn]; decide) hp
    | rle _ => exact absurd (by rw [hn]; simp) hp
    | rleApprox _ _ _ _ => exact absurd (by rw [hn]; simp) hp
    | hilbertZip _ => exact absurd (by rw [hn]; simp) hp
  · rintro ⟨rfl, rfl | rfl⟩
    · exact .delta
    · exact .hufman (by rfl)

/-- A way to show numbers that meets the assumptions. -/
def showFraction : F64 → List Char
  | .nan => "NaN".toList
  | .posInf => "inf".toList
  | .negInf => "-inf".toList
  | .fin q => (if q.num < 0 then ['-'] else []) ++ (showNat q.num.natAbs ++ '.' :: showNat q.den)

theorem showFraction_shows : ShowsF64 showFraction where
  inj x y _ _ h := by
    have hlast : ∀ q : Rat, ∃ c, (showFraction (.fin q)).getLast? = some c ∧ c.isDigit = true := by
      intro q
      have h0 : showNat q.den ≠ [] := Nat.toDigits_ne_nil
      refine ⟨(showNat q.den).getLast h0, ?_, showNat_digits _ _ (List.getLast_mem h0)⟩
      unfold showFraction
      rw [List.getLast?_append, List.getLast?_append, List.getLast?_cons, List.getLast?_eq_some_getLast h0]
      rfl
    have hno : ∀ q : Rat, ∀ s : List Char, (∀ c, s.getLast? = some c → c.isDigit = false) → showFraction (.fin q) ≠ s := by
      intro q s hs he
      obtain ⟨c, h1, h2⟩ := hlast q
      rw [he] at h1
      rw [hs c h1] at h2
      cases h2
    have h1 : ∀ c, "NaN".toList.getLast? = some c → c.isDigit = false := by
      intro c hc; obtain rfl := Option.some.inj hc; rfl
    have h2 : ∀ c, "inf".toList.getLast? = some c → c.isDigit = false := by
      intro c hc; obtain rfl := Option.some.inj hc; rfl
    have h3 : ∀ c, "-inf".toList.getLast? = some c → c.isDigit = false := by
      intro c hc; obtain rfl := Option.some.inj hc; rfl
    cases x with
    | nan =>
      cases y with
      | nan => rfl
      | posInf => exact absurd h (by decide)
      | negInf => exact absurd h (by decide)
      | fin q => exact absurd h.symm (hno q _ h1)
    | posInf =>
      cases y with
      | nan => exact absurd h (by decide)
      | posInf => rfl
      | negInf => exact absurd h (by decide)
      | fin q => exact absurd h.symm (hno q _ h2)
    | negInf =>
      cases y with
      | nan => exact absurd h (by decide)
      | posInf => exact absurd h (by decide)
      | negInf => rfl
      | fin q => exact absurd h.symm (hno q _ h3)
    | fin q =>
      cases y with
      | nan => exact absurd h (hno q _ h1)
      | posInf => exact absurd h (hno q _ h2)
      | negInf => exact absurd h (hno q _ h3)
      | fin r =>
        have hdot : ∀ n, '.' ∉ showNat n := fun n hn => absurd (showNat_digits n _ hn) (by decide)
        have hminus : ∀ n t u, showNat n ++ t ≠ '-' :: u := by
          intro n t u he
          cases hn : showNat n with
          | nil => exact Nat.toDigits_ne_nil hn
          | cons c cs =>
            rw [hn] at he
            have := (List.cons.inj he).1
            have hd := showNat_digits n c (by rw [hn]; simp)
            rw [this] at hd
            exact absurd hd (by decide)
        simp only [showFraction] at h
        rw [← List.append_assoc, ← List.append_assoc] at h
        have a := rsplitDot_some.2 ⟨h, hdot r.den⟩
        rw [rsplitDot_some.2 ⟨rfl, hdot q.den⟩] at a
        obtain ⟨a1, a2⟩ := Prod.mk.inj (Option.some.inj a)
        have hden := showNat_inj a2
        have hnum : q.num = r.num := by
          by_cases hq : q.num < 0 <;> by_cases hr : r.num < 0 <;> simp only [hq, hr, if_true, if_false] at a1
          · have := showNat_inj (List.append_cancel_left a1); omega
          · exact absurd a1.symm (by simpa using hminus r.num.natAbs [] _)
          · exact absurd a1 (by simpa using hminus q.num.natAbs [] _)
          · have := showNat_inj (List.append_cancel_left a1); omega
        rw [Rat.ext hnum hden]
  chars x c hc := by
    have nat : ∀ n, c ∈ showNat n → c.isDigit = true ∨ c ∈ "-.Nainf".toList := fun n h => .inl (showNat_digits n c h)
    cases x with
    | nan => exact .inr ((by decide : ∀ c ∈ "NaN".toList, c ∈ "-.Nainf".toList) c hc)
    | posInf => exact .inr ((by decide : ∀ c ∈ "inf".toList, c ∈ "-.Nainf".toList) c hc)
    | negInf => exact .inr ((by decide : ∀ c ∈ "-inf".toList, c ∈ "-.Nainf".toList) c hc)
    | fin q =>
      unfold showFraction at hc
      rcases List.mem_append.1 hc with h | h
      · right
        split at h
        · obtain rfl := List.mem_singleton.1 h; decide
        · cases h
      · rcases List.mem_append.1 h with h | h
        · exact nat _ h
        · rcases List.mem_cons.1 h with rfl | h
          · right; decide
          · exact nat _ h

/-- The report of the benchmark in the usage message of C42. -/
example : reportPath showFraction (.clusterColors 16) = "output/cluster-colors_16.csv".toList := by decide +kernel
example : reportPath showFraction (.hilbert (.rle (.fin (5 / 2)))) = "output/hilbert-rle-approx_5.2.csv".toList := by
  decide +kernel

end Cniic
