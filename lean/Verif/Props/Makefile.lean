import Verif.Model.Makefile
import Verif.Props.Program

/-!
# C95: the Makefile and the reports

The rules of the Makefile run the program and expect its report in a certain file.  They agree with the names of the reports, for
exactly the stems one would expect, but for one rule: the backup of a voronoi report is written in the place of the backup of the
cluster-colors report with the same number.
-/

namespace Cniic
open Spec

variable {Node : Type} [DecidableEq Node] {m : Machine Node} {faults : Prop} {files : List (List Char)} {w w' : World Node}

/-- The argument after `--codec=` in the recipe. -/
def Rule.codecText (r : Rule) (s : List Char) : List Char :=
  match r.recipe s with
  | .bench t :: _ => t
  | _ => []

/-- The report that the recipe relies on. -/
def Rule.report (r : Rule) (s : List Char) : List Char :=
  if r = .clusterColors then "output/cluster-colors_".toList ++ s ++ ".csv".toList
  else if r = .voronoi then "output/voronoi_".toList ++ s ++ ".csv".toList
  else if r = .zipBack then "output/zip-back.csv".toList
  else r.target s

/-- The recipe runs a benchmark, and the report of this benchmark is the file that it relies on. -/
def Rule.Fits (m : Machine Node) (r : Rule) (s : List Char) : Prop :=
  ∃ c, anyCodecFromStr m.setup.chk m.uniDigit m.parseF64 (r.codecText s) = .ok c ∧ reportPath m.showF64 c = r.report s

theorem reportPath_eq {showF64 : F64 → List Char} {c : AnyCodec} {n : List Char} :
    reportPath showF64 c = "output/".toList ++ n ++ ".csv".toList ↔ c.name showF64 = n := by
  unfold reportPath
  rw [List.append_left_inj, List.append_right_inj]

theorem report_clusterColors (s : List Char) : Rule.clusterColors.report s =
    "output/".toList ++ ("cluster-colors_".toList ++ s) ++ ".csv".toList := by
  rw [Rule.report, if_pos rfl, show "output/cluster-colors_".toList = "output/".toList ++ "cluster-colors_".toList by decide +kernel]
  simp only [List.append_assoc]

theorem report_voronoi (s : List Char) : Rule.voronoi.report s =
    "output/".toList ++ ("voronoi_".toList ++ s) ++ ".csv".toList := by
  rw [Rule.report, if_neg (by decide), if_pos rfl, show "output/voronoi_".toList = "output/".toList ++ "voronoi_".toList by decide +kernel]
  simp only [List.append_assoc]

theorem report_approx (s : List Char) : Rule.hilbertApprox.report s =
    "output/".toList ++ ("hilbert-rle-approx_".toList ++ s) ++ ".csv".toList := by
  rw [Rule.report, if_neg (by decide), if_neg (by decide), if_neg (by decide)]
  show "output/hilbert-rle-approx_".toList ++ s ++ ".csv".toList = _
  rw [show "output/hilbert-rle-approx_".toList = "output/".toList ++ "hilbert-rle-approx_".toList by decide +kernel]
  simp only [List.append_assoc]

/-- **C95**, the rules without a number. -/
theorem C95_fixed (m : Machine Node) (s : List Char) :
    ∀ r ∈ [Rule.hufman, .zipDict, .zipBack, .hilbertRle, .hilbertZip, .delta], r.Fits m s := by
  intro r hr
  have hchk := m.setup.chk
  simp only [List.mem_cons, List.not_mem_nil, or_false] at hr
  rcases hr with rfl | rfl | rfl | rfl | rfl | rfl
  · exact ⟨.hufman, rfl, rfl⟩
  · exact ⟨.zip .dict, by cases h : m.setup.chk <;> rfl, rfl⟩
  · exact ⟨.zip .back, by cases h : m.setup.chk <;> rfl, rfl⟩
  · exact ⟨.hilbert (.rle (.fin 0)), by cases h : m.setup.chk <;> rfl, rfl⟩
  · exact ⟨.hilbert .zip, by cases h : m.setup.chk <;> rfl, rfl⟩
  · exact ⟨.delta, rfl, rfl⟩

/-- The codecs whose name has a given beginning. -/
theorem name_head {showF64 : F64 → List Char} {c : AnyCodec} {j : Nat} (hj : j = 0 ∨ j = 1 ∨ j = 4) {s : List Char}
    (h : c.name showF64 = nameHeads.getD j [] ++ s) :
    (j = 0 ∧ ∃ n, c = .clusterColors n ∧ s = showNat n.toNat) ∨ (j = 1 ∧ ∃ n, c = .voronoi n ∧ s = showNat n.toNat) ∨
    (j = 4 ∧ ∃ d, c = .hilbert (.rle d) ∧ d.isZero = false ∧ s = showF64 d) := by
  obtain ⟨i, t, hi, hc⟩ := name_parts showF64 c
  rw [hi] at h
  have hi9 : i < 9 := by rcases hc with h | h | h | h | h | h | h | h | h <;> omega
  have hij : i = j := by
    have h1 : nameHeads.getD i [] <+: nameHeads.getD j [] ++ s := ⟨t, h⟩
    rcases List.prefix_or_prefix_of_prefix h1 ⟨s, rfl⟩ with h2 | h2
    · rcases nameHeads_prefix i hi9 j (by omega) h2 with e | ⟨rfl, rfl⟩
      · exact e
      · have : t = [] := by
          rcases hc with ⟨e, _⟩ | ⟨e, _⟩ | ⟨e, _⟩ | ⟨e, _, ht⟩ | ⟨e, _⟩ | ⟨e, _⟩ | ⟨e, _⟩ | ⟨e, _⟩ | ⟨e, _⟩ <;>
            first | exact ht | cases e
        subst this
        have := congrArg List.length h
        simp [nameHeads] at this
    · rcases nameHeads_prefix j (by omega) i hi9 h2 with e | ⟨rfl, rfl⟩
      · exact e.symm
      · omega
  subst hij
  have ht := List.append_cancel_left h
  subst ht
  rcases hc with h | h | h | h | h | h | h | h | h
  · exact .inl h
  · exact .inr (.inl h)
  · omega
  · omega
  · exact .inr (.inr h)
  all_goals omega

/-- **C95**, the stems for which the rules for clustering work. -/
theorem C95_cluster (m : Machine Node) (s : List Char) :
    (Rule.clusterColors.Fits m s ↔ ∃ n : UInt64, s = showNat n.toNat) ∧
    (Rule.voronoi.Fits m s ↔ ∃ n : UInt64, s = showNat n.toNat) := by
  have hd : ∀ n : UInt64, Decimal (showNat n.toNat) ∧ Nat.ofDigitChars 10 (showNat n.toNat) 0 = n.toNat := fun n =>
    ⟨⟨Nat.toDigits_ne_nil, showNat_digits _⟩, Nat.ofDigitChars_ten_toDigits⟩
  constructor
  · constructor
    · rintro ⟨c, -, h⟩
      rw [report_clusterColors, reportPath_eq] at h
      rcases name_head (j := 0) (by decide) h with ⟨e, n, -, h⟩ | ⟨e, n, -, h⟩ | ⟨e, -⟩ <;> first | exact ⟨n, h⟩ | cases e
    · rintro ⟨n, rfl⟩
      refine ⟨.clusterColors n, ?_, by rw [report_clusterColors, reportPath_eq]; rfl⟩
      have := C42_cluster m.setup.chk m.uniDigit m.parseF64 [] "cluster-colors".toList (showNat n.toNat) [] (by simp) (by decide)
        (hd n).1 (by rw [(hd n).2]; exact n.toNat_lt)
      rw [(hd n).2, UInt64.ofNat_toNat] at this
      simpa [applied, Rule.codecText, Rule.recipe] using this
  · constructor
    · rintro ⟨c, -, h⟩
      rw [report_voronoi, reportPath_eq] at h
      rcases name_head (j := 1) (by decide) h with ⟨e, n, -, h⟩ | ⟨e, n, -, h⟩ | ⟨e, -⟩ <;> first | exact ⟨n, h⟩ | cases e
    · rintro ⟨n, rfl⟩
      refine ⟨.voronoi n, ?_, by rw [report_voronoi, reportPath_eq]; rfl⟩
      have := C42_voronoi_plain m.setup.chk m.uniDigit m.parseF64 (showNat n.toNat) (hd n).1 (by rw [(hd n).2]; exact n.toNat_lt)
      rw [(hd n).2, UInt64.ofNat_toNat] at this
      simpa [applied, Rule.codecText, Rule.recipe] using this

/-- The places of an opening parenthesis. -/
theorem open_at {a b p q : List Char} (hp : '(' ∉ p) (h : a ++ '(' :: b = p ++ '(' :: q) :
    a = p ∨ ∃ a', a = p ++ '(' :: a' ∧ a' ++ '(' :: b = q := by
  induction p generalizing a with
  | nil =>
    cases a with
    | nil => exact .inl rfl
    | cons x a =>
      simp only [List.cons_append, List.nil_append, List.cons.injEq] at h
      exact .inr ⟨a, by rw [h.1]; rfl, h.2⟩
  | cons y p ih =>
    cases a with
    | nil =>
      simp only [List.nil_append, List.cons_append, List.cons.injEq] at h
      exact absurd (List.mem_cons.2 (.inl h.1)) hp
    | cons x a =>
      simp only [List.cons_append, List.cons.injEq] at h
      rcases ih (fun h => hp (List.mem_cons.2 (.inr h))) h.2 with rfl | ⟨a', rfl, h'⟩
      · exact .inl (by rw [h.1])
      · exact .inr ⟨a', by rw [h.1]; rfl, h'⟩

/-- The argument for approximate runs mentions no clustering. -/
theorem approx_mentions {digit : Char → Bool} {names : List (List Char)} {s : List Char} (hs : '(' ∉ s)
    (h : Mentions digit names ("hilbert(rle(".toList ++ s ++ "))".toList)) :
    ∃ n ∈ names, n <:+ "hilbert".toList ∨ n <:+ "hilbert(rle".toList := by
  obtain ⟨pre, post, name, ds, he, hn, -, -⟩ := h
  refine ⟨name, hn, ?_⟩
  have he : (pre ++ name) ++ '(' :: (ds ++ ')' :: post) = "hilbert".toList ++ '(' :: ("rle".toList ++ '(' :: (s ++ "))".toList)) := by
    rw [applied] at he
    simpa using he.symm
  rcases open_at (by decide) he with h | ⟨a, ha, h⟩
  · exact .inl ⟨pre, h⟩
  · rcases open_at (by decide) h with rfl | ⟨a', -, h'⟩
    · exact .inr ⟨pre, ha⟩
    · have : '(' ∈ s ++ "))".toList := by rw [← h']; simp
      simp at this
      exact absurd this hs

/-- **C95**, the stems for which the rule for approximate runs works: the numbers other than 0, in the way they are printed. -/
theorem C95_approx (m : Machine Node) (hs : ShowsF64 m.showF64) (s : List Char) :
    Rule.hilbertApprox.Fits m s ↔ s ≠ [] ∧ ∃ d, m.parseF64 s = some d ∧ d.isZero = false ∧ m.showF64 d = s := by
  have key : (∃ d, m.showF64 d = s) → ∀ c, anyCodecFromStr m.setup.chk m.uniDigit m.parseF64 (Rule.hilbertApprox.codecText s) = .ok c ↔
      Selects m.parseF64 (Rule.hilbertApprox.codecText s) c := by
    rintro ⟨d, hd⟩ c
    have hch : ∀ x ∈ s, x.toNat < 128 ∧ x ≠ '(' ∧ x ≠ ')' := by
      intro x hx
      rcases hs.chars d x (hd ▸ hx) with h | h
      · have : x.val ≤ 57 := (by simpa [Char.isDigit] using h : _ ∧ _).2
        rw [UInt32.le_iff_toNat_le] at this
        refine ⟨Nat.lt_of_le_of_lt this (by decide), ?_, ?_⟩ <;> (rintro rfl; exact absurd h (by decide))
      · clear hx; revert x; decide
    have ho : '(' ∉ s := fun h => (hch _ h).2.1 rfl
    refine C42_selects _ _ _ _ ?_ ?_ ?_ ?_ c
    · intro x hx
      simp only [Rule.codecText, Rule.recipe, List.mem_append] at hx
      rcases hx with (hx | hx) | hx
      · revert x; decide
      · exact (hch x hx).1
      · revert x; decide
    · rintro p ⟨t, ht⟩
      have h1 : p.count '(' + t.count '(' = 2 := by
        rw [← List.count_append, ht]
        simp only [Rule.codecText, Rule.recipe, List.count_append, List.count_eq_zero.2 ho]
        decide
      omega
    · intro h
      obtain ⟨n, hn, h⟩ := approx_mentions ho h
      revert n; decide
    · intro h
      obtain ⟨n, hn, h⟩ := approx_mentions ho h
      revert n; decide
  constructor
  · rintro ⟨c, hc, h⟩
    rw [report_approx, reportPath_eq] at h
    rcases name_head (j := 4) (by decide) h with ⟨e, -⟩ | ⟨e, -⟩ | ⟨-, d, rfl, hz, h⟩
    · cases e
    · cases e
    · have hsel := (key ⟨d, h.symm⟩ _).1 hc
      have he : Rule.hilbertApprox.codecText s = "hilbert(rle(".toList ++ s ++ "))".toList := rfl
      rw [he] at hsel
      generalize ht : "hilbert(rle(".toList ++ s ++ "))".toList = t at hsel
      cases hsel with
      | rle => simp [F64.isZero] at hz
      | rleApprox hh hne ha hp =>
        obtain ⟨-, rfl⟩ : _ ∧ s = _ := by simpa using ht
        exact ⟨hne, d, hp, hz, h.symm⟩
  · rintro ⟨hne, d, hp, hz, hd⟩
    have ha : ArgText s := by
      have hch : ∀ x ∈ s, ¬ Special x := by
        intro x hx
        rcases hs.chars d x (hd ▸ hx) with h | h
        · rintro (rfl | rfl | rfl) <;> exact absurd h (by decide)
        · clear hx; revert x; decide
      clear hd hp hne key
      induction s with
      | nil => exact .nil
      | cons c s ih => exact .chr (hch c (by simp)) (ih fun x hx => hch x (by simp [hx]))
    refine ⟨.hilbert (.rle d), (key ⟨d, hd⟩ _).2 ?_, ?_⟩
    · have he : Rule.hilbertApprox.codecText s = 'h' :: ("ilbert(rle(".toList ++ (s ++ "))".toList)) := by
        show "hilbert(rle(".toList ++ s ++ "))".toList = _
        rw [show "hilbert(rle(".toList = 'h' :: "ilbert(rle(".toList by decide +kernel, List.cons_append, List.cons_append,
          List.append_assoc]
      rw [he]
      exact .rleApprox (.inr rfl) hne ha hp
    · rw [report_approx, reportPath_eq]
      show (if d.isZero = true then _ else _) = _
      rw [hz, hd]
      rfl

/-! ## What the rules leave behind -/

/-- The recipe of a rule that only measures. -/
theorem ran_bench {t : List Char} (h : Ran m faults files [.bench t] w w') :
    ∃ prog, Main m faults (prog :: ("--codec=".toList ++ t) :: files) w .success w' := by
  cases h with
  | bench h1 h2 =>
    cases h2
    exact ⟨_, h1⟩

/-- The recipe of a rule that measures and copies. -/
theorem ran_bench_cp {t a b : List Char} (h : Ran m faults files [.bench t, .cp a b] w w') :
    ∃ prog w1 rs, Main m faults (prog :: ("--codec=".toList ++ t) :: files) w .success w1 ∧ w1.reports a = some rs ∧
      w'.reports = replaced w1.reports b (some rs) ∧ w'.tables = w1.tables := by
  cases h with
  | bench h1 h2 =>
    cases h2 with
    | cp h3 h4 =>
      cases h4
      exact ⟨_, _, _, h1, h3, rfl, rfl⟩

/-- **C95**, the target: a rule that fits, and is not the one for voronoi, leaves the report of its codec in its target, and
changes no other report but that one. -/
theorem C95_target {r : Rule} {s : List Char} (hr : r ≠ .restore) (hv : r ≠ .voronoi) {c : AnyCodec}
    (hc : anyCodecFromStr m.setup.chk m.uniDigit m.parseF64 (r.codecText s) = .ok c)
    (hp : reportPath m.showF64 c = r.report s) (h : Ran m faults files (r.recipe s) w w') :
    ∃ prog w1, Main m faults (prog :: ("--codec=".toList ++ r.codecText s) :: files) w .success w1 ∧
      w'.reports (r.target s) = w1.reports (reportPath m.showF64 c) ∧
      ∀ q, q ≠ r.target s → q ≠ reportPath m.showF64 c → w'.reports q = w.reports q := by
  have one : ∀ t, r.recipe s = [.bench t] → r.report s = r.target s →
      ∃ prog w1, Main m faults (prog :: ("--codec=".toList ++ r.codecText s) :: files) w .success w1 ∧
        w'.reports (r.target s) = w1.reports (reportPath m.showF64 c) ∧
        ∀ q, q ≠ r.target s → q ≠ reportPath m.showF64 c → w'.reports q = w.reports q := by
    intro t ht hrt
    have ht' : r.codecText s = t := by rw [Rule.codecText, ht]
    rw [ht] at h
    rw [ht'] at hc ⊢
    obtain ⟨prog, h1⟩ := ran_bench h
    refine ⟨prog, w', h1, by rw [hp, hrt], fun q _ hq => ?_⟩
    exact (C85_files ⟨prog, t, rfl, hc⟩ h1).2 q hq
  have two : ∀ t, r.recipe s = [.bench t, .cp (r.report s) (r.target s)] →
      ∃ prog w1, Main m faults (prog :: ("--codec=".toList ++ r.codecText s) :: files) w .success w1 ∧
        w'.reports (r.target s) = w1.reports (reportPath m.showF64 c) ∧
        ∀ q, q ≠ r.target s → q ≠ reportPath m.showF64 c → w'.reports q = w.reports q := by
    intro t ht
    have ht' : r.codecText s = t := by rw [Rule.codecText, ht]
    rw [ht] at h
    rw [ht'] at hc ⊢
    obtain ⟨prog, w1, rs, h1, h2, h3, -⟩ := ran_bench_cp h
    refine ⟨prog, w1, h1, by rw [h3, hp, h2]; simp [replaced], fun q hq hq' => ?_⟩
    rw [h3, ← (C85_files ⟨prog, t, rfl, hc⟩ h1).2 q hq']
    simp [replaced, hq]
  cases r with
  | restore => exact absurd rfl hr
  | voronoi => exact absurd rfl hv
  | clusterColors => exact two _ rfl
  | zipBack => exact two _ rfl
  | hufman => exact one _ rfl rfl
  | zipDict => exact one _ rfl rfl
  | hilbertRle => exact one _ rfl rfl
  | hilbertApprox => exact one _ rfl rfl
  | hilbertZip => exact one _ rfl rfl
  | delta => exact one _ rfl rfl

/-- **C95**, voronoi: the target is not touched; the report of voronoi is written over the backup for cluster-colors. -/
theorem C95_voronoi {n : UInt64} (h : Ran m faults files (Rule.voronoi.recipe (showNat n.toNat)) w w') :
    w'.reports (Rule.voronoi.target (showNat n.toNat)) = w.reports (Rule.voronoi.target (showNat n.toNat)) ∧
    (∃ rs, w'.reports (reportPath m.showF64 (.voronoi n)) = some rs ∧
      w'.reports (Rule.clusterColors.target (showNat n.toNat)) = some rs) := by
  generalize hs : showNat n.toNat = s at h ⊢
  have hp : reportPath m.showF64 (.voronoi n) = "output/voronoi_".toList ++ s ++ ".csv".toList := by
    have := report_voronoi s
    rw [Rule.report, if_neg (by decide), if_pos rfl] at this
    rw [this, reportPath_eq, ← hs]
    rfl
  have hc : anyCodecFromStr m.setup.chk m.uniDigit m.parseF64 ("voronoi(".toList ++ s ++ ")".toList) = .ok (.voronoi n) := by
    obtain ⟨c, h1, h2⟩ := (C95_cluster m s).2.2 ⟨n, hs.symm⟩
    rw [report_voronoi, reportPath_eq] at h2
    rcases name_head (j := 1) (by decide) h2 with ⟨e, -⟩ | ⟨-, k, rfl, h3⟩ | ⟨e, -⟩
    · cases e
    · rw [← hs] at h3
      rw [uint64_eq h3]
      exact h1
    · cases e
  obtain ⟨prog, w1, rs, h1, h2, h3, -⟩ := ran_bench_cp h
  have hk := (C85_files ⟨prog, _, rfl, hc⟩ h1).2
  rw [hp] at hk ⊢
  have n1 : "output/voronoi_".toList ++ s ++ ".csv.bak".toList ≠ "output/cluster-colors_".toList ++ s ++ ".csv.bak".toList := by
    intro e
    have := congrArg List.length e
    simp at this
  have n2 : "output/voronoi_".toList ++ s ++ ".csv.bak".toList ≠ "output/voronoi_".toList ++ s ++ ".csv".toList := by
    intro e
    have := congrArg List.length e
    simp at this
  have n3 : "output/voronoi_".toList ++ s ++ ".csv".toList ≠ "output/cluster-colors_".toList ++ s ++ ".csv.bak".toList := by
    intro e
    have := congrArg List.length e
    simp at this
  refine ⟨?_, rs, ?_, ?_⟩
  · show w'.reports ("output/voronoi_".toList ++ s ++ ".csv.bak".toList) = w.reports ("output/voronoi_".toList ++ s ++ ".csv.bak".toList)
    rw [h3, ← hk _ n2, replaced, if_neg n1]
  · rw [h3, replaced, if_neg n3, h2]
  · show w'.reports ("output/cluster-colors_".toList ++ s ++ ".csv.bak".toList) = _
    rw [h3, replaced, if_pos rfl]

/-- **C95**, what becomes of it: after the backups for cluster-colors and voronoi with the same number have been made, make
restores the report of cluster-colors from the wrong backup, and the diagrams show the rows of voronoi under the name of
cluster-colors. -/
theorem C95_mixed_up {n : UInt64} {w1 w2 : World Node}
    (h2 : Ran m faults files (Rule.voronoi.recipe (showNat n.toNat)) w w1)
    (h3 : Ran m faults files (Rule.restore.recipe ("cluster-colors_".toList ++ showNat n.toNat ++ ".csv".toList)) w1 w2) :
    ∃ rs, w1.reports (reportPath m.showF64 (.voronoi n)) = some rs ∧ w2.reports (reportPath m.showF64 (.clusterColors n)) = some rs := by
  obtain ⟨-, rs, k1, k2⟩ := C95_voronoi h2
  refine ⟨rs, k1, ?_⟩
  have hp : reportPath m.showF64 (.clusterColors n) =
      "output/".toList ++ ("cluster-colors_".toList ++ showNat n.toNat ++ ".csv".toList) := by
    rw [← List.append_assoc, reportPath_eq]
    rfl
  have hb : "output/".toList ++ ("cluster-colors_".toList ++ showNat n.toNat ++ ".csv".toList) ++ ".bak".toList =
      Rule.clusterColors.target (showNat n.toNat) := by
    show _ = "output/cluster-colors_".toList ++ showNat n.toNat ++ ".csv.bak".toList
    rw [show "output/cluster-colors_".toList = "output/".toList ++ "cluster-colors_".toList by decide +kernel,
      show ".csv.bak".toList = ".csv".toList ++ ".bak".toList by decide +kernel]
    simp only [List.append_assoc]
  cases h3 with
  | cp h4 h5 =>
    cases h5
    rw [hb, k2] at h4
    cases h4
    rw [hp]
    simp [replaced]

/-! ## The diagrams -/

/-- The series that a codec ought to be in. -/
def AnyCodec.series : AnyCodec → String
  | .clusterColors _ => "cluster-colors"
  | .voronoi _ => "voronoi"
  | .delta => "delta"
  | .hilbert (.rle d) => if d.isZero then "hilbert-rle" else "hilbert-rle-approx"
  | .hilbert .zip => "hilbert-zip"
  | .hufman => "Hufman"
  | .zip .dict => "zip-dict"
  | .zip .back => "zip-back"

/-- **C95**, diagrams: the report of every codec is shown, in the series of the codec, whatever its number. -/
theorem C95_shown {showF64 : F64 → List Char} (hs : ShowsF64 showF64) (c : AnyCodec) :
    ∃ name, reportPath showF64 c = "output/".toList ++ name ∧ '/' ∉ name ∧ diagramCsv name = true ∧
      seriesOf name = c.series.toList := by
  have hne : c.name showF64 ≠ [] := by
    obtain ⟨i, t, hi, hc⟩ := name_parts showF64 c
    intro h
    rw [h] at hi
    have : nameHeads.getD i [] = [] := (List.append_eq_nil_iff.1 hi.symm).1
    have h9 : ∀ i < 9, nameHeads.getD i [] ≠ [] := by decide +kernel
    exact h9 i (by rcases hc with h | h | h | h | h | h | h | h | h <;> omega) this
  refine ⟨c.name showF64 ++ ".csv".toList, by unfold reportPath; rw [List.append_assoc], ?_, ?_, ?_⟩
  · intro h
    rcases List.mem_append.1 h with h | h
    · exact (name_chars hs c _ h).2.1 rfl
    · exact absurd h (by decide)
  · unfold diagramCsv
    rw [Bool.and_eq_true, Bool.and_eq_true]
    refine ⟨⟨List.isSuffixOf_iff_suffix.2 ⟨_, rfl⟩, ?_⟩, ?_⟩
    · rw [Bool.not_eq_true', ← Bool.not_eq_true, List.isPrefixOf_iff_prefix]
      intro h
      obtain ⟨i, t, hi, hc⟩ := name_parts showF64 c
      rw [hi, List.append_assoc] at h
      have h9 : ∀ i < 9, nameHeads.getD i [] ≠ [] ∧ ¬ ".".toList <+: nameHeads.getD i [] := by decide +kernel
      have h9 := h9 i (by rcases hc with h | h | h | h | h | h | h | h | h <;> omega)
      refine h9.2 (List.prefix_of_prefix_length_le h ⟨_, rfl⟩ ?_)
      cases hh : nameHeads.getD i [] with
      | nil => exact absurd hh h9.1
      | cons a l => simp
    · rw [Bool.not_eq_true', ← Bool.not_eq_true, List.isSuffixOf_iff_suffix]
      rintro ⟨u, hu⟩
      rw [show ".hilbert.csv".toList = ".hilbert".toList ++ ".csv".toList by decide +kernel, ← List.append_assoc] at hu
      exact name_last hs c u (List.append_cancel_right hu).symm
  · have hstem : fileStem (c.name showF64 ++ ".csv".toList) = c.name showF64 :=
      (fileStem_iff _ _).2 (.inl ⟨hne, "csv".toList, by decide, rfl⟩)
    rw [seriesOf, hstem]
    obtain ⟨i, t, hi, hc⟩ := name_parts showF64 c
    rw [hi]
    rcases hc with ⟨rfl, n, rfl, rfl⟩ | ⟨rfl, n, rfl, rfl⟩ | ⟨rfl, rfl, rfl⟩ | ⟨rfl, rfl, rfl⟩ | ⟨rfl, d, rfl, hd, rfl⟩ |
      ⟨rfl, rfl, rfl⟩ | ⟨rfl, rfl, rfl⟩ | ⟨rfl, rfl, rfl⟩ | ⟨rfl, rfl, rfl⟩
    all_goals first
      | decide +kernel
      | (simp [nameHeads, AnyCodec.series, hd]; done)
      | (simp [nameHeads, AnyCodec.series]; done)

/-- **C95**, diagrams: traversals, pictures and backups are not shown. -/
theorem C95_not_shown (p s : List Char) :
    (∀ k ∈ traversalNames, ∀ name, traversalPath p k = some ("output/".toList ++ name) → diagramCsv name = false) ∧
    (∀ name, underOutput p "png".toList = some ("output/".toList ++ name) → diagramCsv name = false) ∧
    diagramCsv (s ++ ".bak".toList) = false ∧ diagramCsv (s ++ ".cp".toList) = false := by
  have hl : ∀ (a b : List Char), b ≠ [] → b.getLast? ≠ some 'v' → diagramCsv (a ++ b) = false := by
    intro a b hb h
    have : ".csv".toList.isSuffixOf (a ++ b) = false := by
      rw [← Bool.not_eq_true, List.isSuffixOf_iff_suffix]
      rintro ⟨u, hu⟩
      have h1 := congrArg List.getLast? hu
      rw [List.getLast?_append, List.getLast?_append, List.getLast?_eq_some_getLast hb] at h1
      rw [List.getLast?_eq_some_getLast hb] at h
      exact h h1.symm
    rw [diagramCsv, this]
    rfl
  refine ⟨?_, ?_, hl _ _ (by decide) (by decide), hl _ _ (by decide) (by decide)⟩
  · intro k hk name h
    obtain ⟨n, st, _, _, he⟩ := (C70_path p _ _).1.1 h
    rw [List.append_assoc] at he
    have he := List.append_cancel_left he
    rw [he, show st ++ '.' :: (k ++ ".hilbert.csv".toList) = (st ++ '.' :: k) ++ ".hilbert.csv".toList by simp, diagramCsv,
      List.isSuffixOf_iff_suffix.2 ⟨_, rfl⟩]
    simp
  · intro name h
    obtain ⟨n, st, _, _, he⟩ := (C70_path p _ _).1.1 h
    rw [List.append_assoc] at he
    rw [List.append_cancel_left he]
    exact hl _ _ (by decide) (by decide)

/-! ## Concrete cases -/

namespace MakefileExamples
open ProgramExamples (machine world)

/-- A run without images. -/
theorem no_images {t : List Char} {c : AnyCodec} {w : World (List Char)}
    (h : anyCodecFromStr machine.setup.chk machine.uniDigit machine.parseF64 t = .ok c) :
    Main machine False ("cniic".toList :: ("--codec=".toList ++ t) :: []) w .success
      { w with images := machine.created (reportPath machine.showF64 c) w
               reports := replaced w.reports (reportPath machine.showF64 c) (some []) } :=
  .measured ((C68_benchmark ..).2 ⟨_, t, rfl, h⟩) rfl .start (fun _ hi => absurd hi (Nat.not_lt_zero _)) (by simp [Run.Halted, Run.start])

/-- C95, stems: 64 is one, 064 is none. -/
example : Rule.clusterColors.Fits machine "64".toList ∧ Rule.voronoi.Fits machine "64".toList ∧
    ¬ Rule.clusterColors.Fits machine "064".toList := by
  refine ⟨(C95_cluster ..).1.2 ⟨64, by decide +kernel⟩, (C95_cluster ..).2.2 ⟨64, by decide +kernel⟩, fun h => ?_⟩
  obtain ⟨n, hn⟩ := (C95_cluster ..).1.1 h
  have h1 := congrArg (fun l => Nat.ofDigitChars 10 l 0) hn
  simp only [showNat, Nat.ofDigitChars_ten_toDigits] at h1
  have h2 : n.toNat = 64 := by rw [← h1]; decide +kernel
  rw [h2] at hn
  exact absurd hn (by decide +kernel)

/-- C95, approximate runs: a machine that prints and reads fractions. -/
example : Rule.hilbertApprox.Fits { machine with
    showF64 := showFraction, parseF64 := fun s => if s = "4.1".toList then some (.fin 4) else none } "4.1".toList :=
  (C95_approx _ showFraction_shows _).2 ⟨by decide, .fin 4, rfl, by decide +kernel, by decide +kernel⟩

/-- C95, target: a backup of the report of cluster-colors. -/
example : ∃ w', Ran machine False [] (Rule.clusterColors.recipe "64".toList) world w' ∧
    w'.reports "output/cluster-colors_64.csv.bak".toList = some [] := by
  obtain ⟨c, h1, h2⟩ := (C95_cluster machine "64".toList).1.2 ⟨64, by decide +kernel⟩
  refine ⟨_, .bench (no_images (w := world) h1) (.cp (rs := []) ?_ .done), ?_⟩
  · refine if_pos ?_
    rw [h2]
    decide +kernel
  · dsimp only [replaced]
    rw [if_pos (by decide +kernel)]

/-- C95, voronoi: the rule can be run, and restoring afterwards, too. -/
example : ∃ w1 w2, Ran machine False [] (Rule.voronoi.recipe (showNat (64 : UInt64).toNat)) world w1 ∧
    Ran machine False [] (Rule.restore.recipe ("cluster-colors_".toList ++ showNat (64 : UInt64).toNat ++ ".csv".toList)) w1 w2 := by
  obtain ⟨c, h1, h2⟩ := (C95_cluster machine (showNat (64 : UInt64).toNat)).2.2 ⟨64, rfl⟩
  refine ⟨_, _, .bench (no_images (w := world) h1) (.cp (rs := []) ?_ .done), .cp (rs := []) ?_ .done⟩
  · refine if_pos ?_
    rw [h2]
    decide +kernel
  · dsimp only [replaced]
    rw [if_pos (by decide +kernel)]

/-- C95, diagrams: the report for eight colours is shown with the others of cluster-colors. -/
example : diagramCsv "cluster-colors_8.csv".toList = true ∧ seriesOf "cluster-colors_8.csv".toList = "cluster-colors".toList ∧
    diagramCsv "cat.rect.hilbert.csv".toList = false := by decide +kernel

/-- C95, diagrams: numbers can be shown in such a way. -/
example : ∃ name, reportPath showFraction (.clusterColors 8) = "output/".toList ++ name ∧ '/' ∉ name ∧ diagramCsv name = true ∧
    seriesOf name = "cluster-colors".toList := C95_shown showFraction_shows _

end MakefileExamples
end Cniic
