import Verif.Proofs.Codec

/-!
# C40, C41, C42, C57: codec strings
-/

namespace Cniic
open Spec Prs

/-! ## C40 -/

/-- **C40.** On ASCII text with at most 65535 open parentheses the call parser accepts exactly the calls and
returns their pieces; everything else is rejected, and nothing panics. -/
theorem C40_calls (chk : Bool) (s : List Char) (ha : Ascii s) (hs : Shallow s) :
    (∀ name args, funCall chk s = .ok (name, args) ↔ IsCall s name args) ∧
    ((∀ name args, ¬ IsCall s name args) → funCall chk s = .err ()) :=
  ⟨funCall_iff ha hs, funCall_err ha hs⟩

/-- **C40.** The pieces are determined by the text. -/
theorem C40_unique {s n n' : List Char} {a a' : List (List Char)} (h : IsCall s n a) (h' : IsCall s n' a') :
    n = n' ∧ a = a' := isCall_unique h h'

/-- **C40.** Text that is not ASCII is never accepted: the position of the closing parenthesis is counted in
characters and compared with a length in bytes. -/
theorem C40_non_ascii (chk : Bool) (s : List Char) (hna : ¬ Ascii s) (hs : Shallow s)
    (x : List Char × List (List Char)) : funCall chk s ≠ .ok x := funCall_nonAscii hna hs x

/-- Short texts are shallow. -/
theorem shallow_of_length {s : List Char} (h : s.length ≤ 65535) : Shallow s := by
  rintro p ⟨t, rfl⟩
  have := List.count_le_length (a := '(') (l := p)
  simp at h
  omega

/-- Two arguments, one with a nested call. -/
example : IsCall "ab(f(x,y),z)".toList "ab".toList ["f(x,y)".toList, "z".toList] :=
  ((C40_calls true _ (by unfold Ascii; decide) (shallow_of_length (by decide))).1 _ _).1 (by decide +kernel)

/-- Too many closing parentheses. -/
example : funCall false "ab(f))".toList = .err () := by decide +kernel

/-- A call with a letter that is not ASCII. -/
example : funCall false "zip(é)".toList = .err () := by decide +kernel

/-! ## C57 -/

/-- **C57.** 65536 opening parentheses after a name: with overflow checks the parser panics whatever follows.
Without them the counter wraps around to zero and the text counts as a call without arguments, although
nothing is closed. -/
theorem C57_overflow (name : List Char) (hne : name ≠ []) (ha : Ascii name) (hn : ∀ c ∈ name, ¬ Special c) :
    (∀ rest, funCall true (name ++ (List.replicate 65536 '(' ++ rest)) = .panic) ∧
    funCall false (name ++ List.replicate 65536 '(') = .ok (name, []) ∧
    ∀ args, ¬ IsCall (name ++ List.replicate 65536 '(') name args := by
  refine ⟨fun rest => ?_, ?_, fun args h => ?_⟩
  · rw [funCall, loop_overflow true name rest hne ha hn]
    rfl
  · have := loop_overflow false name [] hne ha hn
    rw [List.append_nil] at this
    rw [funCall, this]
    rfl
  · have ht := congrArg List.getLast? h.text
    have h65 : ∃ m, 65536 = m + 1 := ⟨65535, rfl⟩
    obtain ⟨m, h6⟩ := h65
    rw [h6, List.replicate_succ', ← List.append_assoc, List.getLast?_concat, ← List.cons_append,
      ← List.append_assoc, List.getLast?_concat] at ht
    exact absurd ht (by decide)

example : "zip".toList ≠ [] ∧ Ascii "zip".toList ∧ ∀ c ∈ "zip".toList, ¬ Special c := by
  refine ⟨by decide, by unfold Ascii; decide, by decide⟩

/-! ## C41 -/

/-- **C41.** Parsing an ASCII codec string with at most 65535 open parentheses panics exactly for the strings
`hilbert(rle())` and `Hilbert(rle())`. -/
theorem C41_panics (chk : Bool) (uniDigit : Char → Bool) (parseF64 : List Char → Option F64) (s : List Char)
    (ha : Ascii s) (hs : Shallow s) : anyCodecFromStr chk uniDigit parseF64 s = .panic ↔
      s = "hilbert(rle())".toList ∨ s = "Hilbert(rle())".toList := by
  rw [any_panic_iff ha hs]
  constructor
  · rintro ⟨h, rfl | rfl, rfl⟩
    · exact .inr rfl
    · exact .inl rfl
  · rintro (rfl | rfl)
    · exact ⟨'h', .inr rfl, rfl⟩
    · exact ⟨'H', .inl rfl, rfl⟩

/-- **C41, false of the code for other strings:** one letter that is not ASCII before a parenthesis. -/
theorem C41_refuted (chk : Bool) (uniDigit : Char → Bool) (parseF64 : List Char → Option F64) :
    anyCodecFromStr chk uniDigit parseF64 "é(".toList = .panic := rfl

/-- A string with everything that is special and no panic. -/
example : Ascii "hilbert(rle(1,2),)".toList ∧ Shallow "hilbert(rle(1,2),)".toList :=
  ⟨by unfold Ascii; decide, shallow_of_length (by decide)⟩

/-! ## C42 -/

/-- Trying alternatives: `ParseAlternatives::new(s)`, then `then_try` for each of them, then `end`. -/
def tryAll {T : Type} (alts : List (String × Ret ParseError T)) : Ret ParseError T :=
  (alts.foldl (fun a r => Alternatives.thenTry a r.1 r.2) Alternatives.new).end

/-- Alternatives that all fail. -/
def failing (T : Type) (es : List (String × ParseError)) : List (String × Ret ParseError T) :=
  es.map fun e => (e.1, .err e.2)

theorem failing_foldl (T : Type) (es fs : List (String × ParseError)) :
    (failing T es).foldl (fun a r => Alternatives.thenTry a r.1 r.2) (.err fs) = .err (fs ++ es) := by
  induction es generalizing fs with
  | nil => simp [failing]
  | cons e es ih =>
    have := ih (fs ++ [e])
    rw [List.append_assoc] at this
    exact this

/-- **C42.** The alternatives are tried in order: the first that accepts wins, whatever follows. -/
theorem C42_first {T : Type} (pre : List (String × ParseError)) (name : String) (x : T)
    (post : List (String × Ret ParseError T)) : tryAll (failing T pre ++ (name, .ok x) :: post) = .ok x := by
  have h2 : post.foldl (fun a r => Alternatives.thenTry a r.1 r.2) (.ok x) = .ok x := by
    induction post with
    | nil => rfl
    | cons r post ih => exact ih
  rw [tryAll, List.foldl_append, Alternatives.new, failing_foldl, List.foldl_cons]
  have h3 : (Alternatives.thenTry (.err ([] ++ pre)) name (.ok x) : Alternatives T) = .ok x := rfl
  rw [h3, h2]
  rfl

/-- **C42.** If all fail, every failure is reported, in order. -/
theorem C42_all_failed {T : Type} (es : List (String × ParseError)) :
    tryAll (failing T es) = .err (.allFailed es) := by
  rw [tryAll, Alternatives.new, failing_foldl]
  rfl

/-- **C42.** The codecs are tried in this order. -/
theorem C42_order (chk : Bool) (uniDigit : Char → Bool) (parseF64 : List Char → Option F64) (s : List Char) :
    anyCodecFromStr chk uniDigit parseF64 s = tryAll
      [("ClusterColors", clusterColorsFromStr uniDigit s), ("VoronoiCluster", voronoiFromStr uniDigit s),
       ("Delta", deltaFromStr s), ("Hilbert", hilbertFromStr chk parseF64 s), ("Hufman", hufmanFromStr s),
       ("Zip", zipFromStr chk s)] := rfl

/-- **C42.** `ccol(n)`, `cluster-colors(n)` and all in between select the colour clustering with this number;
so does every longer string with such a part, if no opening parenthesis comes before. -/
theorem C42_cluster (chk : Bool) (uniDigit : Char → Bool) (parseF64 : List Char → Option F64)
    (pre name ds post : List Char) (hpre : '(' ∉ pre) (hname : name ∈ clusterNames) (hd : Decimal ds)
    (hval : Nat.ofDigitChars 10 ds 0 < 2 ^ 64) :
    anyCodecFromStr chk uniDigit parseF64 (pre ++ (applied name ds ++ post)) =
      .ok (.clusterColors (UInt64.ofNat (Nat.ofDigitChars 10 ds 0))) := by
  have h : clusterColorsFromStr uniDigit (pre ++ (applied name ds ++ post)) =
      .ok (.clusterColors (UInt64.ofNat (Nat.ofDigitChars 10 ds 0))) := by
    rw [clusterColorsFromStr, captures_applied (clusterColorsRe_for uniDigit) (isDecimal_close uniDigit)
      clusterNames_open hpre hname hd.1 (fun c hc => isDecimal_of_isDigit uniDigit (hd.2 c hc))]
    simp only
    rw [usizeFromStr_digits hd, if_pos hval]
  rw [anyCodecFromStr, h]
  rfl

/-- **C42.** The same for `voronoi(n)`, if there is no part for the colour clustering. -/
theorem C42_voronoi (chk : Bool) (uniDigit : Char → Bool) (parseF64 : List Char → Option F64)
    (pre ds post : List Char) (hpre : '(' ∉ pre) (hd : Decimal ds) (hval : Nat.ofDigitChars 10 ds 0 < 2 ^ 64)
    (hno : ¬ Mentions (isDecimal uniDigit) clusterNames (pre ++ (applied "voronoi".toList ds ++ post))) :
    anyCodecFromStr chk uniDigit parseF64 (pre ++ (applied "voronoi".toList ds ++ post)) =
      .ok (.voronoi (UInt64.ofNat (Nat.ofDigitChars 10 ds 0))) := by
  have h : voronoiFromStr uniDigit (pre ++ (applied "voronoi".toList ds ++ post)) =
      .ok (.voronoi (UInt64.ofNat (Nat.ofDigitChars 10 ds 0))) := by
    rw [voronoiFromStr, captures_applied (voronoiRe_for uniDigit) (isDecimal_close uniDigit)
      (by decide) hpre (List.mem_singleton.2 rfl) hd.1
      (fun c hc => isDecimal_of_isDigit uniDigit (hd.2 c hc))]
    simp only
    rw [usizeFromStr_digits hd, if_pos hval]
  rw [anyCodecFromStr, cluster_none hno, h]
  rfl

/-- A part `name(ds)` of `plain(rest` with more parentheses in neither: the name ends `plain`. -/
theorem mentions_plain {digit : Char → Bool} {names : List (List Char)} {plain ds post : List Char}
    (hp : '(' ∉ plain) (hq : '(' ∉ ds ++ post) (h : Mentions digit names (applied plain ds ++ post)) :
    ∃ pre name, name ∈ names ∧ plain = pre ++ name := by
  obtain ⟨pre, post', name, ds', ht, hn, -, -⟩ := h
  rw [applied_append, applied_append] at ht
  have hc := congrArg (List.count '(') ht
  simp only [List.count_append, List.count_cons_self, List.count_cons_of_ne (show ')' ≠ '(' by decide),
    List.count_eq_zero.2 hp] at hc
  simp only [List.mem_append, not_or] at hq
  rw [List.count_eq_zero.2 hq.1, List.count_eq_zero.2 hq.2] at hc
  have h1 : '(' ∉ pre ++ name := by
    rw [← List.count_eq_zero, List.count_append]; omega
  rw [← List.append_assoc] at ht
  obtain ⟨h2, -, -⟩ := split_unique (P := fun c => c = '(') (by rintro c hc rfl; exact hp hc)
    (by rintro c hc rfl; exact h1 hc) rfl rfl ht
  exact ⟨pre, name, hn, h2⟩

/-- **C42.** `voronoi(n)` itself has no such part. -/
theorem C42_voronoi_plain (chk : Bool) (uniDigit : Char → Bool) (parseF64 : List Char → Option F64)
    (ds : List Char) (hd : Decimal ds) (hval : Nat.ofDigitChars 10 ds 0 < 2 ^ 64) :
    anyCodecFromStr chk uniDigit parseF64 (applied "voronoi".toList ds) =
      .ok (.voronoi (UInt64.ofNat (Nat.ofDigitChars 10 ds 0))) := by
  have hq : '(' ∉ ds ++ [] := by
    intro h
    exact absurd (hd.2 '(' (by simpa using h)) (by decide)
  have hno : ¬ Mentions (isDecimal uniDigit) clusterNames (applied "voronoi".toList ds ++ []) := by
    intro h
    obtain ⟨pre, name, hn, ht⟩ := mentions_plain (by decide) hq h
    have ht : name <:+ "voronoi".toList := ⟨pre, ht.symm⟩
    have hno : ∀ n ∈ clusterNames, ¬ n <:+ "voronoi".toList := by decide
    exact hno name hn ht
  have := C42_voronoi chk uniDigit parseF64 [] ds [] (by simp) hd hval (by simpa using hno)
  simpa using this

/-- **C42.** A shallow ASCII string without a part for the clustering codecs is accepted exactly if it is one
of the other documented forms, and then selects that codec with its parameter. -/
theorem C42_selects (chk : Bool) (uniDigit : Char → Bool) (parseF64 : List Char → Option F64) (s : List Char)
    (ha : Ascii s) (hs : Shallow s) (hc : ¬ Mentions (isDecimal uniDigit) clusterNames s)
    (hv : ¬ Mentions (isDecimal uniDigit) ["voronoi".toList] s) (c : AnyCodec) :
    anyCodecFromStr chk uniDigit parseF64 s = .ok c ↔ Selects parseF64 s c := any_ok_iff ha hs hc hv c

/-- **C42.** Whatever is selected as a clustering codec has such a part. -/
theorem C42_mentions (chk : Bool) (uniDigit : Char → Bool) (parseF64 : List Char → Option F64) (s : List Char)
    (n : UInt64) (ha : Ascii s) (hs : Shallow s) :
    (anyCodecFromStr chk uniDigit parseF64 s = .ok (.clusterColors n) →
      Mentions (isDecimal uniDigit) clusterNames s) ∧
    (anyCodecFromStr chk uniDigit parseF64 s = .ok (.voronoi n) →
      Mentions (isDecimal uniDigit) ["voronoi".toList] s) := by
  constructor
  · intro h
    apply Classical.byContradiction
    intro hc
    rcases voronoi_cases uniDigit s with ⟨e₂, h₂⟩ | ⟨m, h₂⟩
    · have := ((later_spec ha hs (cluster_none hc) h₂).2 _).1 h
      cases this
    · rw [anyCodecFromStr, cluster_none hc, h₂] at h
      cases h
  · intro h
    apply Classical.byContradiction
    intro hv
    rcases cluster_cases uniDigit s with ⟨e₁, h₁⟩ | ⟨m, h₁⟩
    · have := ((later_spec ha hs h₁ (voronoi_none hv)).2 _).1 h
      cases this
    · rw [anyCodecFromStr, h₁] at h
      cases h

/-- **C42.** Text that is not ASCII can only select a clustering codec. -/
theorem C42_non_ascii (chk : Bool) (uniDigit : Char → Bool) (parseF64 : List Char → Option F64) (s : List Char)
    (hna : ¬ Ascii s) (hs : Shallow s) (c : AnyCodec) (h : anyCodecFromStr chk uniDigit parseF64 s = .ok c) :
    (∃ n, c = .clusterColors n) ∨ ∃ n, c = .voronoi n := any_nonAscii hna hs h

/-- Who accepts. -/
theorem any_later {chk : Bool} {uniDigit : Char → Bool} {parseF64 : List Char → Option F64} {s : List Char} {c : AnyCodec}
    (h : anyCodecFromStr chk uniDigit parseF64 s = .ok c) :
    clusterColorsFromStr uniDigit s = .ok c ∨ voronoiFromStr uniDigit s = .ok c ∨ deltaFromStr s = .ok c ∨
      hilbertFromStr chk parseF64 s = .ok c ∨ hufmanFromStr s = .ok c ∨ zipFromStr chk s = .ok c := by
  unfold anyCodecFromStr at h
  generalize clusterColorsFromStr uniDigit s = a1 at *
  generalize voronoiFromStr uniDigit s = a2 at *
  generalize deltaFromStr s = a3 at *
  generalize hilbertFromStr chk parseF64 s = a4 at *
  generalize hufmanFromStr s = a5 at *
  generalize zipFromStr chk s = a6 at *
  rcases a1 with x | x | _
  · exact .inl (congrArg _ (Ret.ok.inj h))
  rotate_left
  · cases h
  rcases a2 with x | x | _
  · exact .inr (.inl (congrArg _ (Ret.ok.inj h)))
  rotate_left
  · cases h
  rcases a3 with x | x | _
  · exact .inr (.inr (.inl (congrArg _ (Ret.ok.inj h))))
  rotate_left
  · cases h
  rcases a4 with x | x | _
  · exact .inr (.inr (.inr (.inl (congrArg _ (Ret.ok.inj h)))))
  rotate_left
  · cases h
  rcases a5 with x | x | _
  · exact .inr (.inr (.inr (.inr (.inl (congrArg _ (Ret.ok.inj h))))))
  rotate_left
  · cases h
  rcases a6 with x | x | _
  · exact .inr (.inr (.inr (.inr (.inr (congrArg _ (Ret.ok.inj h))))))
  · cases h
  · cases h

theorem later_other {chk : Bool} {parseF64 : List Char → Option F64} {s : List Char} {c : AnyCodec}
    (h : deltaFromStr s = .ok c ∨ hilbertFromStr chk parseF64 s = .ok c ∨ hufmanFromStr s = .ok c ∨ zipFromStr chk s = .ok c)
    (n : UInt64) : c ≠ .clusterColors n ∧ c ≠ .voronoi n := by
  rcases h with h | h | h | h
  · unfold deltaFromStr at h
    split at h <;> cases h
    exact ⟨by simp, by simp⟩
  · unfold hilbertFromStr at h
    repeat' split at h
    all_goals cases h
    exact ⟨by simp, by simp⟩
  · unfold hufmanFromStr at h
    split at h <;> cases h
    exact ⟨by simp, by simp⟩
  · unfold zipFromStr at h
    repeat' split at h
    all_goals cases h
    all_goals exact ⟨by simp, by simp⟩

theorem usize_bad {ds : List Char} (hne : ds ≠ []) (hplus : '+' ∉ ds)
    (hbad : (∃ c ∈ ds, 128 ≤ c.toNat) ∨ (∀ c ∈ ds, c.isDigit = true) ∧ 2 ^ 64 ≤ Nat.ofDigitChars 10 ds 0) :
    usizeFromStr ds = none := by
  rcases hbad with ⟨c, hc, h128⟩ | ⟨hd, hbig⟩
  · have hnone : ∀ acc, digitsVal acc ds = none := by
      clear hne hplus
      induction ds with
      | nil => simp at hc
      | cons d ds ih =>
        intro acc
        rw [digitsVal]
        rcases List.mem_cons.1 hc with rfl | hc
        · rw [if_neg]
          intro hdig
          have : c.val ≤ 57 := (by simpa [Char.isDigit] using hdig : _ ∧ _).2
          rw [UInt32.le_iff_toNat_le] at this
          have h2 : 128 ≤ c.val.toNat := h128
          have h3 : (57 : UInt32).toNat = 57 := rfl
          omega
        · split
          · exact ih hc _
          · rfl
    unfold usizeFromStr
    obtain ⟨d, ds, rfl⟩ := List.exists_cons_of_ne_nil hne
    split
    · rename_i h2
      simp only [List.cons.injEq] at h2
      exact absurd (by simp [h2.1]) hplus
    · simp [hnone]
  · rw [usizeFromStr_digits ⟨hne, hd⟩, if_neg (by omega)]

/-- **C42.** A number that does not fit, or that is written with digits of another script: the leftmost match decides, even if a
good part follows, and the parser reports the number; the codec is not selected. -/
theorem C42_bad_number (chk : Bool) (uniDigit : Char → Bool) (parseF64 : List Char → Option F64)
    (pre name ds post : List Char) (hpre : '(' ∉ pre) (hne : ds ≠ [])
    (hd : ∀ c ∈ ds, c.isDigit = true ∨ (128 ≤ c.toNat ∧ uniDigit c = true))
    (hbad : (∃ c ∈ ds, 128 ≤ c.toNat) ∨ (∀ c ∈ ds, c.isDigit = true) ∧ 2 ^ 64 ≤ Nat.ofDigitChars 10 ds 0) (n : UInt64) :
    (name ∈ clusterNames →
      clusterColorsFromStr uniDigit (pre ++ (applied name ds ++ post)) = .err (.other .badInteger) ∧
      anyCodecFromStr chk uniDigit parseF64 (pre ++ (applied name ds ++ post)) ≠ .ok (.clusterColors n)) ∧
    (voronoiFromStr uniDigit (pre ++ (applied "voronoi".toList ds ++ post)) = .err (.other .badInteger) ∧
      anyCodecFromStr chk uniDigit parseF64 (pre ++ (applied "voronoi".toList ds ++ post)) ≠ .ok (.voronoi n)) := by
  have hdec : ∀ c ∈ ds, isDecimal uniDigit c = true := by
    intro c hc
    rcases hd c hc with h | ⟨h1, h2⟩
    · exact isDecimal_of_isDigit uniDigit h
    · simp [isDecimal, h1, h2]
  have hplus : '+' ∉ ds := fun h => by
    rcases hd '+' h with h | h
    · exact absurd h (by decide)
    · exact absurd h.1 (by decide)
  constructor
  · intro hname
    have h : clusterColorsFromStr uniDigit (pre ++ (applied name ds ++ post)) = .err (.other .badInteger) := by
      rw [clusterColorsFromStr, captures_applied (clusterColorsRe_for uniDigit) (isDecimal_close uniDigit)
        clusterNames_open hpre hname hne hdec]
      simp only
      rw [usize_bad hne hplus hbad]
    refine ⟨h, fun hok => ?_⟩
    rcases any_later hok with h2 | h2 | h2
    · rw [h] at h2; cases h2
    · rcases voronoi_cases uniDigit (pre ++ (applied name ds ++ post)) with ⟨e, h3⟩ | ⟨m, h3⟩ <;> rw [h3] at h2 <;> cases h2
    · exact (later_other h2 n).1 rfl
  · have h : voronoiFromStr uniDigit (pre ++ (applied "voronoi".toList ds ++ post)) = .err (.other .badInteger) := by
      rw [voronoiFromStr, captures_applied (voronoiRe_for uniDigit) (isDecimal_close uniDigit)
        (by decide) hpre (List.mem_singleton.2 rfl) hne hdec]
      simp only
      rw [usize_bad hne hplus hbad]
    refine ⟨h, fun hok => ?_⟩
    rcases any_later hok with h2 | h2 | h2
    · rcases cluster_cases uniDigit (pre ++ (applied "voronoi".toList ds ++ post)) with ⟨e, h3⟩ | ⟨m, h3⟩ <;>
        rw [h3] at h2 <;> cases h2
    · rw [h] at h2; cases h2
    · exact (later_other h2 n).2 rfl

/-- Arabic-Indic digits before ASCII digits: nothing is selected, although the second part is fine. -/
example : clusterColorsFromStr (fun c => c == '٣') "ccol(1٣)ccol(5)".toList = .err (.other .badInteger) ∧
    clusterColorsFromStr (fun _ => false) "ccol(1٣)ccol(5)".toList = .ok (.clusterColors 5) := by
  constructor <;> rfl

/-- **C42.** The form `reduce-colors(n)` of the usage message is rejected, for every number, with six failures. -/
theorem C42_usage (chk : Bool) (uniDigit : Char → Bool) (parseF64 : List Char → Option F64) (ds : List Char)
    (hd : Decimal ds) :
    anyCodecFromStr chk uniDigit parseF64 (applied "reduce-colors".toList ds) = .err (.allFailed
      [("ClusterColors", .other .noMatch), ("VoronoiCluster", .other .noMatch),
       ("Delta", .wrongName "delta".toList (applied "reduce-colors".toList ds)),
       ("Hilbert", .other (.incorrectName "reduce-colors".toList)), ("Hufman", .other .notHufman),
       ("Zip", .other (.incorrectName "reduce-colors".toList))]) := by
  have hdig : ∀ c ∈ ds, c.toNat < 128 ∧ ¬ Special c := by
    intro c hc
    have h := hd.2 c hc
    constructor
    · have : c.val ≤ 57 := (by simpa [Char.isDigit] using h : _ ∧ _).2
      rw [UInt32.le_iff_toNat_le] at this
      show c.val.toNat < 128
      exact Nat.lt_of_le_of_lt this (by decide)
    · rintro (rfl | rfl | rfl) <;> exact absurd h (by decide)
  have hq : '(' ∉ ds ++ [] := by
    intro h
    exact (hdig '(' (by simpa using h)).2 (.inl rfl)
  have no : ∀ names : List (List Char), (∀ n ∈ names, ¬ n <:+ "reduce-colors".toList) →
      ¬ Mentions (isDecimal uniDigit) names (applied "reduce-colors".toList ds) := by
    intro names hnames h
    obtain ⟨pre, name, hn, ht⟩ := mentions_plain (plain := "reduce-colors".toList) (by decide) hq
      (by simpa using h)
    exact hnames name hn ⟨pre, ht.symm⟩
  have hasc : Ascii (applied "reduce-colors".toList ds) := by
    have h1 : ∀ c ∈ "reduce-colors(".toList, c.toNat < 128 := by decide
    intro c hc
    have hc' : c ∈ "reduce-colors(".toList ++ (ds ++ [')']) := hc
    rcases List.mem_append.1 hc' with h | h
    · exact h1 c h
    · rcases List.mem_append.1 h with h | h
      · exact (hdig c h).1
      · obtain rfl := List.mem_singleton.1 h; decide
  have hcall : IsCall (applied "reduce-colors".toList ds) "reduce-colors".toList [ds] := by
    refine ⟨rfl, by decide, by decide, ?_⟩
    intro b hb
    obtain rfl := List.mem_singleton.1 hb
    refine ⟨hd.1, ?_⟩
    have hsp := fun c hc => (hdig c hc).2
    clear hd hdig hq no hasc hb
    induction b with
    | nil => exact .nil
    | cons c b ih => exact .chr (hsp c (by simp)) (ih fun d hd => hsp d (by simp [hd]))
  have hlen : (applied "reduce-colors".toList ds).length = 15 + ds.length := by
    simp [applied]; omega
  have hsh : Shallow (applied "reduce-colors".toList ds) := by
    rintro p hp
    have h1 := hp.sublist.count_le '('
    have h2 : (applied "reduce-colors".toList ds).count '(' = 1 := by
      have h3 : "reduce-colors".toList.count '(' = 0 := by decide
      rw [applied, List.count_append, List.count_cons_self, h3, List.count_append,
        List.count_eq_zero.2 (by simpa using hq)]
      rfl
    omega
  have hf := (funCall_iff (chk := chk) hasc hsh _ _).2 hcall
  have hhil : hilbertFromStr chk parseF64 (applied "reduce-colors".toList ds) =
      .err (.other (.incorrectName "reduce-colors".toList)) := by
    rw [hilbertFromStr, hf]; rfl
  have hzip : zipFromStr chk (applied "reduce-colors".toList ds) =
      .err (.other (.incorrectName "reduce-colors".toList)) := by
    rw [zipFromStr, hf]; rfl
  have hdel : deltaFromStr (applied "reduce-colors".toList ds) =
      .err (.wrongName "delta".toList (applied "reduce-colors".toList ds)) := by
    rw [delta_eq, if_neg]
    intro h
    have := congrArg List.length h
    rw [hlen] at this
    simp at this
    omega
  have hhuf : hufmanFromStr (applied "reduce-colors".toList ds) = .err (.other .notHufman) := by
    rw [hufmanFromStr, if_neg]
    intro h
    have := congrArg List.length h
    rw [List.length_map, hlen] at this
    simp at this
    omega
  rw [anyCodecFromStr, cluster_none (no _ (by decide)), voronoi_none (no _ (by decide)), hdel, hhil, hhuf, hzip]
  rfl

/-- The text `2.5` stands for a number. -/
def someF64 (s : List Char) : Option F64 := if s = "2.5".toList then some (.fin (5 / 2)) else none

example : Nat.ofDigitChars 10 "0240".toList 0 = 240 ∧ Decimal "0240".toList ∧
    "c-colors".toList ∈ clusterNames := by
  refine ⟨by decide, ⟨by decide, by decide⟩, by decide⟩

example : anyCodecFromStr true (fun _ => false) someF64 "zip(dict)ccol(3)".toList = .ok (.clusterColors 3) :=
  rfl

example : Selects someF64 "hilbert(rle(2.5))".toList (.hilbert (.rle (.fin (5 / 2)))) :=
  (C42_selects true (fun _ => false) someF64 _ (by unfold Ascii; decide) (shallow_of_length (by decide))
    (by rw [← captures_mentions (clusterColorsRe_for _)]; decide +kernel)
    (by rw [← captures_mentions (voronoiRe_for _)]; decide +kernel) _).1 rfl

example : anyCodecFromStr false (fun _ => false) someF64 "HuFman".toList = .ok .hufman := rfl

end Cniic
