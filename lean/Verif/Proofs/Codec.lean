import Verif.Proofs.Prs
import Verif.Spec.Codec

/-! # Proofs: codec names -/

namespace Cniic
open Spec Prs

/-! ## Regular expressions -/

/-- `r` matches a part at the beginning of the third argument; the rest is the last one. -/
inductive Matches : Re → List Char → List Char → List Char → List Char → Prop
  | empty {cap s} : Matches .empty cap s cap s
  | chr {p : Char → Bool} {x cap s} : p x = true → Matches (.chr p) cap (x :: s) cap s
  | seq {a b cap s cap' s' cap'' s''} : Matches a cap s cap' s' → Matches b cap' s' cap'' s'' →
      Matches (.seq a b) cap s cap'' s''
  | some {a cap s cap' s'} : Matches a cap s cap' s' → Matches (.opt a) cap s cap' s'
  | none {a cap s} : Matches (.opt a) cap s cap s
  | captured {p : Char → Bool} {x w cap s} : p x = true → (∀ y ∈ w, p y = true) →
      Matches (.captured p) cap (x :: (w ++ s)) (x :: w) s

theorem starRun_sound {β : Type} {p : Char → Bool} {k : List Char → List Char → Option β} {b : β}
    (s acc : List Char) (h : starRun p k acc s = some b) :
    ∃ w rest, s = w ++ rest ∧ (∀ y ∈ w, p y = true) ∧ k (acc ++ w) rest = some b := by
  induction s generalizing acc with
  | nil => exact ⟨[], [], rfl, by simp, by simpa [starRun] using h⟩
  | cons x s ih =>
    rw [starRun] at h
    split at h
    · rename_i hx
      rcases Option.or_eq_some_iff.1 (by simpa using h) with h | h
      · obtain ⟨w, rest, rfl, hw, hk⟩ := ih _ h
        exact ⟨x :: w, rest, rfl, by simpa [hx] using hw, by simpa using hk⟩
      · exact ⟨[], x :: s, rfl, by simp, by simpa using h.2⟩
    · exact ⟨[], x :: s, rfl, by simp, by simpa using h⟩

theorem starRun_complete {β : Type} {p : Char → Bool} {k : List Char → List Char → Option β}
    (w rest acc : List Char) (hw : ∀ y ∈ w, p y = true) (h : (k (acc ++ w) rest).isSome) :
    (starRun p k acc (w ++ rest)).isSome := by
  induction w generalizing acc with
  | nil =>
    cases rest with
    | nil => simpa [starRun] using h
    | cons x s =>
      rw [List.append_nil] at h
      rw [List.nil_append, starRun]
      split
      · simp [h]
      · exact h
  | cons x w ih =>
    have := ih (acc ++ [x]) (fun y hy => hw y (by simp [hy])) (by simpa using h)
    rw [List.cons_append, starRun, if_pos (hw x (by simp))]
    simp [this]

theorem run_sound {β : Type} (r : Re) (cap s : List Char) (k : List Char → List Char → Option β) (b : β)
    (h : r.run cap s k = some b) : ∃ cap' rest, Matches r cap s cap' rest ∧ k cap' rest = some b := by
  induction r generalizing cap s k with
  | empty => exact ⟨cap, s, .empty, h⟩
  | chr p =>
    cases s with
    | nil => simp [Re.run] at h
    | cons x s =>
      simp only [Re.run] at h
      split at h
      · exact ⟨cap, s, .chr ‹_›, h⟩
      · simp at h
  | seq a c iha ihc =>
    obtain ⟨cap', s', ha, h⟩ := iha cap s _ h
    obtain ⟨cap'', s'', hc, h⟩ := ihc cap' s' k h
    exact ⟨cap'', s'', .seq ha hc, h⟩
  | opt a ih =>
    simp only [Re.run] at h
    rcases Option.or_eq_some_iff.1 (by simpa using h) with h | h
    · obtain ⟨cap', s', ha, h⟩ := ih cap s k h
      exact ⟨cap', s', .some ha, h⟩
    · exact ⟨cap, s, .none, h.2⟩
  | captured p =>
    cases s with
    | nil => simp [Re.run] at h
    | cons x s =>
      simp only [Re.run] at h
      split at h
      · obtain ⟨w, rest, rfl, hw, hk⟩ := starRun_sound s [x] h
        exact ⟨x :: w, rest, .captured ‹_› hw, by simpa using hk⟩
      · simp at h

theorem run_complete {β : Type} {r : Re} {cap s cap' rest : List Char} (hm : Matches r cap s cap' rest)
    (k : List Char → List Char → Option β) (h : (k cap' rest).isSome) : (r.run cap s k).isSome := by
  induction hm generalizing k with
  | empty => exact h
  | chr hp => simpa [Re.run, hp] using h
  | seq _ _ iha ihb => exact iha _ (ihb k h)
  | some _ ih => simp [Re.run, ih k h]
  | none => simp [Re.run, h]
  | captured hx hw =>
    simp only [Re.run, hx, if_true]
    exact starRun_complete _ _ _ hw (by simpa using h)

theorem matches_str (t cap s cap' rest : List Char) :
    Matches (.str t) cap s cap' rest ↔ s = t ++ rest ∧ cap' = cap := by
  induction t generalizing s with
  | nil =>
    constructor
    · intro h; cases h; exact ⟨rfl, rfl⟩
    · rintro ⟨rfl, rfl⟩; exact .empty
  | cons c t ih =>
    constructor
    · intro h
      cases h with
      | seq ha hb =>
        cases ha with
        | chr hp =>
          obtain ⟨rfl, rfl⟩ := (ih _).1 hb
          simp only [beq_iff_eq] at hp
          subst hp
          exact ⟨rfl, rfl⟩
    · rintro ⟨rfl, rfl⟩
      exact .seq (.chr (by simp)) ((ih _).2 ⟨rfl, rfl⟩)

theorem matches_seq {a b : Re} {cap s cap'' s'' : List Char} :
    Matches (.seq a b) cap s cap'' s'' ↔ ∃ cap' s', Matches a cap s cap' s' ∧ Matches b cap' s' cap'' s'' := by
  constructor
  · intro h; cases h with | seq ha hb => exact ⟨_, _, ha, hb⟩
  · rintro ⟨_, _, ha, hb⟩; exact .seq ha hb

theorem matches_opt {a : Re} {cap s cap' s' : List Char} :
    Matches (.opt a) cap s cap' s' ↔ Matches a cap s cap' s' ∨ (s' = s ∧ cap' = cap) := by
  constructor
  · intro h
    cases h with
    | some h => exact .inl h
    | none => exact .inr ⟨rfl, rfl⟩
  · rintro (h | ⟨rfl, rfl⟩)
    · exact .some h
    · exact .none

theorem matches_captured {p : Char → Bool} {cap s cap' s' : List Char} :
    Matches (.captured p) cap s cap' s' ↔ s = cap' ++ s' ∧ cap' ≠ [] ∧ ∀ c ∈ cap', p c = true := by
  constructor
  · intro h
    cases h with
    | captured hx hw => exact ⟨rfl, by simp, by simpa [hx] using hw⟩
  · rintro ⟨rfl, hne, hp⟩
    obtain ⟨x, w, rfl⟩ := List.exists_cons_of_ne_nil hne
    exact .captured (hp x (by simp)) fun y hy => hp y (by simp [hy])

theorem matchesFully_iff (s : List Char) (r : Re) :
    matchesFully s r = true ↔ ∃ cap', Matches r [] s cap' [] := by
  constructor
  · intro h
    obtain ⟨b, hb⟩ := Option.isSome_iff_exists.1 h
    obtain ⟨cap', rest, hm, hk⟩ := run_sound _ _ _ _ _ hb
    cases rest with
    | nil => exact ⟨cap', hm⟩
    | cons x rest => simp at hk
  · rintro ⟨cap', hm⟩
    exact run_complete hm _ rfl

theorem matchesFully_str (s t : List Char) : matchesFully s (.str t) = decide (s = t) := by
  have := matchesFully_iff s (.str t)
  simp only [matches_str, List.append_nil, exists_and_left, exists_eq, and_true] at this
  by_cases h : s = t
  · rw [this.2 h, decide_eq_true h]
  · simp only [h, decide_false]
    exact Bool.eq_false_iff.2 fun hh => h (this.1 hh)

theorem captures_sound {r : Re} {s c : List Char} (h : r.captures s = some c) :
    ∃ pre t rest, s = pre ++ t ∧ Matches r [] t c rest := by
  induction s with
  | nil =>
    obtain ⟨c', rest, hm, hk⟩ := run_sound _ _ _ _ _ h
    simp only [Option.some.injEq] at hk
    subst hk
    exact ⟨[], [], rest, rfl, hm⟩
  | cons x s ih =>
    rw [Re.captures] at h
    split at h
    · rename_i c' hr
      simp only [Option.some.injEq] at h
      subst h
      obtain ⟨c'', rest, hm, hk⟩ := run_sound _ _ _ _ _ hr
      simp only [Option.some.injEq] at hk
      subst hk
      exact ⟨[], x :: s, rest, rfl, hm⟩
    · obtain ⟨pre, t, rest, rfl, hm⟩ := ih h
      exact ⟨x :: pre, t, rest, rfl, hm⟩

theorem captures_leftmost {r : Re} {pre t c rest : List Char} (hm : Matches r [] t c rest) :
    ∃ c' pre₁ pre₂ rest', r.captures (pre ++ t) = some c' ∧ pre = pre₁ ++ pre₂ ∧
      Matches r [] (pre₂ ++ t) c' rest' := by
  induction pre with
  | nil =>
    have hs := run_complete hm (fun cap _ => some cap) rfl
    obtain ⟨c', hc'⟩ := Option.isSome_iff_exists.1 hs
    obtain ⟨c'', rest', hm', hk⟩ := run_sound _ _ _ _ _ hc'
    simp only [Option.some.injEq] at hk
    subst hk
    refine ⟨c'', [], [], rest', ?_, rfl, hm'⟩
    cases t with
    | nil => exact hc'
    | cons x t => simp only [List.nil_append, Re.captures, hc']
  | cons x pre ih =>
    cases hr : r.run [] (x :: (pre ++ t)) (fun cap _ => some cap) with
    | some c' =>
      obtain ⟨c'', rest', hm', hk⟩ := run_sound _ _ _ _ _ hr
      simp only [Option.some.injEq] at hk
      subst hk
      exact ⟨c'', [], x :: pre, rest', by simp only [List.cons_append, Re.captures, hr], rfl, hm'⟩
    | none =>
      obtain ⟨c', pre₁, pre₂, rest', h1, rfl, h3⟩ := ih
      exact ⟨c', x :: pre₁, pre₂, rest', by simp only [List.cons_append, Re.captures, hr, h1], rfl, h3⟩

/-! ## The clustering codecs -/

/-- A regular expression for `name(digits)`. -/
def ReFor (digit : Char → Bool) (names : List (List Char)) (r : Re) : Prop :=
  ∀ t c rest, Matches r [] t c rest ↔
    ∃ name, name ∈ names ∧ t = applied name c ++ rest ∧ c ≠ [] ∧ ∀ x ∈ c, digit x = true

theorem applied_append (name ds post : List Char) :
    applied name ds ++ post = name ++ '(' :: (ds ++ ')' :: post) := by simp [applied]

theorem voronoiRe_for (uniDigit : Char → Bool) :
    ReFor (isDecimal uniDigit) ["voronoi".toList] (voronoiRe uniDigit) := by
  intro t c rest
  simp only [voronoiRe, matches_seq, matches_str, matches_captured, List.mem_singleton]
  constructor
  · rintro ⟨_, _, ⟨rfl, rfl⟩, _, _, ⟨rfl, h1, h2⟩, rfl, rfl⟩
    exact ⟨_, rfl, by rw [applied_append]; rfl, h1, h2⟩
  · rintro ⟨_, rfl, rfl, h1, h2⟩
    exact ⟨_, _, ⟨by rw [applied_append]; rfl, rfl⟩, _, _, ⟨rfl, h1, h2⟩, rfl, rfl⟩

theorem clusterColorsRe_for (uniDigit : Char → Bool) :
    ReFor (isDecimal uniDigit) clusterNames (clusterColorsRe uniDigit) := by
  intro t c rest
  simp only [clusterColorsRe, matches_seq, matches_str, matches_captured, matches_opt]
  constructor
  · rintro ⟨_, _, ⟨rfl, rfl⟩, _, _, h1, _, _, h2, _, _, ⟨rfl, rfl⟩, _, _, h3, _, _, ⟨rfl, rfl⟩, _, _,
      ⟨rfl, hne, hd⟩, rfl, rfl⟩
    rcases h1 with ⟨rfl, rfl⟩ | ⟨rfl, rfl⟩ <;> rcases h2 with ⟨rfl, rfl⟩ | ⟨rfl, rfl⟩ <;>
      rcases h3 with ⟨rfl, rfl⟩ | ⟨rfl, rfl⟩
    · exact ⟨"cluster-colors".toList, by decide, by rw [applied_append]; rfl, hne, hd⟩
    · exact ⟨"cluster-col".toList, by decide, by rw [applied_append]; rfl, hne, hd⟩
    · exact ⟨"clustercolors".toList, by decide, by rw [applied_append]; rfl, hne, hd⟩
    · exact ⟨"clustercol".toList, by decide, by rw [applied_append]; rfl, hne, hd⟩
    · exact ⟨"c-colors".toList, by decide, by rw [applied_append]; rfl, hne, hd⟩
    · exact ⟨"c-col".toList, by decide, by rw [applied_append]; rfl, hne, hd⟩
    · exact ⟨"ccolors".toList, by decide, by rw [applied_append]; rfl, hne, hd⟩
    · exact ⟨"ccol".toList, by decide, by rw [applied_append]; rfl, hne, hd⟩
  · rintro ⟨name, hn, rfl, hne, hd⟩
    rw [applied_append]
    simp only [clusterNames, List.map_cons, List.map_nil, List.mem_cons, List.not_mem_nil, or_false] at hn
    rcases hn with rfl | rfl | rfl | rfl | rfl | rfl | rfl | rfl
    · exact ⟨_, _, ⟨rfl, rfl⟩, _, _, .inr ⟨rfl, rfl⟩, _, _, .inr ⟨rfl, rfl⟩, _, _, ⟨rfl, rfl⟩, _, _,
        .inr ⟨rfl, rfl⟩, _, _, ⟨rfl, rfl⟩, _, _, ⟨rfl, hne, hd⟩, rfl, rfl⟩
    · exact ⟨_, _, ⟨rfl, rfl⟩, _, _, .inr ⟨rfl, rfl⟩, _, _, .inr ⟨rfl, rfl⟩, _, _, ⟨rfl, rfl⟩, _, _,
        .inl ⟨rfl, rfl⟩, _, _, ⟨rfl, rfl⟩, _, _, ⟨rfl, hne, hd⟩, rfl, rfl⟩
    · exact ⟨_, _, ⟨rfl, rfl⟩, _, _, .inr ⟨rfl, rfl⟩, _, _, .inl ⟨rfl, rfl⟩, _, _, ⟨rfl, rfl⟩, _, _,
        .inr ⟨rfl, rfl⟩, _, _, ⟨rfl, rfl⟩, _, _, ⟨rfl, hne, hd⟩, rfl, rfl⟩
    · exact ⟨_, _, ⟨rfl, rfl⟩, _, _, .inr ⟨rfl, rfl⟩, _, _, .inl ⟨rfl, rfl⟩, _, _, ⟨rfl, rfl⟩, _, _,
        .inl ⟨rfl, rfl⟩, _, _, ⟨rfl, rfl⟩, _, _, ⟨rfl, hne, hd⟩, rfl, rfl⟩
    · exact ⟨_, _, ⟨rfl, rfl⟩, _, _, .inl ⟨rfl, rfl⟩, _, _, .inr ⟨rfl, rfl⟩, _, _, ⟨rfl, rfl⟩, _, _,
        .inr ⟨rfl, rfl⟩, _, _, ⟨rfl, rfl⟩, _, _, ⟨rfl, hne, hd⟩, rfl, rfl⟩
    · exact ⟨_, _, ⟨rfl, rfl⟩, _, _, .inl ⟨rfl, rfl⟩, _, _, .inr ⟨rfl, rfl⟩, _, _, ⟨rfl, rfl⟩, _, _,
        .inl ⟨rfl, rfl⟩, _, _, ⟨rfl, rfl⟩, _, _, ⟨rfl, hne, hd⟩, rfl, rfl⟩
    · exact ⟨_, _, ⟨rfl, rfl⟩, _, _, .inl ⟨rfl, rfl⟩, _, _, .inl ⟨rfl, rfl⟩, _, _, ⟨rfl, rfl⟩, _, _,
        .inr ⟨rfl, rfl⟩, _, _, ⟨rfl, rfl⟩, _, _, ⟨rfl, hne, hd⟩, rfl, rfl⟩
    · exact ⟨_, _, ⟨rfl, rfl⟩, _, _, .inl ⟨rfl, rfl⟩, _, _, .inl ⟨rfl, rfl⟩, _, _, ⟨rfl, rfl⟩, _, _,
        .inl ⟨rfl, rfl⟩, _, _, ⟨rfl, rfl⟩, _, _, ⟨rfl, hne, hd⟩, rfl, rfl⟩

/-- Two texts that agree have the same part before the first character of a kind. -/
theorem split_unique {P : Char → Prop} {a b : List Char} {x y : Char} {s t : List Char}
    (ha : ∀ c ∈ a, ¬ P c) (hb : ∀ c ∈ b, ¬ P c) (hx : P x) (hy : P y) (h : a ++ x :: s = b ++ y :: t) :
    a = b ∧ x = y ∧ s = t := by
  induction a generalizing b with
  | nil =>
    cases b with
    | nil => simpa using h
    | cons c b =>
      simp only [List.nil_append, List.cons_append, List.cons.injEq] at h
      exact absurd (h.1 ▸ hx) (hb c (by simp))
  | cons d a ih =>
    cases b with
    | nil =>
      simp only [List.nil_append, List.cons_append, List.cons.injEq] at h
      exact absurd (h.1 ▸ hy) (ha d (by simp))
    | cons c b =>
      simp only [List.cons_append, List.cons.injEq] at h
      obtain ⟨rfl, h⟩ := h
      obtain ⟨hab, hxy⟩ := ih (fun c hc => ha c (by simp [hc])) (fun c hc => hb c (by simp [hc])) h
      exact ⟨by rw [hab], hxy⟩

theorem captures_applied {digit : Char → Bool} {names : List (List Char)} {r : Re} (hr : ReFor digit names r)
    (hp : digit ')' = false) (hnames : ∀ name ∈ names, '(' ∉ name) {pre name ds post : List Char}
    (hpre : '(' ∉ pre) (hn : name ∈ names) (hne : ds ≠ []) (hd : ∀ c ∈ ds, digit c = true) :
    r.captures (pre ++ (applied name ds ++ post)) = some ds := by
  have hm : Matches r [] (applied name ds ++ post) ds post := (hr _ _ _).2 ⟨name, hn, rfl, hne, hd⟩
  obtain ⟨c', pre₁, pre₂, rest', hc, rfl, hm'⟩ := captures_leftmost (pre := pre) hm
  obtain ⟨name', hn', ht, hne', hd'⟩ := (hr _ _ _).1 hm'
  rw [hc]
  rw [applied_append, applied_append, ← List.append_assoc] at ht
  obtain ⟨-, -, ht⟩ := split_unique (P := fun c => c = '(') (by
      rintro c hc' rfl
      rcases List.mem_append.1 hc' with h | h
      · exact hpre (by simp [h])
      · exact hnames _ hn h) (by rintro c hc' rfl; exact hnames _ hn' hc') rfl rfl ht
  obtain ⟨rfl, -, -⟩ := split_unique (P := fun c => c = ')') (by
      rintro c hc' rfl; simp [hd _ hc'] at hp) (by rintro c hc' rfl; simp [hd' _ hc'] at hp) rfl rfl ht
  rfl

theorem captures_mentions {digit : Char → Bool} {names : List (List Char)} {r : Re} (hr : ReFor digit names r)
    (s : List Char) : (r.captures s).isSome ↔ Mentions digit names s := by
  constructor
  · intro h
    obtain ⟨c, hc⟩ := Option.isSome_iff_exists.1 h
    obtain ⟨pre, t, rest, rfl, hm⟩ := captures_sound hc
    obtain ⟨name, hn, rfl, hne, hd⟩ := (hr _ _ _).1 hm
    exact ⟨pre, rest, name, c, rfl, hn, hne, hd⟩
  · rintro ⟨pre, post, name, ds, rfl, hn, hne, hd⟩
    obtain ⟨c', _, _, _, hc, -, -⟩ := captures_leftmost (pre := pre)
      ((hr (applied name ds ++ post) ds post).2 ⟨name, hn, rfl, hne, hd⟩)
    rw [hc]
    rfl

theorem isDecimal_close (uniDigit : Char → Bool) : isDecimal uniDigit ')' = false := by
  simp [isDecimal]

theorem isDecimal_of_isDigit (uniDigit : Char → Bool) {c : Char} (h : c.isDigit = true) :
    isDecimal uniDigit c = true := by simp [isDecimal, h]

theorem clusterNames_open : ∀ name ∈ clusterNames, '(' ∉ name := by decide

theorem digitsVal_digits (ds : List Char) (h : ∀ c ∈ ds, c.isDigit = true) (acc : Nat) :
    digitsVal acc ds = some (Nat.ofDigitChars 10 ds acc) := by
  induction ds generalizing acc with
  | nil => rfl
  | cons c ds ih =>
    rw [digitsVal, if_pos (h c (by simp)), ih (fun d hd => h d (by simp [hd])), Nat.ofDigitChars_cons]
    rfl

theorem usizeFromStr_digits {ds : List Char} (h : Decimal ds) : usizeFromStr ds =
    if Nat.ofDigitChars 10 ds 0 < 2 ^ 64 then some (UInt64.ofNat (Nat.ofDigitChars 10 ds 0)) else none := by
  obtain ⟨hne, hd⟩ := h
  obtain ⟨c, ds, rfl⟩ := List.exists_cons_of_ne_nil hne
  have hc : c ≠ '+' := by
    rintro rfl
    exact absurd (hd '+' (by simp)) (by decide)
  unfold usizeFromStr
  split
  · rename_i h2
    simp only [List.cons.injEq] at h2
    exact absurd h2.1 hc
  · simp [digitsVal_digits _ hd]

/-! ## The codec strings -/

theorem cluster_none {uniDigit : Char → Bool} {s : List Char}
    (h : ¬ Mentions (isDecimal uniDigit) clusterNames s) :
    clusterColorsFromStr uniDigit s = .err (.other .noMatch) := by
  rw [← captures_mentions (clusterColorsRe_for uniDigit)] at h
  rw [clusterColorsFromStr, Option.not_isSome_iff_eq_none.1 h]

theorem voronoi_none {uniDigit : Char → Bool} {s : List Char}
    (h : ¬ Mentions (isDecimal uniDigit) ["voronoi".toList] s) :
    voronoiFromStr uniDigit s = .err (.other .noMatch) := by
  rw [← captures_mentions (voronoiRe_for uniDigit)] at h
  rw [voronoiFromStr, Option.not_isSome_iff_eq_none.1 h]

theorem cluster_cases (uniDigit : Char → Bool) (s : List Char) :
    (∃ e, clusterColorsFromStr uniDigit s = .err e) ∨
    ∃ n, clusterColorsFromStr uniDigit s = .ok (.clusterColors n) := by
  unfold clusterColorsFromStr
  split
  · exact .inl ⟨_, rfl⟩
  · split
    · exact .inr ⟨_, rfl⟩
    · exact .inl ⟨_, rfl⟩

theorem voronoi_cases (uniDigit : Char → Bool) (s : List Char) :
    (∃ e, voronoiFromStr uniDigit s = .err e) ∨ ∃ n, voronoiFromStr uniDigit s = .ok (.voronoi n) := by
  unfold voronoiFromStr
  split
  · exact .inl ⟨_, rfl⟩
  · split
    · exact .inr ⟨_, rfl⟩
    · exact .inl ⟨_, rfl⟩

theorem delta_eq (s : List Char) : deltaFromStr s =
    if s = "delta".toList then .ok .delta else .err (.wrongName "delta".toList s) := by
  rw [deltaFromStr, expectName, matchesFully_str]
  by_cases h : s = "delta".toList
  · rw [if_pos (decide_eq_true h), if_pos h]
  · rw [if_neg (by rw [decide_eq_true_eq]; exact h), if_neg h]

theorem ret_cases {ε α : Type} (r : Ret ε α) : (∃ a, r = .ok a) ∨ (∃ e, r = .err e) ∨ r = .panic := by
  cases r <;> simp

theorem isCall_arg {s name arg : List Char} (h : IsCall s name [arg]) (ha : Ascii s) (hs : Shallow s) :
    Ascii arg ∧ Shallow arg := by
  have htext : s = name ++ '(' :: (arg ++ [')']) := h.text
  refine ⟨fun c hc => ha c (by rw [htext]; simp [hc]), ?_⟩
  rintro p ⟨t, rfl⟩
  have hcount : ∀ d, Special d → name.count d = 0 := by
    intro d hd
    rw [List.count_eq_zero]
    intro hm
    exact h.name_plain d hm hd
  have := hs (name ++ '(' :: p) ⟨t ++ [')'], by rw [htext]; simp⟩
  rw [List.count_append, List.count_append, hcount _ (.inl rfl), hcount _ (.inr (.inl rfl)),
    List.count_cons_self, List.count_cons_of_ne (by decide)] at this
  omega

theorem isCall_unique {s n n' : List Char} {a a' : List (List Char)} (h : IsCall s n a) (h' : IsCall s n' a') :
    n = n' ∧ a = a' := by
  rw [← parseName_iff] at h h'
  rw [h] at h'
  simpa using h'

theorem parseRle_spec {chk : Bool} {parseF64 : List Char → Option F64} {s : List Char} (ha : Ascii s)
    (hs : Shallow s) : (parseRle chk parseF64 s = .panic ↔ s = "rle()".toList) ∧
    ∀ m, parseRle chk parseF64 s = .ok m ↔ (s = "rle".toList ∧ m = .rle (.fin 0)) ∨
      ∃ d v, IsCall s "rle".toList [d] ∧ parseF64 d = some v ∧ m = .rle v := by
  by_cases h : s = "rle".toList
  · have e : parseRle chk parseF64 s = .ok (.rle (.fin 0)) := by
      rw [parseRle, matchesFully_str, if_pos (by simp [h])]
    rw [e]
    subst h
    refine ⟨by simp, fun m => ?_⟩
    constructor
    · intro h; exact .inl ⟨rfl, by simpa using h.symm⟩
    · rintro (⟨-, rfl⟩ | ⟨d, v, hc, -⟩)
      · rfl
      · exact absurd hc.text (fun h => by
          have := congrArg List.length h
          simp [commas] at this)
  · by_cases hc : ∃ args, IsCall s "rle".toList args
    · obtain ⟨args, hc⟩ := hc
      have hf := (funCall_iff (chk := chk) ha hs _ _).2 hc
      have e : parseRle chk parseF64 s =
          if args.length > 1 then .err (.wrongNumberOfArguments 1 args.length)
          else match args with
            | [] => .panic
            | arg :: _ => match parseF64 arg with
              | some d => .ok (.rle d)
              | none => .err (.other .badFloat) := by
        rw [parseRle, matchesFully_str, if_neg (by simpa using h)]
        simp only [hf]
        rw [matchesFully_str, if_pos (by simp)]
        cases args <;> rfl
      rw [e]
      match args, hc with
      | [], hc =>
        refine ⟨⟨fun _ => hc.text, fun _ => by simp⟩, fun m => ⟨fun h => by simp at h, ?_⟩⟩
        rintro (⟨hh, -⟩ | ⟨d, v, hd, -⟩)
        · exact absurd hh h
        · exact absurd (isCall_unique hc hd).2 (by simp)
      | [arg], hc =>
        have hne := (hc.args_ok arg (by simp)).1
        constructor
        · constructor
          · intro h
            simp only [List.length_singleton, gt_iff_lt, Nat.lt_irrefl, if_false] at h
            split at h <;> simp at h
          · intro h
            have hc' : IsCall s "rle".toList [] := ⟨h, hc.name_ne, hc.name_plain, by simp⟩
            exact absurd (isCall_unique hc hc').2 (by simp)
        · intro m
          simp only [List.length_singleton, gt_iff_lt, Nat.lt_irrefl, if_false]
          constructor
          · intro h'
            right
            cases hp : parseF64 arg with
            | none => simp [hp] at h'
            | some v =>
              simp only [hp, Ret.ok.injEq] at h'
              exact ⟨arg, v, hc, hp, h'.symm⟩
          · rintro (⟨hh, -⟩ | ⟨d, v, hd, hv, rfl⟩)
            · exact absurd hh h
            · have := (isCall_unique hc hd).2
              simp only [List.cons.injEq, and_true] at this
              subst this
              simp [hv]
      | a :: b :: rest, hc =>
        rw [if_pos (by simp)]
        refine ⟨⟨fun h => by simp at h, fun h => ?_⟩, fun m => ⟨fun h => by simp at h, ?_⟩⟩
        · have hc' : IsCall s "rle".toList [] := ⟨h, hc.name_ne, hc.name_plain, by simp⟩
          exact absurd (isCall_unique hc hc').2 (by simp)
        · rintro (⟨hh, -⟩ | ⟨d, v, hd, -⟩)
          · exact absurd hh h
          · exact absurd (isCall_unique hc hd).2 (by simp)
    · have e : ∃ e, parseRle chk parseF64 s = .err e := by
        rw [parseRle, matchesFully_str, if_neg (by simpa using h)]
        rcases ret_cases (funCall chk s) with ⟨⟨n, a⟩, hf⟩ | ⟨e, hf⟩ | hf
        · rw [hf]
          simp only
          rw [matchesFully_str, if_neg ?_]
          · exact ⟨_, rfl⟩
          · intro hn
            have hn : n = "rle".toList := by simpa using hn
            subst hn
            exact hc ⟨a, (funCall_iff ha hs _ _).1 hf⟩
        · rw [hf]; exact ⟨_, rfl⟩
        · exact absurd hf (funCall_no_panic ha hs)
      obtain ⟨er, e⟩ := e
      rw [e]
      refine ⟨⟨fun h => by simp at h, fun h => ?_⟩, fun m => ⟨fun h => by simp at h, ?_⟩⟩
      · exact absurd ⟨[], ⟨h, by decide, by decide, by simp⟩⟩ hc
      · rintro (⟨hh, -⟩ | ⟨d, v, hd, -⟩)
        · exact absurd hh h
        · exact absurd ⟨_, hd⟩ hc

theorem compression_spec {chk : Bool} {parseF64 : List Char → Option F64} {s : List Char} (ha : Ascii s)
    (hs : Shallow s) : (compressionFromStr chk parseF64 s = .panic ↔ s = "rle()".toList) ∧
    ∀ m, compressionFromStr chk parseF64 s = .ok m ↔ (s = "rle".toList ∧ m = .rle (.fin 0)) ∨
      (s = "zip".toList ∧ m = .zip) ∨ ∃ d v, IsCall s "rle".toList [d] ∧ parseF64 d = some v ∧ m = .rle v := by
  have hr := parseRle_spec (chk := chk) (parseF64 := parseF64) ha hs
  have hz : parseZip s = if s = "zip".toList then .ok .zip else .err (.wrongName "zip".toList s) := by
    rw [parseZip, matchesFully_str]
    by_cases h : s = "zip".toList <;> simp [h]
  have nocall : ∀ d, IsCall "zip".toList "rle".toList [d] → False := fun d hd => by
    have := congrArg List.length hd.text
    simp [commas] at this
  unfold compressionFromStr
  rcases ret_cases (parseRle chk parseF64 s) with ⟨m', hm⟩ | ⟨e, hm⟩ | hm
  · have e : ((Alternatives.new.thenTry "rle" (parseRle chk parseF64 s)).thenTry "zip" (parseZip s)).end =
        (.ok m' : Ret ParseError CompressionMethod) := by rw [hm]; rfl
    rw [e]
    have h2 := (hr.2 m').1 hm
    constructor
    · rw [← hr.1, hm]
    · intro m
      rw [← hm, hr.2 m]
      constructor
      · rintro (h | h)
        · exact .inl h
        · exact .inr (.inr h)
      · rintro (h | ⟨h, rfl⟩ | h)
        · exact .inl h
        · subst h
          rcases h2 with ⟨h, -⟩ | ⟨d, v, hd, -⟩
          · exact absurd h (by decide)
          · exact (nocall d hd).elim
        · exact .inr h
  · have hm' : ∀ m, parseRle chk parseF64 s ≠ .ok m := fun m => by rw [hm]; simp
    by_cases h : s = "zip".toList
    · have e : ((Alternatives.new.thenTry "rle" (parseRle chk parseF64 s)).thenTry "zip" (parseZip s)).end =
          (.ok .zip : Ret ParseError CompressionMethod) := by rw [hm, hz, if_pos h]; rfl
      rw [e]
      subst h
      refine ⟨by simp, fun m => ⟨fun h => .inr (.inl ⟨rfl, by simpa using h.symm⟩), ?_⟩⟩
      rintro (⟨h, -⟩ | ⟨-, rfl⟩ | ⟨d, v, hd, -⟩)
      · exact absurd h (by decide)
      · rfl
      · exact (nocall d hd).elim
    · have e : ∃ e, ((Alternatives.new.thenTry "rle" (parseRle chk parseF64 s)).thenTry "zip" (parseZip s)).end =
          (.err e : Ret ParseError CompressionMethod) := by rw [hm, hz, if_neg h]; exact ⟨_, rfl⟩
      obtain ⟨e', e⟩ := e
      rw [e]
      constructor
      · rw [← hr.1, hm]; simp
      · refine fun m => ⟨fun h => by simp at h, ?_⟩
        rintro (h' | ⟨h', -⟩ | h')
        · exact absurd ((hr.2 m).2 (.inl h')) (hm' m)
        · exact absurd h' h
        · exact absurd ((hr.2 m).2 (.inr h')) (hm' m)
  · have e : ((Alternatives.new.thenTry "rle" (parseRle chk parseF64 s)).thenTry "zip" (parseZip s)).end =
        (.panic : Ret ParseError CompressionMethod) := by rw [hm]; rfl
    rw [e]
    have hs' := hr.1.1 hm
    subst hs'
    refine ⟨by simp, fun m => ⟨fun h => by simp at h, ?_⟩⟩
    rintro (⟨h, -⟩ | ⟨h, -⟩ | h)
    · exact absurd h (by decide)
    · exact absurd h (by decide)
    · have := (hr.2 m).2 (.inr h)
      rw [hm] at this
      cases this

theorem matches_hilbert (s : List Char) :
    matchesFully s hilbertRe = true ↔ ∃ h, (h = 'H' ∨ h = 'h') ∧ s = h :: "ilbert".toList := by
  rw [matchesFully_iff]
  simp only [hilbertRe, matches_seq, matches_str]
  constructor
  · rintro ⟨_, _, _, hc, rfl, rfl⟩
    cases hc with
    | chr hp => exact ⟨_, by simpa using hp, by simp⟩
  · rintro ⟨h, hh, rfl⟩
    exact ⟨[], [], "ilbert".toList, .chr (by simpa using hh), by simp, rfl⟩

theorem hilbert_spec {chk : Bool} {parseF64 : List Char → Option F64} {s : List Char} (ha : Ascii s)
    (hs : Shallow s) :
    (hilbertFromStr chk parseF64 s = .panic ↔
      ∃ h, (h = 'H' ∨ h = 'h') ∧ IsCall s (h :: "ilbert".toList) ["rle()".toList]) ∧
    ∀ c, hilbertFromStr chk parseF64 s = .ok c ↔ ∃ h arg m, (h = 'H' ∨ h = 'h') ∧
      IsCall s (h :: "ilbert".toList) [arg] ∧ compressionFromStr chk parseF64 arg = .ok m ∧ c = .hilbert m := by
  by_cases hc : ∃ h arg, (h = 'H' ∨ h = 'h') ∧ IsCall s (h :: "ilbert".toList) [arg]
  · obtain ⟨h, arg, hh, hc⟩ := hc
    have hf := (funCall_iff (chk := chk) ha hs _ _).2 hc
    obtain ⟨ha', hs'⟩ := isCall_arg hc ha hs
    have hcs := compression_spec (chk := chk) (parseF64 := parseF64) ha' hs'
    have e : hilbertFromStr chk parseF64 s = match compressionFromStr chk parseF64 arg with
        | .ok m => .ok (.hilbert m)
        | .err e => .err e
        | .panic => .panic := by
      rw [hilbertFromStr, hf]
      simp only
      rw [if_pos ((matches_hilbert _).2 ⟨h, hh, rfl⟩)]
      rfl
    rw [e]
    constructor
    · constructor
      · intro h'
        split at h'
        · simp at h'
        · simp at h'
        · rename_i hp
          exact ⟨h, hh, by rw [← hcs.1.1 hp]; exact hc⟩
      · rintro ⟨h', -, hc'⟩
        have := (isCall_unique hc hc').2
        simp only [List.cons.injEq, and_true] at this
        rw [hcs.1.2 this]
    · intro c
      constructor
      · intro h'
        split at h'
        · rename_i m hm
          exact ⟨h, arg, m, hh, hc, hm, by simpa using h'.symm⟩
        · simp at h'
        · simp at h'
      · rintro ⟨h', arg', m, hh', hc', hm, rfl⟩
        have := (isCall_unique hc hc').2
        simp only [List.cons.injEq, and_true] at this
        subst this
        rw [hm]
  · have e : ∃ e, hilbertFromStr chk parseF64 s = .err e := by
      rw [hilbertFromStr]
      rcases ret_cases (funCall chk s) with ⟨⟨n, a⟩, hf⟩ | ⟨e, hf⟩ | hf
      · rw [hf]
        simp only
        split
        · rename_i hm
          obtain ⟨h, hh, rfl⟩ := (matches_hilbert _).1 hm
          split
          · rename_i arg
            exact absurd ⟨h, arg, hh, (funCall_iff ha hs _ _).1 hf⟩ hc
          · exact ⟨_, rfl⟩
        · exact ⟨_, rfl⟩
      · rw [hf]; exact ⟨_, rfl⟩
      · exact absurd hf (funCall_no_panic ha hs)
    obtain ⟨e', e⟩ := e
    rw [e]
    refine ⟨⟨fun h => by simp at h, ?_⟩, fun c => ⟨fun h => by simp at h, ?_⟩⟩
    · rintro ⟨h, hh, hc'⟩; exact absurd ⟨h, _, hh, hc'⟩ hc
    · rintro ⟨h, arg, m, hh, hc', -⟩; exact absurd ⟨h, _, hh, hc'⟩ hc

theorem zip_spec {chk : Bool} {s : List Char} (ha : Ascii s) (hs : Shallow s) :
    zipFromStr chk s ≠ .panic ∧ ∀ c, zipFromStr chk s = .ok c ↔
      (IsCall s "zip".toList ["dict".toList] ∧ c = .zip .dict) ∨
      (IsCall s "zip".toList ["back".toList] ∧ c = .zip .back) := by
  by_cases hc : ∃ arg, IsCall s "zip".toList [arg]
  · obtain ⟨arg, hc⟩ := hc
    have hf := (funCall_iff (chk := chk) ha hs _ _).2 hc
    have e : zipFromStr chk s = if arg = "dict".toList then .ok (.zip .dict)
        else if arg = "back".toList then .ok (.zip .back) else .err (.other (.unrecognizedArgument arg)) := by
      rw [zipFromStr, hf]
      simp only
      rw [matchesFully_str, if_pos (by simp)]
    have huniq : ∀ a, IsCall s "zip".toList [a] → a = arg := fun a h => by
      have := (isCall_unique h hc).2
      simpa using this
    rw [e]
    constructor
    · split
      · simp
      · split <;> simp
    · intro c
      constructor
      · intro h
        split at h
        · rename_i hd
          subst hd
          exact .inl ⟨hc, by simpa using h.symm⟩
        · split at h
          · rename_i hd
            subst hd
            exact .inr ⟨hc, by simpa using h.symm⟩
          · simp at h
      · rintro (⟨h, rfl⟩ | ⟨h, rfl⟩)
        · rw [← huniq _ h, if_pos rfl]
        · rw [← huniq _ h, if_neg (by decide), if_pos rfl]
  · have e : ∃ e, zipFromStr chk s = .err e := by
      rw [zipFromStr]
      rcases ret_cases (funCall chk s) with ⟨⟨n, a⟩, hf⟩ | ⟨e, hf⟩ | hf
      · rw [hf]
        simp only
        split
        · rename_i hm
          rw [matchesFully_str] at hm
          have hn : n = "zip".toList := by simpa using hm
          subst hn
          split
          · rename_i arg
            exact absurd ⟨arg, (funCall_iff ha hs _ _).1 hf⟩ hc
          · exact ⟨_, rfl⟩
        · exact ⟨_, rfl⟩
      · rw [hf]; exact ⟨_, rfl⟩
      · exact absurd hf (funCall_no_panic ha hs)
    obtain ⟨e', e⟩ := e
    rw [e]
    refine ⟨by simp, fun c => ⟨fun h => by simp at h, ?_⟩⟩
    rintro (⟨h, -⟩ | ⟨h, -⟩)
    · exact absurd ⟨_, h⟩ hc
    · exact absurd ⟨_, h⟩ hc

theorem not_call_of_plain {s name : List Char} {args : List (List Char)} (h : '(' ∉ s) : ¬ IsCall s name args :=
  fun hc => h (by rw [hc.text]; simp)

theorem hufman_plain {s : List Char} (h : s.map Char.toLower = "hufman".toList) : '(' ∉ s := by
  intro hm
  have : Char.toLower '(' ∈ s.map Char.toLower := List.mem_map_of_mem hm
  rw [h] at this
  exact absurd this (by decide)

theorem _root_.Cniic.Spec.ArgText.balanced {s : List Char} (h : ArgText s) : Balanced s := by
  induction h with
  | nil => exact .nil
  | chr hc _ ih =>
    simp only [Special, not_or] at hc
    exact .chr hc.1 hc.2.1 ih
  | paren hb _ ih => exact .paren hb ih

theorem selects_iff (parseF64 : List Char → Option F64) (s : List Char) (c : AnyCodec) : Selects parseF64 s c ↔
    (s = "delta".toList ∧ c = .delta) ∨
    (∃ h, (h = 'H' ∨ h = 'h') ∧
      ((s = h :: "ilbert(rle)".toList ∧ c = .hilbert (.rle (.fin 0))) ∨
       (s = h :: "ilbert(zip)".toList ∧ c = .hilbert .zip) ∨
       ∃ d v, d ≠ [] ∧ ArgText d ∧ parseF64 d = some v ∧
        s = h :: ("ilbert(rle(".toList ++ (d ++ "))".toList)) ∧ c = .hilbert (.rle v))) ∨
    (s.map Char.toLower = "hufman".toList ∧ c = .hufman) ∨
    (s = "zip(dict)".toList ∧ c = .zip .dict) ∨ (s = "zip(back)".toList ∧ c = .zip .back) := by
  constructor
  · intro h
    cases h with
    | delta => exact .inl ⟨rfl, rfl⟩
    | hufman h => exact .inr (.inr (.inl ⟨h, rfl⟩))
    | zipDict => exact .inr (.inr (.inr (.inl ⟨rfl, rfl⟩)))
    | zipBack => exact .inr (.inr (.inr (.inr ⟨rfl, rfl⟩)))
    | rle h => exact .inr (.inl ⟨_, h, .inl ⟨rfl, rfl⟩⟩)
    | hilbertZip h => exact .inr (.inl ⟨_, h, .inr (.inl ⟨rfl, rfl⟩)⟩)
    | rleApprox h hd hat hv => exact .inr (.inl ⟨_, h, .inr (.inr ⟨_, _, hd, hat, hv, rfl, rfl⟩)⟩)
  · rintro (⟨rfl, rfl⟩ | ⟨h, hh, ⟨rfl, rfl⟩ | ⟨rfl, rfl⟩ | ⟨d, v, hd, hat, hv, rfl, rfl⟩⟩ | ⟨h, rfl⟩ |
      ⟨rfl, rfl⟩ | ⟨rfl, rfl⟩)
    · exact .delta
    · exact .rle hh
    · exact .hilbertZip hh
    · exact .rleApprox hh hd hat hv
    · exact .hufman h
    · exact .zipDict
    · exact .zipBack

/-- The first character of a text for the Hilbert codecs and a later opening parenthesis. -/
def HilbertLike (s : List Char) : Prop := ∃ h r, (h = 'H' ∨ h = 'h') ∧ s = h :: r ∧ '(' ∈ s

/-- The alternatives after the clustering codecs. -/
theorem later_spec {chk : Bool} {uniDigit : Char → Bool} {parseF64 : List Char → Option F64} {s : List Char}
    (ha : Ascii s) (hs : Shallow s) {e₁ e₂ : ParseError} (h₁ : clusterColorsFromStr uniDigit s = .err e₁)
    (h₂ : voronoiFromStr uniDigit s = .err e₂) :
    (anyCodecFromStr chk uniDigit parseF64 s = .panic ↔
      ∃ h, (h = 'H' ∨ h = 'h') ∧ s = h :: "ilbert(rle())".toList) ∧
    ∀ c, anyCodecFromStr chk uniDigit parseF64 s = .ok c ↔ Selects parseF64 s c := by
  have hh := hilbert_spec (chk := chk) (parseF64 := parseF64) ha hs
  have hz := zip_spec (chk := chk) ha hs
  have hd := delta_eq s
  have hu : hufmanFromStr s =
    if s.map Char.toLower = "hufman".toList then .ok .hufman else .err (.other .notHufman) := rfl
  -- what each alternative says about the text
  have zipText : ∀ c, zipFromStr chk s = .ok c ↔
      (s = "zip(dict)".toList ∧ c = .zip .dict) ∨ (s = "zip(back)".toList ∧ c = .zip .back) := by
    intro c
    rw [hz.2 c]
    have arg : ∀ a : List Char, a ≠ [] → (∀ c ∈ a, ¬ Special c) →
        (IsCall s "zip".toList [a] ↔ s = "zip".toList ++ '(' :: (a ++ [')'])) := by
      intro a hne hp
      refine ⟨fun h => h.text, fun h => ⟨h, by decide, by decide, ?_⟩⟩
      intro b hb
      obtain rfl := List.mem_singleton.1 hb
      refine ⟨hne, ?_⟩
      clear h hne hb
      induction b with
      | nil => exact .nil
      | cons c b ih => exact .chr (hp c (by simp)) (ih fun d hd => hp d (by simp [hd]))
    rw [arg _ (by decide) (by decide), arg _ (by decide) (by decide)]
    exact Iff.rfl
  have hilPanic : hilbertFromStr chk parseF64 s = .panic ↔
      ∃ h, (h = 'H' ∨ h = 'h') ∧ s = h :: "ilbert(rle())".toList := by
    rw [hh.1]
    constructor
    · rintro ⟨h, hh, hc⟩; exact ⟨h, hh, hc.text⟩
    · rintro ⟨h, hh, hc⟩
      refine ⟨h, hh, hc, by simp, ?_, ?_⟩
      · rcases hh with rfl | rfl <;> decide
      · intro a ha
        obtain rfl := List.mem_singleton.1 ha
        exact ⟨by decide, (argText_of_depth _ _ (Nat.le_refl _)).1 rfl⟩
  have hilText : ∀ c, hilbertFromStr chk parseF64 s = .ok c ↔ ∃ h, (h = 'H' ∨ h = 'h') ∧
      ((s = h :: "ilbert(rle)".toList ∧ c = .hilbert (.rle (.fin 0))) ∨
       (s = h :: "ilbert(zip)".toList ∧ c = .hilbert .zip) ∨
       ∃ d v, d ≠ [] ∧ ArgText d ∧ parseF64 d = some v ∧
        s = h :: ("ilbert(rle(".toList ++ (d ++ "))".toList)) ∧ c = .hilbert (.rle v)) := by
    intro c
    rw [hh.2 c]
    constructor
    · rintro ⟨h, arg, m, hH, hc, hm, rfl⟩
      obtain ⟨ha', hs'⟩ := isCall_arg hc ha hs
      refine ⟨h, hH, ?_⟩
      have ht := hc.text
      rcases ((compression_spec ha' hs').2 m).1 hm with ⟨rfl, rfl⟩ | ⟨rfl, rfl⟩ | ⟨d, v, hd, hv, rfl⟩
      · exact .inl ⟨ht, rfl⟩
      · exact .inr (.inl ⟨ht, rfl⟩)
      · refine .inr (.inr ⟨d, v, (hd.args_ok d (by simp)).1, (hd.args_ok d (by simp)).2, hv, ?_, rfl⟩)
        rw [ht]
        have := hd.text
        simp only [commas] at this ⊢
        rw [this]
        simp
    · rintro ⟨h, hH, hcase⟩
      have hplain : ∀ c ∈ h :: "ilbert".toList, ¬ Special c := by rcases hH with rfl | rfl <;> decide
      have mk : ∀ arg, arg ≠ [] → ArgText arg → s = (h :: "ilbert".toList) ++ '(' :: (arg ++ [')']) →
          IsCall s (h :: "ilbert".toList) [arg] := by
        intro arg hne hat ht
        refine ⟨ht, by simp, hplain, ?_⟩
        intro b hb
        obtain rfl := List.mem_singleton.1 hb
        exact ⟨hne, hat⟩
      rcases hcase with ⟨ht, rfl⟩ | ⟨ht, rfl⟩ | ⟨d, v, hne, hat, hv, ht, rfl⟩
      · have hc := mk "rle".toList (by decide) ((argText_of_depth _ _ (Nat.le_refl _)).1 rfl) ht
        obtain ⟨ha', hs'⟩ := isCall_arg hc ha hs
        exact ⟨h, _, _, hH, hc, ((compression_spec ha' hs').2 _).2 (.inl ⟨rfl, rfl⟩), rfl⟩
      · have hc := mk "zip".toList (by decide) ((argText_of_depth _ _ (Nat.le_refl _)).1 rfl) ht
        obtain ⟨ha', hs'⟩ := isCall_arg hc ha hs
        exact ⟨h, _, _, hH, hc, ((compression_spec ha' hs').2 _).2 (.inr (.inl ⟨rfl, rfl⟩)), rfl⟩
      · have hc := mk ("rle".toList ++ '(' :: (d ++ [')'])) (by simp)
          (.chr (by decide) (.chr (by decide) (.chr (by decide) (.paren hat.balanced .nil))))
          (by rw [ht]; simp)
        obtain ⟨ha', hs'⟩ := isCall_arg hc ha hs
        refine ⟨h, _, _, hH, hc, ((compression_spec ha' hs').2 _).2 (.inr (.inr ⟨d, v, ?_, hv, rfl⟩)), rfl⟩
        refine ⟨rfl, by decide, by decide, ?_⟩
        intro b hb
        obtain rfl := List.mem_singleton.1 hb
        exact ⟨hne, hat⟩
  have panicLike : ∀ {h : Char}, (h = 'H' ∨ h = 'h') → HilbertLike (h :: "ilbert(rle())".toList) :=
    fun {h} hh => ⟨h, _, hh, rfl, by simp⟩
  have hilLike : ∀ c, hilbertFromStr chk parseF64 s = .ok c → HilbertLike s := by
    intro c hc
    obtain ⟨h, hH, hcase⟩ := (hilText c).1 hc
    rcases hcase with ⟨rfl, -⟩ | ⟨rfl, -⟩ | ⟨d, v, -, -, -, rfl, -⟩
    · exact ⟨h, _, hH, rfl, by simp⟩
    · exact ⟨h, _, hH, rfl, by simp⟩
    · exact ⟨h, _, hH, rfl, by simp⟩
  have likeDelta : ¬ HilbertLike "delta".toList := by
    rintro ⟨h, r, hh, he, -⟩
    rcases hh with rfl | rfl <;> simp at he
  have likeZip : ∀ t, ¬ HilbertLike ('z' :: t) := by
    rintro t ⟨h, r, hh, he, -⟩
    rcases hh with rfl | rfl <;> simp at he
  have likeHuf : s.map Char.toLower = "hufman".toList → ¬ HilbertLike s := by
    rintro h ⟨_, _, -, -, hm⟩
    exact hufman_plain h hm
  have e : anyCodecFromStr chk uniDigit parseF64 s =
      ((((Alternatives.thenTry (.err [("ClusterColors", e₁), ("VoronoiCluster", e₂)])
          "Delta" (deltaFromStr s))
        |>.thenTry "Hilbert" (hilbertFromStr chk parseF64 s))
        |>.thenTry "Hufman" (hufmanFromStr s))
        |>.thenTry "Zip" (zipFromStr chk s)).end := by
    rw [anyCodecFromStr, h₁, h₂]
    rfl
  simp only [selects_iff]
  simp only [← hilText, ← zipText]
  by_cases hdel : s = "delta".toList
  · have : anyCodecFromStr chk uniDigit parseF64 s = .ok .delta := by rw [e, hd, if_pos hdel]; rfl
    rw [this]
    constructor
    · refine ⟨fun h => (by cases h), ?_⟩
      rintro ⟨h, hH, rfl⟩
      exact absurd hdel (by rcases hH with rfl | rfl <;> decide)
    · intro c
      constructor
      · intro h; exact .inl ⟨hdel, by simpa using h.symm⟩
      · rintro (⟨-, rfl⟩ | h | ⟨h, -⟩ | h)
        · rfl
        · exact absurd (hdel ▸ hilLike c h) likeDelta
        · rw [hdel] at h; exact absurd h (by decide)
        · rcases (zipText c).1 h with ⟨h, -⟩ | ⟨h, -⟩
          · rw [hdel] at h; exact absurd h (by decide)
          · rw [hdel] at h; exact absurd h (by decide)
  · rcases ret_cases (hilbertFromStr chk parseF64 s) with ⟨c', hil⟩ | ⟨e₃, hil⟩ | hil
    · have hl := hilLike c' hil
      have : anyCodecFromStr chk uniDigit parseF64 s = .ok c' := by rw [e, hd, if_neg hdel, hil]; rfl
      rw [this]
      constructor
      · rw [← hilPanic, hil]
      · intro c
        rw [hil]
        constructor
        · intro h; exact .inr (.inl (by simpa using h))
        · rintro (⟨h, -⟩ | h | ⟨h, -⟩ | h)
          · exact absurd h hdel
          · simpa using h
          · exact absurd hl (likeHuf h)
          · rcases (zipText c).1 h with ⟨rfl, -⟩ | ⟨rfl, -⟩
            · exact absurd hl (likeZip _)
            · exact absurd hl (likeZip _)
    · by_cases huf : s.map Char.toLower = "hufman".toList
      · have : anyCodecFromStr chk uniDigit parseF64 s = .ok .hufman := by
          rw [e, hd, if_neg hdel, hil, hu, if_pos huf]; rfl
        rw [this]
        constructor
        · rw [← hilPanic, hil]
          exact ⟨fun h => (by cases h), fun h => (by cases h)⟩
        · intro c
          rw [hil]
          constructor
          · intro h; exact .inr (.inr (.inl ⟨huf, by simpa using h.symm⟩))
          · rintro (⟨h, -⟩ | h | ⟨-, rfl⟩ | h)
            · exact absurd h hdel
            · cases h
            · rfl
            · rcases (zipText c).1 h with ⟨rfl, -⟩ | ⟨rfl, -⟩ <;> exact absurd huf (by decide)
      · have step : anyCodecFromStr chk uniDigit parseF64 s =
            (Alternatives.thenTry (.err [("ClusterColors", e₁), ("VoronoiCluster", e₂),
              ("Delta", .wrongName "delta".toList s), ("Hilbert", e₃), ("Hufman", .other .notHufman)])
              "Zip" (zipFromStr chk s)).end := by
          rw [e, hd, if_neg hdel, hil, hu, if_neg huf]; rfl
        rw [step]
        constructor
        · rw [← hilPanic, hil]
          refine ⟨fun h => ?_, fun h => (by cases h)⟩
          rcases ret_cases (zipFromStr chk s) with ⟨c', hzz⟩ | ⟨e₄, hzz⟩ | hzz
          · rw [hzz] at h; cases h
          · rw [hzz] at h; cases h
          · exact absurd hzz hz.1
        · intro c
          rw [hil]
          constructor
          · intro h
            rcases ret_cases (zipFromStr chk s) with ⟨c', hzz⟩ | ⟨e₄, hzz⟩ | hzz
            · rw [hzz] at h
              refine .inr (.inr (.inr ?_))
              rw [hzz]
              exact h
            · rw [hzz] at h; cases h
            · exact absurd hzz hz.1
          · rintro (⟨h, -⟩ | h | ⟨h, -⟩ | h)
            · exact absurd h hdel
            · cases h
            · exact absurd h huf
            · rw [h]; rfl
    · have : anyCodecFromStr chk uniDigit parseF64 s = .panic := by rw [e, hd, if_neg hdel, hil]; rfl
      rw [this]
      obtain ⟨h, hh, hs'⟩ := hilPanic.1 hil
      have hl : HilbertLike s := hs' ▸ panicLike hh
      refine ⟨⟨fun _ => ⟨h, hh, hs'⟩, fun _ => rfl⟩, fun c => ⟨fun h => (by cases h), ?_⟩⟩
      rintro (⟨h, -⟩ | h | ⟨h, -⟩ | h)
      · exact absurd h hdel
      · rw [hil] at h; cases h
      · exact absurd hl (likeHuf h)
      · rcases (zipText c).1 h with ⟨rfl, -⟩ | ⟨rfl, -⟩
        · exact absurd hl (likeZip _)
        · exact absurd hl (likeZip _)

theorem any_panic_iff {chk : Bool} {uniDigit : Char → Bool} {parseF64 : List Char → Option F64} {s : List Char}
    (ha : Ascii s) (hs : Shallow s) : anyCodecFromStr chk uniDigit parseF64 s = .panic ↔
      ∃ h, (h = 'H' ∨ h = 'h') ∧ s = h :: "ilbert(rle())".toList := by
  rcases cluster_cases uniDigit s with ⟨e₁, h₁⟩ | ⟨n, h₁⟩
  · rcases voronoi_cases uniDigit s with ⟨e₂, h₂⟩ | ⟨n, h₂⟩
    · exact (later_spec ha hs h₁ h₂).1
    · have : anyCodecFromStr chk uniDigit parseF64 s = .ok (.voronoi n) := by
        rw [anyCodecFromStr, h₁, h₂]; rfl
      rw [this]
      refine ⟨fun h => (by cases h), ?_⟩
      rintro ⟨h, hh, rfl⟩
      rcases hh with rfl | rfl <;> cases h₂
  · have : anyCodecFromStr chk uniDigit parseF64 s = .ok (.clusterColors n) := by
      rw [anyCodecFromStr, h₁]; rfl
    rw [this]
    refine ⟨fun h => (by cases h), ?_⟩
    rintro ⟨h, hh, rfl⟩
    rcases hh with rfl | rfl <;> cases h₁

theorem any_ok_iff {chk : Bool} {uniDigit : Char → Bool} {parseF64 : List Char → Option F64} {s : List Char}
    (ha : Ascii s) (hs : Shallow s) (hc : ¬ Mentions (isDecimal uniDigit) clusterNames s)
    (hv : ¬ Mentions (isDecimal uniDigit) ["voronoi".toList] s) (c : AnyCodec) :
    anyCodecFromStr chk uniDigit parseF64 s = .ok c ↔ Selects parseF64 s c :=
  (later_spec ha hs (cluster_none hc) (voronoi_none hv)).2 c

/-! ## Other texts -/

/-- The state of the loop of `fun_call` on a text that is not ASCII. -/
def NoEnd (done : List Char) (st : FunCall) : Prop :=
  (st.funName = none ∧ st.parenStack = 0 ∧ done.count '(' = 0 ∧ done.count ')' = 0) ∨
  ∃ k, st.parenStack = UInt16.ofNat (k + 1) ∧ done.count '(' = done.count ')' + (k + 1)

theorem step_nonAscii {chk : Bool} {s : List Char} (hna : ¬ Ascii s) (hsh : Shallow s) {r done : List Char} {c : Char}
    (hs : s = done ++ c :: r) {st st' : FunCall} (h : NoEnd done st)
    (hstep : funCallStep chk s done.length c st = .ok st') : NoEnd (done ++ [c]) st' := by
  have hs' : s = (done ++ [c]) ++ r := by rw [hs]; simp
  have hcnt : ∀ d : Char, (done ++ [c]).count d = done.count d + if c = d then 1 else 0 := by
    intro d
    rw [List.count_append, List.count_singleton]
    simp
  have hend : done.length ≠ byteLen s - 1 := by
    have h1 := length_lt_byteLen hna
    have h2 : s.length = done.length + 1 + r.length := by rw [hs]; simp; omega
    omega
  unfold funCallStep at hstep
  rcases h with ⟨h1, h2, h3, h4⟩ | ⟨k, h1, h2⟩
  · by_cases hc : c = '('
    · rw [if_pos hc, if_pos h2] at hstep
      split at hstep
      · cases hstep
      · split at hstep
        · cases hstep
        · split at hstep
          · cases hstep
          · split at hstep
            · cases hstep
              refine .inr ⟨0, rfl, ?_⟩
              rw [hcnt, hcnt, hc, if_pos rfl, if_neg (by decide)]
              omega
            · cases hstep
    · rw [if_neg hc] at hstep
      by_cases hc2 : c = ')'
      · rw [if_pos hc2, if_pos h2] at hstep; cases hstep
      · rw [if_neg hc2] at hstep
        by_cases hc3 : c = ','
        · rw [if_pos hc3, if_pos h2] at hstep; cases hstep
        · rw [if_neg hc3] at hstep
          cases hstep
          exact .inl ⟨h1, h2, by rw [hcnt, if_neg hc]; omega, by rw [hcnt, if_neg hc2]; omega⟩
  · have hb : k + 1 < 65536 := by
      have := hsh done ⟨c :: r, by rw [hs]⟩
      omega
    have hne0 : UInt16.ofNat (k + 1) ≠ 0 := ofNat_u16_ne (m := 0) hb (by omega) (by omega)
    rw [← h1] at hne0
    by_cases hc : c = '('
    · rw [if_pos hc, if_neg hne0] at hstep
      split at hstep
      · cases hstep
      · cases hstep
        refine .inr ⟨k + 1, ?_, ?_⟩
        · show st.parenStack + 1 = _
          rw [h1]
          apply UInt16.toNat.inj
          simp [UInt16.toNat_add, UInt16.toNat_ofNat']
        · rw [hcnt, hcnt, hc, if_pos rfl, if_neg (by decide)]
          omega
    · rw [if_neg hc] at hstep
      by_cases hc2 : c = ')'
      · rw [if_pos hc2, if_neg hne0] at hstep
        split at hstep
        · cases hstep
        · rename_i hne1
          cases hstep
          cases k with
          | zero => exact absurd h1 hne1
          | succ k =>
            refine .inr ⟨k, ?_, ?_⟩
            · show st.parenStack - 1 = _
              have : UInt16.ofNat (k + 1 + 1) = UInt16.ofNat (k + 1) + 1 := by
                apply UInt16.toNat.inj
                simp [UInt16.toNat_add, UInt16.toNat_ofNat']
              rw [h1, this, UInt16.add_sub_cancel]
            · rw [hcnt, hcnt, hc2, if_pos rfl, if_neg (by decide)]
              omega
      · rw [if_neg hc2] at hstep
        have hcnt' : (done ++ [c]).count '(' = (done ++ [c]).count ')' + (k + 1) := by
          rw [hcnt, hcnt, if_neg hc, if_neg hc2]
          omega
        by_cases hc3 : c = ','
        · rw [if_pos hc3, if_neg hne0] at hstep
          split at hstep
          · split at hstep
            · cases hstep
            · split at hstep
              · cases hstep
              · split at hstep
                · cases hstep
                  exact .inr ⟨k, h1, hcnt'⟩
                · cases hstep
          · cases hstep
            exact .inr ⟨k, h1, hcnt'⟩
        · rw [if_neg hc3] at hstep
          cases hstep
          exact .inr ⟨k, h1, hcnt'⟩

theorem loop_nonAscii {chk : Bool} {s : List Char} (hna : ¬ Ascii s) (hsh : Shallow s) (rest done : List Char)
    (hs : s = done ++ rest) (st : FunCall) (h : NoEnd done st) (x : List Char × List (List Char)) :
    finish (funCallLoop chk s done.length rest st) ≠ .ok x := by
  induction rest generalizing done st with
  | nil =>
    rcases h with ⟨h1, h2, -⟩ | ⟨k, h1, h2⟩
    · simp [funCallLoop, finish, h1, h2]
    · have hb : k + 1 < 65536 := by
        have := hsh done ⟨[], by rw [hs]⟩
        omega
      have hne0 : UInt16.ofNat (k + 1) ≠ 0 := ofNat_u16_ne (m := 0) hb (by omega) (by omega)
      simp only [funCallLoop, finish]
      rw [h1, if_pos hne0]
      simp
  | cons c r ih =>
    rw [funCallLoop]
    cases hstep : funCallStep chk s done.length c st with
    | ok st' =>
      have := ih (done ++ [c]) (by rw [hs]; simp) st' (step_nonAscii hna hsh hs h hstep)
      rw [List.length_append] at this
      exact this
    | err e => simp [finish]
    | panic => simp [finish]

theorem funCall_nonAscii {chk : Bool} {s : List Char} (hna : ¬ Ascii s) (hsh : Shallow s)
    (x : List Char × List (List Char)) : funCall chk s ≠ .ok x :=
  loop_nonAscii hna hsh s [] rfl _ (.inl ⟨rfl, rfl, rfl, rfl⟩) x

theorem toLower_nat {c : Char} (h : (c.toLower).toNat < 128) : c.toNat < 128 := by
  unfold Char.toLower at h
  split at h
  · rename_i hc
    have h2 : c.val ≤ 90 := hc.2
    rw [UInt32.le_iff_toNat_le] at h2
    show c.val.toNat < 128
    exact Nat.lt_of_le_of_lt h2 (by decide)
  · exact h

theorem hufman_ascii {s : List Char} (h : s.map Char.toLower = "hufman".toList) : Ascii s := by
  intro c hc
  apply toLower_nat
  have : c.toLower ∈ s.map Char.toLower := List.mem_map_of_mem hc
  rw [h] at this
  have all : ∀ d ∈ "hufman".toList, d.toNat < 128 := by decide
  exact all _ this

theorem any_nonAscii {chk : Bool} {uniDigit : Char → Bool} {parseF64 : List Char → Option F64} {s : List Char}
    (hna : ¬ Ascii s) (hsh : Shallow s) {c : AnyCodec} (h : anyCodecFromStr chk uniDigit parseF64 s = .ok c) :
    (∃ n, c = .clusterColors n) ∨ ∃ n, c = .voronoi n := by
  rcases cluster_cases uniDigit s with ⟨e₁, h₁⟩ | ⟨n, h₁⟩
  · rcases voronoi_cases uniDigit s with ⟨e₂, h₂⟩ | ⟨n, h₂⟩
    · exfalso
      rw [anyCodecFromStr, h₁, h₂, delta_eq, if_neg (by rintro rfl; exact hna (by unfold Ascii; decide))] at h
      have hu : hufmanFromStr s = .err (.other .notHufman) := by
        rw [hufmanFromStr, if_neg (fun hh => hna (hufman_ascii hh))]
      rw [hu] at h
      have hh : (∃ e, hilbertFromStr chk parseF64 s = .err e) ∨ hilbertFromStr chk parseF64 s = .panic := by
        rcases ret_cases (funCall chk s) with ⟨x, hf⟩ | ⟨e, hf⟩ | hf
        · exact absurd hf (funCall_nonAscii hna hsh x)
        · rw [hilbertFromStr, hf]; exact .inl ⟨_, rfl⟩
        · rw [hilbertFromStr, hf]; exact .inr rfl
      have hz : (∃ e, zipFromStr chk s = .err e) ∨ zipFromStr chk s = .panic := by
        rcases ret_cases (funCall chk s) with ⟨x, hf⟩ | ⟨e, hf⟩ | hf
        · exact absurd hf (funCall_nonAscii hna hsh x)
        · rw [zipFromStr, hf]; exact .inl ⟨_, rfl⟩
        · rw [zipFromStr, hf]; exact .inr rfl
      rcases hh with ⟨e, hh⟩ | hh <;> rcases hz with ⟨e', hz⟩ | hz <;> rw [hh, hz] at h <;> cases h
    · have : anyCodecFromStr chk uniDigit parseF64 s = .ok (.voronoi n) := by
        rw [anyCodecFromStr, h₁, h₂]; rfl
      rw [this] at h
      cases h
      exact .inr ⟨n, rfl⟩
  · have : anyCodecFromStr chk uniDigit parseF64 s = .ok (.clusterColors n) := by
      rw [anyCodecFromStr, h₁]; rfl
    rw [this] at h
    cases h
    exact .inl ⟨n, rfl⟩

/-! ## Too many parentheses -/

theorem loop_open (chk : Bool) (input : List Char) (n pos j : Nat) (hj : 1 ≤ j) (hn : j + n ≤ 65535)
    (st : FunCall) (rest : List Char) :
    funCallLoop chk input pos (List.replicate n '(' ++ rest) { st with parenStack := UInt16.ofNat j } =
    funCallLoop chk input (pos + n) rest { st with parenStack := UInt16.ofNat (j + n) } := by
  induction n generalizing pos j with
  | zero => rfl
  | succ n ih =>
    have h0 : UInt16.ofNat j ≠ 0 := ofNat_u16_ne (m := 0) (by omega) (by omega) (by omega)
    have h1 : ¬ UInt16.ofNat j = 65535 := ofNat_u16_ne (m := 65535) (by omega) (by omega) (by omega)
    have hadd : UInt16.ofNat j + 1 = UInt16.ofNat (j + 1) := by
      apply UInt16.toNat.inj
      simp [UInt16.toNat_add, UInt16.toNat_ofNat']
    rw [List.replicate_succ, List.cons_append, funCallLoop, funCallStep, if_pos rfl]
    simp only [h0, h1, hadd, if_false, decide_false, Bool.and_false]
    have := ih (pos + 1) (j + 1) (by omega) (by omega)
    rw [Nat.add_assoc, Nat.add_comm 1 n, Nat.add_assoc, Nat.add_comm 1 n] at this
    exact this

theorem loop_plain (chk : Bool) (input name rest : List Char) (hn : ∀ c ∈ name, ¬ Special c) (pos : Nat)
    (st : FunCall) : funCallLoop chk input pos (name ++ rest) st =
      funCallLoop chk input (pos + name.length) rest st := by
  induction name generalizing pos with
  | nil => rfl
  | cons c name ih =>
    have h := hn c (by simp)
    simp only [Special, not_or] at h
    rw [List.cons_append, funCallLoop, funCallStep, if_neg h.1, if_neg h.2.1, if_neg h.2.2]
    have := ih (fun d hd => hn d (by simp [hd])) (pos + 1)
    rw [Nat.add_assoc, Nat.add_comm 1] at this
    exact this

theorem loop_overflow_aux (chk : Bool) (m : Nat) (hm : m = 65534) (name rest input : List Char) (hne : name ≠ [])
    (hn : ∀ c ∈ name, ¬ Special c) (hsl : slice input 0 name.length = some name) :
    funCallLoop chk input 0 (name ++ (List.replicate (m + 2) '(' ++ rest))
      { funName := none, params := [], parenStack := 0, lastPos := 0 } =
    if chk then .panic
    else funCallLoop chk input (name.length + (m + 2)) rest
      { funName := some name, params := [], parenStack := 0, lastPos := name.length + 1 } := by
  rw [loop_plain chk _ _ _ hn]
  have hl := List.length_pos_iff.2 hne
  have hr : List.replicate (m + 2) '(' ++ rest = '(' :: (List.replicate m '(' ++ ('(' :: rest)) := by
    rw [List.replicate_succ, List.cons_append, List.replicate_succ', List.append_assoc,
      List.singleton_append]
  rw [hr, funCallLoop, funCallStep, if_pos rfl, if_pos rfl]
  have hne' : ¬ (0 + name.length = 0) := by omega
  simp only [Option.isSome_none, ne_eq, not_true_eq_false, decide_false, Bool.or_false, Bool.false_eq_true,
    if_false, List.length_nil, hne']
  rw [Nat.zero_add, hsl]
  simp only
  have h1 : (1 : UInt16) = UInt16.ofNat 1 := rfl
  have := loop_open chk input m (name.length + 1) 1 (by omega) (by omega)
    { funName := some name, params := [], parenStack := 0, lastPos := name.length + 1 } ('(' :: rest)
  simp only at this
  rw [h1, this, funCallLoop, funCallStep, if_pos rfl]
  have h2 : UInt16.ofNat (1 + m) = 65535 := by rw [hm]; rfl
  rw [h2]
  have h3 : name.length + 1 + m + 1 = name.length + (m + 2) := by omega
  rw [h3]
  have h4 : ¬ ((65535 : UInt16) = 0) := by decide
  have h5 : (65535 : UInt16) + 1 = 0 := rfl
  cases chk <;> simp only [h4, h5, if_false, Bool.false_and, Bool.true_and, Bool.false_eq_true, decide_true,
    if_true]

/-- 65536 opening parentheses: the counter overflows. -/
theorem loop_overflow (chk : Bool) (name rest : List Char) (hne : name ≠ []) (ha : Ascii name)
    (hn : ∀ c ∈ name, ¬ Special c) :
    funCallLoop chk (name ++ (List.replicate 65536 '(' ++ rest)) 0 (name ++ (List.replicate 65536 '(' ++ rest))
      { funName := none, params := [], parenStack := 0, lastPos := 0 } =
    if chk then .panic
    else funCallLoop chk (name ++ (List.replicate 65536 '(' ++ rest)) (name.length + 65536) rest
      { funName := some name, params := [], parenStack := 0, lastPos := name.length + 1 } := by
  have key : ∀ t : List Char, slice (name ++ t) 0 name.length = some name := by
    intro t
    have := slice_ascii (a := []) (b := name) (c := t) (by intro d hd; simp at hd) ha
    simpa using this
  have h65 : ∃ m, m = 65534 ∧ 65536 = m + 2 := ⟨65534, rfl, rfl⟩
  obtain ⟨m, hm, h6⟩ := h65
  rw [h6]
  exact loop_overflow_aux chk m hm name rest _ hne hn (key _)

end Cniic
