import Verif.Proofs.Zipc

/-! # Proofs: run-length coding -/

namespace Cniic
open Spec SerSpec

/-! ## The encoder, for any criteria -/

/-- What the states of a criteria stand for: `rep s g` says that `s` is a state after the items `g` of
the current group; `ok` tells which items are accepted, `val` which value is emitted. -/
structure Represents {S T : Type} (C : Criteria S T) (rep : S → List T → Prop)
    (ok : List T → T → Prop) (val : List T → T) : Prop where
  start : ∀ s v, rep (C.startSequence s v) [v]
  accept : ∀ s g x, rep s g → g ≠ [] → g.length < 255 →
    (ok g x ∧ ∃ s', C.accept s x = some (true, s') ∧ rep s' (g ++ [x])) ∨
    (¬ ok g x ∧ ∃ s', C.accept s x = some (false, s') ∧ rep s' g)
  finish : ∀ s g, rep s g → g ≠ [] → g.length ≤ 255 → ∃ s', C.endRepetition s = some (val g, s')

variable {S T : Type} {C : Criteria S T} {rep : S → List T → Prop} {ok : List T → T → Prop}
  {val : List T → T}

theorem ofNat_succ_u8 (n : Nat) : UInt8.ofNat n + 1 = UInt8.ofNat (n + 1) := by
  apply UInt8.toNat.inj
  simp [UInt8.toNat_add, UInt8.toNat_ofNat']

theorem rleLoop_spec (hC : Represents C rep ok val) (l : List T) (s : S) (g : List T) (hg : g ≠ [])
    (hlen : g.length < 255) (hrep : rep s g) :
    ∃ acc iter s' last, rleLoop C l s (UInt8.ofNat g.length) =
        some (iter, s', last, UInt8.ofNat (g ++ acc).length) ∧
      l = acc ++ (last.toList ++ iter) ∧ (g ++ acc).length ≤ 255 ∧ rep s' (g ++ acc) ∧
      (∀ p x q, acc = p ++ x :: q → ok (g ++ p) x) ∧
      ((g ++ acc).length = 255 ∨ ∀ x, (last.toList ++ iter).head? = some x → ¬ ok (g ++ acc) x) := by
  induction l generalizing s g with
  | nil =>
    refine ⟨[], [], s, none, by simp [rleLoop], rfl, by simp; omega, by simpa using hrep, by simp,
      .inr (by simp)⟩
  | cons x l ih =>
    rcases hC.accept s g x hrep hg hlen with ⟨hok, s1, h1, h2⟩ | ⟨hok, s1, h1, h2⟩
    · by_cases hfull : g.length + 1 = 255
      · refine ⟨[x], l, s1, none, ?_, rfl, by simp; omega, h2, ?_, .inl (by simpa using hfull)⟩
        · simp only [rleLoop, h1, ofNat_succ_u8, hfull]
          simp [hfull]
        · intro p y q e
          rcases p with _ | ⟨z, p⟩
          · obtain ⟨rfl, _⟩ := List.cons.inj e
            simpa using hok
          · simp at e
      · obtain ⟨acc, iter, s', last, e1, e2, e3, e4, e5, e6⟩ := ih s1 (g ++ [x]) (by simp)
          (by simp; omega) h2
        rw [List.append_assoc] at e1 e3 e4 e6
        refine ⟨x :: acc, iter, s', last, ?_, ?_, e3, e4, ?_, e6⟩
        · rw [rleLoop, h1]
          simp only [ofNat_succ_u8]
          have hne : ¬ UInt8.ofNat (g.length + 1) = 255 := by
            intro h
            have := congrArg UInt8.toNat h
            simp [UInt8.toNat_ofNat'] at this
            omega
          rw [if_neg hne]
          simpa using e1
        · rw [e2]; simp
        · intro p y q e
          rcases p with _ | ⟨z, p⟩
          · obtain ⟨rfl, _⟩ := List.cons.inj e
            simpa using hok
          · obtain ⟨rfl, e'⟩ := List.cons.inj e
            have := e5 p y q e'
            simpa using this
    · refine ⟨[], l, s1, some x, by simp [rleLoop, h1], rfl, by simp; omega, by simpa using h2, by simp,
        .inr ?_⟩
      intro y hy
      simp at hy
      subst hy
      simpa using hok

/-- The items that have not been consumed. -/
def AbstractRle.rest (s : AbstractRle S T) : List T := s.last.toList ++ s.iter

/-- The run of a group. -/
def runOf (val : List T → T) (g : List T) : UInt8 × T := (UInt8.ofNat g.length, val g)

theorem rle_next_nil {s : AbstractRle S T} (h : s.rest = []) :
    AbstractRle.next C s = (.err (), { s with last := none }) := by
  obtain ⟨iter, crit, last⟩ := s
  cases last with
  | some x => simp [AbstractRle.rest] at h
  | none =>
    simp [AbstractRle.rest] at h
    subst h
    rfl

theorem rle_next_cons (hC : Represents C rep ok val) {s : AbstractRle S T} {x : T} {xs : List T}
    (h : s.rest = x :: xs) :
    ∃ g s', AbstractRle.next C s = (.ok (runOf val g), s') ∧ s.rest = g ++ s'.rest ∧ g ≠ [] ∧
      g.length ≤ 255 ∧ (∀ p x q, g = p ++ x :: q → p ≠ [] → ok p x) ∧
      (g.length = 255 ∨ ∀ x, s'.rest.head? = some x → ¬ ok g x) := by
  obtain ⟨acc, iter, s', last, e1, e2, e3, e4, e5, e6⟩ := rleLoop_spec hC xs
    (C.startSequence s.criteria x) [x] (by simp) (by simp) (hC.start _ _)
  obtain ⟨s'', h1⟩ := hC.finish s' ([x] ++ acc) e4 (by simp) e3
  refine ⟨[x] ++ acc, ⟨iter, s'', last⟩, ?_, ?_, by simp, e3, ?_, e6⟩
  · have e1' : rleLoop C xs (C.startSequence s.criteria x) 1 = _ := e1
    obtain ⟨it, crit, la⟩ := s
    cases la with
    | some y =>
      simp only [AbstractRle.rest, Option.toList_some, List.cons_append, List.nil_append,
        List.cons.injEq] at h
      obtain ⟨rfl, rfl⟩ := h
      simp only at e1' h1
      simp only [AbstractRle.next, e1', h1]
      rfl
    | none =>
      simp only [AbstractRle.rest, Option.toList_none, List.nil_append] at h
      subst h
      simp only at e1' h1
      simp only [AbstractRle.next, e1', h1]
      rfl
  · rw [h, e2]; simp [AbstractRle.rest]
  · intro p y q e hp
    rcases p with _ | ⟨z, p⟩
    · exact absurd rfl hp
    · obtain ⟨rfl, e'⟩ := List.cons.inj e
      exact e5 p y q e'

/-- The runs are those of the greedy grouping. -/
theorem rle_yields (hC : Represents C rep ok val) (n : Nat) (s : AbstractRle S T)
    (hn : s.rest.length ≤ n) :
    ∃ groups, Greedy ok s.rest groups ∧
      Yields (AbstractRle.next C) s (groups.map (runOf val)) := by
  induction n generalizing s with
  | zero =>
    have h0 : s.rest = [] := List.length_eq_zero_iff.1 (by omega)
    rw [h0]
    refine ⟨[], .nil, fun t => t.rest = [], h0, ?_⟩
    intro t ht
    rw [rle_next_nil ht]
    refine ⟨rfl, ?_⟩
    simp [AbstractRle.rest] at ht ⊢
    exact ht.2
  | succ n ih =>
    cases hr : s.rest with
    | nil =>
      refine ⟨[], .nil, fun t => t.rest = [], hr, ?_⟩
      intro t ht
      rw [rle_next_nil ht]
      refine ⟨rfl, ?_⟩
      simp [AbstractRle.rest] at ht ⊢
      exact ht.2
    | cons x xs =>
      obtain ⟨g, s', h1, h2, h3, h4, h5, h6⟩ := rle_next_cons hC hr
      have hl := congrArg List.length h2
      have hg := List.length_pos_iff.2 h3
      rw [List.length_append] at hl
      obtain ⟨groups, j1, j2⟩ := ih s' (by omega)
      exact ⟨g :: groups, by rw [← hr, h2]; exact .group h3 h4 h5 h6 j1, s', h1, j2⟩

theorem rle_groups (hC : Represents C rep ok val) (xs : List T) (s : S) :
    ∃ groups, Greedy ok xs groups ∧
      Yields (AbstractRle.next C) (AbstractRle.new xs s) (groups.map (runOf val)) :=
  rle_yields hC xs.length (.new xs s) (Nat.le_refl _)

/-! ## Groups -/

theorem _root_.Cniic.Spec.Greedy.flatten {xs : List T} {groups} (h : Greedy ok xs groups) :
    groups.flatten = xs := by
  induction h with
  | nil => rfl
  | group _ _ _ _ _ ih => simp [ih]

theorem _root_.Cniic.Spec.Greedy.sizes {xs : List T} {groups} (h : Greedy ok xs groups) :
    ∀ g ∈ groups, g ≠ [] ∧ g.length ≤ 255 := by
  induction h with
  | nil => simp
  | group h1 h2 _ _ _ ih =>
    intro g' hg'
    rcases List.mem_cons.1 hg' with rfl | h
    · exact ⟨h1, h2⟩
    · exact ih _ h

theorem _root_.Cniic.Spec.Greedy.joined {xs : List T} {groups} (h : Greedy ok xs groups) :
    ∀ g ∈ groups, ∀ p x q, g = p ++ x :: q → p ≠ [] → ok p x := by
  induction h with
  | nil => simp
  | group _ _ h3 _ _ ih =>
    intro g' hg'
    rcases List.mem_cons.1 hg' with rfl | h
    · exact h3
    · exact ih _ h

theorem _root_.Cniic.Spec.Greedy.length_le {xs : List T} {groups} (h : Greedy ok xs groups) :
    groups.length ≤ xs.length := by
  induction h with
  | nil => simp
  | @group g _ _ h1 _ _ _ _ ih =>
    have := List.length_pos_iff.2 h1
    simp only [List.length_cons, List.length_append]; omega

/-- There is only one greedy grouping. -/
theorem _root_.Cniic.Spec.Greedy.unique {xs : List T} {groups groups'} (h : Greedy ok xs groups)
    (h' : Greedy ok xs groups') : groups = groups' := by
  induction h generalizing groups' with
  | nil =>
    generalize hx : ([] : List T) = xs at h'
    cases h' with
    | nil => rfl
    | group h1 _ _ _ _ => exact absurd (List.append_eq_nil_iff.1 hx.symm).1 h1
  | @group g rest groups h1 h2 h3 h4 _ ih =>
    generalize hx : g ++ rest = xs at h'
    cases h' with
    | nil => exact absurd (List.append_eq_nil_iff.1 hx).1 h1
    | @group g' rest' groups' k1 k2 k3 k4 k5 =>
      have key : ∀ {g g' rest rest' : List T}, g ++ rest = g' ++ rest' → g ≠ [] → g'.length ≤ 255 →
          (∀ p x q, g' = p ++ x :: q → p ≠ [] → ok p x) →
          (g.length = 255 ∨ ∀ x, rest.head? = some x → ¬ ok g x) → ¬ g.length < g'.length := by
        intro g g' rest rest' he hg hl hok hstop hlt
        obtain ⟨t, ht⟩ : g <+: g' := by
          rcases List.prefix_or_prefix_of_prefix (List.prefix_append g rest)
            (he ▸ List.prefix_append g' rest') with h | h
          · exact h
          · have := h.length_le; omega
        cases t with
        | nil => simp at ht; subst ht; omega
        | cons y t =>
          have := hok g y t ht.symm hg
          rcases hstop with h255 | hstop
          · omega
          · apply hstop y _ this
            rw [← ht, List.append_assoc] at he
            rw [List.append_cancel_left he]; rfl
      have hlen : g.length = g'.length := by
        have a1 := key hx h1 k2 k3 h4
        have a2 := key hx.symm k1 h2 h3 k4
        omega
      obtain ⟨rfl, rfl⟩ := List.append_inj hx hlen
      rw [ih k5]

/-! ## Exact runs -/

theorem exact_represents [DecidableEq T] (d : T) : Represents (Exact : Criteria (Option T) T)
    (fun s g => s = g.head?) sameAsFirst (fun g => g.headD d) where
  start _ v := rfl
  accept s g x h hg _ := by
    subst h
    cases g with
    | nil => exact absurd rfl hg
    | cons y g =>
      by_cases hx : y = x
      · exact .inl ⟨by simp [sameAsFirst, hx], some y, by simp [Exact, hx], by simp⟩
      · exact .inr ⟨by simp [sameAsFirst, hx], some y, by simp [Exact, hx], by simp⟩
  finish s g h hg _ := by
    subst h
    cases g with
    | nil => exact absurd rfl hg
    | cons y g => exact ⟨none, rfl⟩

theorem group_same {g : List T} {d : T}
    (h : ∀ p x q, g = p ++ x :: q → p ≠ [] → sameAsFirst p x) :
    g = List.replicate g.length (g.headD d) := by
  cases g with
  | nil => rfl
  | cons y g =>
    rw [List.eq_replicate_iff]
    refine ⟨rfl, ?_⟩
    intro b hb
    rcases List.mem_cons.1 hb with rfl | hb
    · rfl
    · obtain ⟨p, q, rfl⟩ := List.append_of_mem hb
      have := h (y :: p) b q (by simp) (by simp)
      simpa [sameAsFirst, eq_comm] using this

theorem u8_ofNat_toNat {n : Nat} (h : n ≤ 255) : (UInt8.ofNat n).toNat = n := by
  rw [UInt8.toNat_ofNat']; omega

/-- The runs of the greedy grouping. -/
theorem exact_runs {d : T} {xs : List T} {groups} (h : Greedy sameAsFirst xs groups) :
    (∀ r ∈ groups.map (runOf fun g => g.headD d), 1 ≤ r.1.toNat) ∧
    expandRuns (groups.map (runOf fun g => g.headD d)) = xs ∧
    Maximal (groups.map (runOf fun g => g.headD d)) := by
  induction h with
  | nil => simp [expandRuns, Maximal]
  | @group g rest groups h1 h2 h3 h4 hr ih =>
    obtain ⟨i1, i2, i3⟩ := ih
    refine ⟨?_, ?_, ?_⟩
    · intro r hr
      rcases List.mem_cons.1 hr with rfl | hr
      · simp only [runOf]
        rw [u8_ofNat_toNat h2]
        exact List.length_pos_iff.2 h1
      · exact i1 r hr
    · simp only [expandRuns, List.map_cons, List.flatMap_cons] at i2 ⊢
      rw [i2]
      simp only [runOf]
      rw [u8_ofNat_toNat h2, ← group_same h3]
    · cases hr with
      | nil => exact trivial
      | @group g' rest' groups' k1 k2 k3 k4 k5 =>
        refine ⟨?_, i3⟩
        rcases h4 with h4 | h4
        · right; simp [runOf, h4]
        · left
          intro he
          simp only [runOf] at he
          cases g' with
          | nil => exact absurd rfl k1
          | cons z g' =>
            apply h4 z (by simp)
            cases g with
            | nil => exact absurd rfl h1
            | cons y g =>
              simp at he
              simp [sameAsFirst, he]

theorem expandRuns_cons (r : UInt8 × T) (runs : List (UInt8 × T)) :
    expandRuns (r :: runs) = List.replicate r.1.toNat r.2 ++ expandRuns runs := rfl

/-- There is only one sequence of non-empty, maximal runs that stands for a given sequence. -/
theorem maximal_runs_unique {runs runs' : List (UInt8 × T)} (h1 : ∀ r ∈ runs, 1 ≤ r.1.toNat)
    (h1' : ∀ r ∈ runs', 1 ≤ r.1.toNat) (hm : Maximal runs) (hm' : Maximal runs')
    (he : expandRuns runs = expandRuns runs') : runs = runs' := by
  have hnil : ∀ {r : UInt8 × T} {rs}, 1 ≤ r.1.toNat → expandRuns (r :: rs) ≠ [] := by
    intro r rs hr he
    rw [expandRuns_cons] at he
    have := congrArg List.length (List.append_eq_nil_iff.1 he).1
    simp at this
    rw [this] at hr
    exact absurd hr (by decide)
  -- the value and the length of the first run
  have hval : ∀ {r r' : UInt8 × T} {rs rs' : List (UInt8 × T)}, 1 ≤ r.1.toNat → 1 ≤ r'.1.toNat →
      expandRuns (r :: rs) = expandRuns (r' :: rs') → r.2 = r'.2 := by
    intro r r' rs rs' a b e
    rw [expandRuns_cons, expandRuns_cons] at e
    obtain ⟨n, hn⟩ : ∃ n, r.1.toNat = n + 1 := ⟨r.1.toNat - 1, by omega⟩
    obtain ⟨n', hn'⟩ : ∃ n, r'.1.toNat = n + 1 := ⟨r'.1.toNat - 1, by omega⟩
    rw [hn, hn', List.replicate_succ, List.replicate_succ] at e
    exact (List.cons.inj e).1
  have hlen : ∀ {r r' : UInt8 × T} {rs rs' : List (UInt8 × T)}, 1 ≤ r.1.toNat → 1 ≤ r'.1.toNat →
      (∀ x ∈ rs, 1 ≤ x.1.toNat) → Maximal (r :: rs) →
      expandRuns (r :: rs) = expandRuns (r' :: rs') → ¬ r.1.toNat < r'.1.toNat := by
    intro r r' rs rs' a b h hmx e hlt
    have hv := hval a b e
    rw [expandRuns_cons, expandRuns_cons, ← hv] at e
    obtain ⟨k, hk⟩ : ∃ k, r'.1.toNat = r.1.toNat + (k + 1) := ⟨r'.1.toNat - r.1.toNat - 1, by omega⟩
    rw [hk, ← List.replicate_append_replicate, List.append_assoc] at e
    have e2 := List.append_cancel_left e
    cases rs with
    | nil => simp [expandRuns, List.replicate_succ] at e2
    | cons r2 rs =>
      have h2 := h r2 (by simp)
      rw [expandRuns_cons] at e2
      obtain ⟨n, hn⟩ : ∃ n, r2.1.toNat = n + 1 := ⟨r2.1.toNat - 1, by omega⟩
      rw [hn, List.replicate_succ, List.replicate_succ] at e2
      have hv2 := (List.cons.inj e2).1
      rcases hmx.1 with h3 | h3
      · exact h3 hv2.symm
      · have := r'.1.toNat_lt
        rw [h3] at hlt
        have : (255 : UInt8).toNat = 255 := rfl
        omega
  induction runs generalizing runs' with
  | nil =>
    cases runs' with
    | nil => rfl
    | cons r' rs' => exact absurd he.symm (hnil (h1' r' (by simp)))
  | cons r rs ih =>
    cases runs' with
    | nil => exact absurd he (hnil (h1 r (by simp)))
    | cons r' rs' =>
      have a := h1 r (by simp)
      have b := h1' r' (by simp)
      have hv := hval a b he
      have l1 := hlen a b (fun x hx => h1 x (by simp [hx])) hm he
      have l2 := hlen b a (fun x hx => h1' x (by simp [hx])) hm' he.symm
      have hl : r.1 = r'.1 := UInt8.toNat.inj (by omega)
      have hr : r = r' := Prod.ext hl hv
      subst hr
      rw [expandRuns_cons, expandRuns_cons] at he
      have tl : ∀ {r : UInt8 × T} {rs}, Maximal (r :: rs) → Maximal rs := by
        intro r rs h
        cases rs with
        | nil => trivial
        | cons _ _ => exact h.2
      rw [ih (fun x hx => h1 x (by simp [hx])) (fun x hx => h1' x (by simp [hx])) (tl hm) (tl hm')
        (List.append_cancel_left he)]

/-! ## The decoder -/

/-- The bytes of a run. -/
def runBytes (r : UInt8 × Rgb UInt8) : List UInt8 := r.1 :: bytes r.2

theorem runBytes_length (r : UInt8 × Rgb UInt8) : (runBytes r).length = 12 := by
  simp [runBytes, rgb_bytes_length]

theorem runs_bytes_length (runs : List (UInt8 × Rgb UInt8)) :
    (runs.flatMap runBytes).length = 12 * runs.length := by
  induction runs with
  | nil => rfl
  | cons r runs ih =>
    rw [List.flatMap_cons, List.length_append, runBytes_length, ih, List.length_cons]; omega

theorem emits_run (r : UInt8 × Rgb UInt8) : Emits Emits.errOnly (serRun r) (runBytes r) () :=
  Emits.bind (LawfulSer.emits r.1 trivial) (LawfulSer.emits r.2 (rgb_valid _))

theorem de_u8_cons (b : UInt8) (l : List UInt8) :
    (de listNext (b :: l) : Ret Unit UInt8 × List UInt8) = (.ok b, l) := rfl

theorem rleDecoder_run {c : UInt8} {color : Rgb UInt8} {rest : List UInt8} {k : Nat} (hk : c.toNat = k)
    {xs : List (Rgb UInt8)} {P : RleDecoder → List (Rgb UInt8) → Prop}
    (hcons : ∀ {s s' x xs}, RleDecoder.next s = (.ok x, s') → P s' xs → P s (x :: xs))
    (h0 : P ⟨rest, color, 0⟩ xs) : P ⟨rest, color, c⟩ (List.replicate k color ++ xs) := by
  induction k generalizing c with
  | zero =>
    obtain rfl : c = 0 := UInt8.toNat.inj hk
    exact h0
  | succ k ih =>
    rw [List.replicate_succ, List.cons_append]
    have hc : c ≠ 0 := by rintro rfl; exact absurd hk (by simp)
    apply hcons (s' := ⟨rest, color, c - 1⟩)
    · simp only [RleDecoder.next]; rw [if_neg hc]
    · apply ih
      have h1 : (1 : UInt8) ≤ c := by
        rw [UInt8.le_iff_toNat_le]; rw [hk]; exact Nat.succ_le_succ (Nat.zero_le _)
      rw [UInt8.toNat_sub_of_le _ _ h1, hk]; rfl

theorem rleDecoder_start {c : UInt8} {color cur : Rgb UInt8} {rest : List UInt8} (hc : 1 ≤ c.toNat)
    {xs : List (Rgb UInt8)} {P : RleDecoder → List (Rgb UInt8) → Prop}
    (hcons : ∀ {s s' x xs}, RleDecoder.next s = (.ok x, s') → P s' xs → P s (x :: xs))
    (h0 : P ⟨rest, color, 0⟩ xs) :
    P ⟨runBytes (c, color) ++ rest, cur, 0⟩ (List.replicate c.toNat color ++ xs) := by
  obtain ⟨k, hk⟩ : ∃ k, c.toNat = k + 1 := ⟨c.toNat - 1, by omega⟩
  rw [hk, List.replicate_succ, List.cons_append]
  apply hcons (s' := ⟨rest, color, c - 1⟩)
  · have hgt : c > 0 := by
      rw [GT.gt, UInt8.lt_iff_toNat_lt]; exact hc
    simp only [RleDecoder.next]
    rw [if_pos trivial]
    simp only [runBytes, List.cons_append, de_u8_cons]
    rw [if_pos hgt, LawfulSer.de_bytes color (rgb_valid _) rest]
  · apply rleDecoder_run _ hcons h0
    have h1 : (1 : UInt8) ≤ c := by
      rw [UInt8.le_iff_toNat_le]; exact hc
    rw [UInt8.toNat_sub_of_le _ _ h1, hk]; rfl

/-- Decoding whole runs, followed by something. -/
theorem rleDecoder_runs {P : RleDecoder → List (Rgb UInt8) → Prop}
    (hcons : ∀ {s s' x xs}, RleDecoder.next s = (.ok x, s') → P s' xs → P s (x :: xs))
    (runs : List (UInt8 × Rgb UInt8)) (h : ∀ r ∈ runs, 1 ≤ r.1.toNat) (tail : List UInt8)
    {xs : List (Rgb UInt8)} (h0 : ∀ cur, P ⟨tail, cur, 0⟩ xs) (cur : Rgb UInt8) :
    P ⟨runs.flatMap runBytes ++ tail, cur, 0⟩ (expandRuns runs ++ xs) := by
  induction runs generalizing cur with
  | nil => exact h0 cur
  | cons r runs ih =>
    rw [List.flatMap_cons, List.append_assoc, expandRuns_cons, List.append_assoc]
    exact rleDecoder_start (h r (by simp)) hcons (ih (fun x hx => h x (by simp [hx])) r.2)

theorem rleDecoder_end (cur : Rgb UInt8) :
    RleDecoder.next ⟨[], cur, 0⟩ = (.err (), ⟨[], cur, 0⟩) := rfl

theorem rleDecoder_yields (runs : List (UInt8 × Rgb UInt8)) (h : ∀ r ∈ runs, 1 ≤ r.1.toNat) :
    Yields RleDecoder.next (RleDecoder.new (runs.flatMap runBytes)) (expandRuns runs) := by
  have := rleDecoder_runs (P := Yields RleDecoder.next) (fun {s s' x xs} h1 h2 => ⟨s', h1, h2⟩) runs h []
    (xs := []) (fun cur => ⟨fun t => t = ⟨[], cur, 0⟩, rfl, by rintro t rfl; exact ⟨rfl, rfl⟩⟩) black
  simpa [RleDecoder.new] using this

/-- Cut between runs: the rest is missing. -/
theorem rleDecoder_endsAfter (runs : List (UInt8 × Rgb UInt8)) (h : ∀ r ∈ runs, 1 ≤ r.1.toNat) :
    EndsAfter RleDecoder.next (RleDecoder.new (runs.flatMap runBytes)) (expandRuns runs) := by
  have := rleDecoder_runs (P := EndsAfter RleDecoder.next) (fun {s s' x xs} h1 h2 => ⟨s', h1, h2⟩) runs h
    [] (xs := []) (fun cur => rfl) black
  simpa [RleDecoder.new] using this

/-- Cut inside a run: a panic. -/
theorem rleDecoder_panicsAfter (runs : List (UInt8 × Rgb UInt8)) (h : ∀ r ∈ runs, 1 ≤ r.1.toNat)
    (r : UInt8 × Rgb UInt8) (hr : 1 ≤ r.1.toNat) (p : List UInt8) (hp : p <+: runBytes r)
    (h1 : p ≠ []) (h2 : p ≠ runBytes r) :
    PanicsAfter RleDecoder.next (RleDecoder.new (runs.flatMap runBytes ++ p)) (expandRuns runs) := by
  have := rleDecoder_runs (P := PanicsAfter RleDecoder.next) (fun {s s' x xs} h1 h2 => ⟨s', h1, h2⟩) runs
    h p (xs := []) (fun cur => by
      obtain ⟨c, color⟩ := r
      cases p with
      | nil => exact absurd rfl h1
      | cons b p =>
        simp only [runBytes, List.cons_prefix_cons] at hp
        obtain ⟨rfl, hp⟩ := hp
        have hgt : b > 0 := by rw [GT.gt, UInt8.lt_iff_toNat_lt]; exact hr
        have hd := de_truncated (rgb_valid color) hp (fun e => h2 (by rw [e]; rfl))
        simp only [PanicsAfter, RleDecoder.next]
        rw [if_pos trivial, de_u8_cons]
        simp only
        rw [if_pos hgt]
        rcases hd' : (de listNext p : Ret Unit (Rgb UInt8) × List UInt8) with ⟨_ | _ | _, _⟩ <;>
          rw [hd'] at hd <;> simp at hd) black
  simpa [RleDecoder.new] using this

end Cniic
