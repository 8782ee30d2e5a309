import Verif.Proofs.BackDec

/-! # Proofs about the factorization of the input -/

namespace Cniic.Back

open Cniic.Spec

theorem meaningFrom_append (N : Nat) (h : List UInt8) (a b : List Symbol) :
    meaningFrom N h (a ++ b) =
      match meaningFrom N h a with
      | none => none
      | some x =>
        match meaningFrom N (h ++ x) b with
        | none => none
        | some y => some (x ++ y) := by
  induction a generalizing h with
  | nil =>
    simp only [List.nil_append, meaningFrom, List.append_nil]
    cases meaningFrom N h b <;> rfl
  | cons s a ih =>
    simp only [List.cons_append, meaningFrom, ih]
    cases symbolMeaning N h s with
    | none => rfl
    | some x =>
      simp only
      cases meaningFrom N (h ++ x) a with
      | none => rfl
      | some y =>
        simp only [List.append_assoc]
        cases meaningFrom N (h ++ (x ++ y)) b with
        | none => rfl
        | some z => simp

theorem meaningFrom_literal (N : Nat) (h run : List UInt8) :
    meaningFrom N h (literal run) = some run := by
  unfold literal
  by_cases hr : run = []
  · simp [hr, meaningFrom]
  · simp [hr, meaningFrom, symbolMeaning]

theorem _root_.Cniic.Spec.Occurs.meaning {N : Nat} {h rest : List UInt8} {len back : Nat}
    (ho : Occurs N h rest len back) : symbolMeaning N h (.lookBack len back) = some (rest.take len) := by
  simp only [symbolMeaning]
  rw [if_pos ⟨ho.inHist, ho.inWindow⟩]
  congr 1
  apply take_eq_take_of_get
  intro i hi
  rw [List.getElem?_drop, ho.same i hi]

theorem _root_.Cniic.Spec.Factor.meaning {N : Nat} {h run rest : List UInt8} {syms : List Symbol}
    (hf : Factor N h run rest syms) :
    ∀ h0, h = h0 ++ run → meaningFrom N h0 syms = some (run ++ rest) := by
  induction hf with
  | @copy h run rest len back syms hc _ ih =>
    rintro h0 rfl
    have e := ih ((h0 ++ run) ++ rest.take len) (by simp)
    rw [meaningFrom_append, meaningFrom_literal]
    simp only [meaningFrom, hc.occurs.meaning, e]
    simp
  | @extend h run rest syms _ _ _ ih =>
    rintro h0 rfl
    rw [ih h0 (by simp)]
    simp
  | @last h run rest _ _ =>
    rintro h0 rfl
    rw [meaningFrom_literal]

theorem _root_.Cniic.Spec.Factor.nonempty {N : Nat} {h run rest : List UInt8} {syms : List Symbol}
    (hf : Factor N h run rest syms) :
    ∀ s ∈ syms, s ≠ .explicit [] ∧ ∀ len back, s = .lookBack len back → 0 < len ∧ 0 < back := by
  have hlit : ∀ (run : List UInt8) s, s ∈ literal run → s ≠ .explicit [] ∧
      ∀ len back, s = .lookBack len back → 0 < len ∧ 0 < back := by
    intro run s hs
    unfold literal at hs
    by_cases hr : run = []
    · simp [hr] at hs
    · simp only [hr, if_false, List.mem_singleton] at hs
      subst hs
      exact ⟨fun h => hr (by simpa using h), fun _ _ h => by cases h⟩
  induction hf with
  | @copy h run rest len back syms hc _ ih =>
    intro s hs
    rcases List.mem_append.1 hs with hs | hs
    · exact hlit _ s hs
    · rcases List.mem_cons.1 hs with rfl | hs
      · refine ⟨(fun h => by cases h), ?_⟩
        intro l b he
        cases he
        have := hc.useful; have := hc.occurs.inside
        omega
      · exact ih s hs
  | extend _ _ _ ih => exact ih
  | last _ _ => exact hlit _

/-- Every copy is a longest one at its place. -/
theorem _root_.Cniic.Spec.Factor.copies {N : Nat} {h run rest : List UInt8} {syms : List Symbol}
    (hf : Factor N h run rest syms) :
    ∀ h0, h = h0 ++ run → ∀ pre len back post, syms = pre ++ .lookBack len back :: post →
      ∃ x r, meaningFrom N h0 pre = some x ∧ run ++ rest = x ++ r ∧
        LongestCopy N (h0 ++ x) r len back := by
  induction hf with
  | @copy h run rest len back syms hc hf ih =>
    rintro h0 rfl pre l b post he
    have after : ∀ pre', syms = pre' ++ .lookBack l b :: post →
        pre = literal run ++ .lookBack len back :: pre' →
        ∃ x r, meaningFrom N h0 pre = some x ∧ run ++ rest = x ++ r ∧
          LongestCopy N (h0 ++ x) r l b := by
      intro pre' h1 h2
      obtain ⟨x, r, h3, h4, h5⟩ := ih (h0 ++ run ++ rest.take len) (by simp) pre' l b post h1
      refine ⟨run ++ (rest.take len ++ x), r, ?_, ?_, by simpa [List.append_assoc] using h5⟩
      · rw [h2, meaningFrom_append, meaningFrom_literal]
        simp only [meaningFrom, hc.occurs.meaning, h3]
      · rw [List.nil_append] at h4
        rw [List.append_assoc, List.append_assoc, ← h4, List.take_append_drop]
    have here : pre = literal run → len = l → back = b →
        ∃ x r, meaningFrom N h0 pre = some x ∧ run ++ rest = x ++ r ∧
          LongestCopy N (h0 ++ x) r l b := by
      rintro rfl rfl rfl
      exact ⟨run, rest, meaningFrom_literal _ _ _, rfl, hc⟩
    unfold literal at he here after
    by_cases hr : run = []
    · simp only [hr, if_true, List.nil_append] at he here after
      cases pre with
      | nil =>
        simp only [List.nil_append, List.cons.injEq, Symbol.lookBack.injEq] at he
        subst hr
        simpa using here rfl he.1.1 he.1.2
      | cons p pre =>
        simp only [List.cons_append, List.cons.injEq] at he
        subst hr
        simpa using after pre he.2 (by rw [he.1])
    · simp only [hr, if_false] at he here after
      cases pre with
      | nil => simp at he
      | cons p pre =>
        simp only [List.cons_append, List.cons.injEq, List.nil_append] at he
        obtain ⟨rfl, he⟩ := he
        cases pre with
        | nil =>
          simp only [List.nil_append, List.cons.injEq, Symbol.lookBack.injEq] at he
          exact here rfl he.1.1 he.1.2
        | cons p pre =>
          simp only [List.cons_append, List.cons.injEq] at he
          exact after pre he.2 (by rw [he.1]; rfl)
  | @extend h run rest syms _ _ _ ih =>
    rintro h0 rfl pre l b post he
    obtain ⟨x, r, h3, h4, h5⟩ := ih h0 (by simp) pre l b post he
    refine ⟨x, r, h3, ?_, h5⟩
    rw [← h4, List.append_assoc, List.take_append_drop]
  | @last h run rest _ _ =>
    rintro h0 rfl pre l b post he
    unfold literal at he
    by_cases hr : run ++ rest = []
    · simp [hr] at he
    · simp only [hr, if_false] at he
      cases pre with
      | nil => simp at he
      | cons p pre => simp at he

theorem _root_.Cniic.Spec.Factor.unique {N : Nat} {h run rest : List UInt8} {s1 s2 : List Symbol}
    (h1 : Factor N h run rest s1) (h2 : Factor N h run rest s2) : s1 = s2 := by
  induction h1 generalizing s2 with
  | @copy h run rest len back syms hc _ ih =>
    cases h2 with
    | @copy _ _ _ len' back' syms' hc' h' =>
      have hl : len = len' :=
        Nat.le_antisymm (hc'.longest _ _ hc.occurs) (hc.longest _ _ hc'.occurs)
      subst hl
      have hb : back = back' :=
        Nat.le_antisymm (hc'.farthest _ hc.occurs) (hc.farthest _ hc'.occurs)
      subst hb
      rw [ih h']
    | extend hn _ _ => have := hn _ _ hc.occurs; have := hc.useful; omega
    | last hn _ => have := hn _ _ hc.occurs; have := hc.useful; omega
  | extend hn hl _ ih =>
    cases h2 with
    | copy hc _ => have := hn _ _ hc.occurs; have := hc.useful; omega
    | extend _ _ h' => exact ih h'
    | last _ hl' => omega
  | last hn hl =>
    cases h2 with
    | copy hc _ => have := hn _ _ hc.occurs; have := hc.useful; omega
    | extend _ hl' _ => omega
    | last _ _ => rfl

theorem literal_size (run : List UInt8) :
    ((literal run).flatMap symbolBytes).length ≤ run.length + 2 := by
  unfold literal
  by_cases hr : run = []
  · simp [hr]
  · simp only [hr, if_false]
    simp [symbolBytes, le_two]

theorem _root_.Cniic.Spec.Factor.size {N : Nat} {h run rest : List UInt8} {syms : List Symbol}
    (hf : Factor N h run rest syms) :
    (syms.flatMap symbolBytes).length ≤ run.length + rest.length + 2 := by
  induction hf with
  | @copy h run rest len back syms hc _ ih =>
    have := literal_size run
    have := hc.useful
    have := hc.occurs.avail
    rw [List.flatMap_append, List.flatMap_cons]
    simp only [List.length_append, symbolBytes, le_two, List.length_cons, List.length_nil,
      List.length_drop] at *
    omega
  | extend _ _ _ ih =>
    simp only [List.length_append, List.length_take, List.length_drop] at ih
    omega
  | @last h run rest _ _ =>
    have := literal_size (run ++ rest)
    simp only [List.length_append] at this
    omega

/-- No run is longer than what there is to encode. -/
theorem _root_.Cniic.Spec.Factor.fits {N : Nat} (hN : N ≤ 65535) {h run rest : List UInt8} {syms : List Symbol}
    (hf : Factor N h run rest syms) (hl : run.length + rest.length ≤ 32767) : ∀ s ∈ syms, Fits s := by
  have hlit : ∀ (run : List UInt8) s, run.length ≤ 32767 → s ∈ literal run → Fits s := by
    intro run s hl hs
    unfold literal at hs
    by_cases hr : run = []
    · simp [hr] at hs
    · simp only [hr, if_false, List.mem_singleton] at hs
      subst hs
      exact hl
  induction hf with
  | @copy h run rest len back syms hc _ ih =>
    intro s hs
    have := hc.occurs.avail
    rcases List.mem_append.1 hs with hs | hs
    · exact hlit _ s (by omega) hs
    · rcases List.mem_cons.1 hs with rfl | hs
      · have := hc.occurs.inWindow
        exact ⟨by omega, by omega⟩
      · exact ih (by simp; omega) s hs
  | extend _ _ _ ih =>
    apply ih
    simp only [List.length_append, List.length_take, List.length_drop]
    omega
  | @last h run rest _ _ =>
    intro s hs
    exact hlit _ s (by simp; omega) hs

/-! ## Constant inputs -/

theorem occurs_const {N m r : Nat} {b : UInt8} {len back : Nat} (h1 : back ≤ m) (h2 : back ≤ N)
    (h3 : len ≤ back) (h4 : len ≤ r) :
    Occurs N (List.replicate m b) (List.replicate r b) len back := by
  refine ⟨by simpa using h1, h2, h3, by simpa using h4, ?_⟩
  intro i hi
  rw [List.getElem?_replicate, List.getElem?_replicate]
  simp only [List.length_replicate]
  rw [if_pos (by omega), if_pos (by omega)]

/-- From 2^k equal bytes of history on, the copies double until they are too long. -/
theorem factor_const_copies {N : Nat} (hN : 32768 ≤ N) {b : UInt8} (j : Nat) :
    ∀ {m r : Nat} {run : List UInt8} {syms : List Symbol}, m * 2 ^ j = 32768 → 6 ≤ m →
      m + r ≥ 65536 → Factor N (List.replicate m b) run (List.replicate r b) syms →
      ∃ back, .lookBack 32768 back ∈ syms := by
  induction j with
  | zero =>
    intro m r run syms hm h6 hr hf
    have hm : m = 32768 := by simpa using hm
    subst hm
    have hocc : Occurs N (List.replicate 32768 b) (List.replicate r b) 32768 32768 :=
      occurs_const (by omega) hN (by omega) (by omega)
    cases hf with
    | @copy _ _ _ len back syms hc _ =>
      have h1 := hc.longest _ _ hocc
      have h2 := hc.occurs.inside
      have h3 := hc.occurs.inHist
      rw [List.length_replicate] at h3
      have : len = 32768 := by omega
      subst this
      exact ⟨back, by simp⟩
    | extend hn _ _ => have := hn _ _ hocc; omega
    | last hn _ => have := hn _ _ hocc; omega
  | succ j ih =>
    intro m r run syms hm h6 hr hf
    have hpos : 0 < 2 ^ j := Nat.pow_pos (by omega)
    have hm2 : m * 2 * 2 ^ j = 32768 := by rw [← hm, Nat.pow_succ, Nat.mul_assoc]; congr 1; omega
    have hmle : m * 2 ≤ 32768 := by
      calc m * 2 = m * 2 * 1 := by omega
        _ ≤ m * 2 * 2 ^ j := Nat.mul_le_mul_left _ hpos
        _ = 32768 := hm2
    have hocc : Occurs N (List.replicate m b) (List.replicate r b) m m :=
      occurs_const (by omega) (by omega) (by omega) (by omega)
    cases hf with
    | @copy _ _ _ len back syms hc hf' =>
      have h1 := hc.longest _ _ hocc
      have h2 := hc.occurs.inside
      have h3 := hc.occurs.inHist
      rw [List.length_replicate] at h3
      have : len = m := by omega
      subst this
      rw [List.take_replicate, List.drop_replicate, Nat.min_eq_left (by omega),
        List.replicate_append_replicate] at hf'
      obtain ⟨back, hb⟩ := ih (m := len + len) (by rw [← hm2]; congr 1; omega) (by omega) (by omega) hf'
      exact ⟨back, by simp [hb]⟩
    | extend hn _ _ => have := hn _ _ hocc; omega
    | last hn _ => have := hn _ _ hocc; omega

theorem factor_const {N : Nat} (hN : 32768 ≤ N) {b : UInt8} {n : Nat} (hn : 65536 ≤ n)
    {syms : List Symbol} (hf : Factor N [] [] (List.replicate n b) syms) :
    ∃ back, .lookBack 32768 back ∈ syms := by
  -- two, four, eight literal bytes first
  have step : ∀ {m r : Nat} {run : List UInt8} {syms : List Symbol}, m < 6 → 6 ≤ r → run.length ≤ r →
      Factor N (List.replicate m b) run (List.replicate r b) syms →
      Factor N (List.replicate (m + max run.length 2) b) (run ++ List.replicate (max run.length 2) b)
        (List.replicate (r - max run.length 2) b) syms := by
    intro m r run syms hm hr hrr hf
    cases hf with
    | copy hc _ =>
      have h1 := hc.useful
      have h2 := hc.occurs.inside
      have h3 := hc.occurs.inHist
      rw [List.length_replicate] at h3; omega
    | extend hn hl hf' =>
      rw [List.length_replicate] at hl
      rw [List.take_replicate, List.drop_replicate, Nat.min_eq_left hl,
        List.replicate_append_replicate] at hf'
      exact hf'
    | last _ hl => rw [List.length_replicate] at hl; omega
  have h1 := step (m := 0) (run := []) (by omega) (by omega) (by simp) hf
  have h2 := step (by simp) (by simp; omega) (by simp; omega) h1
  have h3 := step (by simp) (by simp; omega) (by simp; omega) h2
  simp only [List.length_nil, List.length_append, List.length_replicate] at h3
  exact factor_const_copies hN 12 (by omega) (by omega) (by omega) h3

theorem Factor.run_fits {N : Nat} {hist run rest : List UInt8} {syms : List Symbol}
    (hf : Factor N hist run rest syms) (h : ∀ s ∈ syms, Fits s) : run.length ≤ 32767 := by
  have hl : ∀ run : List UInt8, (∀ s ∈ literal run, Fits s) → run.length ≤ 32767 := by
    intro run h
    by_cases hr : run = []
    · rw [hr]; simp
    · exact h (.explicit run) (by simp [literal, hr])
  induction hf with
  | copy _ _ _ => exact hl _ fun s hs => h s (by simp [hs])
  | extend _ _ _ ih =>
    have := ih h
    rw [List.length_append] at this
    omega
  | last _ _ =>
    have := hl _ h
    rw [List.length_append] at this
    omega

/-- An input that repeats itself with period `back`, from position `s` on, has no factorization that fits
the format if it is long enough. -/
theorem factor_periodic {N s back : Nat} {X : List UInt8} (hN : back ≤ N) (hb : 32768 ≤ back)
    (hper : ∀ i, s ≤ i → i + back < X.length → X[i]? = X[i + back]?)
    (hX : s + back + 65535 ≤ X.length + 1) {hist run rest : List UInt8} {syms : List Symbol}
    (hf : Factor N hist run rest syms) (he : hist ++ rest = X)
    (hh : hist.length + 1 ≤ s + back + 32767) : ¬ ∀ y ∈ syms, Fits y := by
  intro hfit
  have key : ∀ {hist rest : List UInt8}, hist ++ rest = X → hist.length + 1 ≤ s + back + 32767 →
      s + back ≤ hist.length → Occurs N hist rest 32768 back := by
    intro hist rest he hh hs
    have hl := congrArg List.length he
    rw [List.length_append] at hl
    refine ⟨by omega, hN, hb, by omega, fun i hi => ?_⟩
    have h1 := hper (hist.length - back + i) (by omega) (by omega)
    rw [← he, List.getElem?_append_left (by omega), List.getElem?_append_right (by omega)] at h1
    rw [h1]
    congr 1
    omega
  induction hf with
  | @copy hist run rest len bk syms hc hf ih =>
    by_cases hs : s + back ≤ hist.length
    · have h1 := hc.longest _ _ (key he hh hs)
      have h2 : Fits (.lookBack len bk) := hfit _ (by simp)
      have := h2.1
      omega
    · have h2 : Fits (.lookBack len bk) := hfit _ (by simp)
      have h3 := h2.1
      exact ih (by rw [List.append_assoc, List.take_append_drop]; exact he)
        (by rw [List.length_append, List.length_take]; omega) fun y hy => hfit y (by simp [hy])
  | @extend hist run rest syms hn hle hf ih =>
    have hr := Factor.run_fits hf hfit
    rw [List.length_append, List.length_take, Nat.min_eq_left hle] at hr
    by_cases hs : s + back ≤ hist.length
    · have := hn _ _ (key he hh hs)
      omega
    · exact ih (by rw [List.append_assoc, List.take_append_drop]; exact he)
        (by rw [List.length_append, List.length_take]; omega) hfit
  | @last hist run rest hn hlt =>
    have hl := congrArg List.length he
    rw [List.length_append] at hl
    have hr := Factor.run_fits (Factor.last hn hlt) hfit
    omega

end Cniic.Back
