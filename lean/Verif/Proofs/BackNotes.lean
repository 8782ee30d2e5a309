import Verif.Spec.BackNotes
import Verif.Proofs.BackDec

/-!
# Proofs about the console output of zip-back
-/

namespace Cniic.Back
open Spec

theorem filter_range_range' {P : Nat → Bool} {a b n : Nat} (hb : b ≤ n)
    (hP : ∀ p, P p = true → a ≤ p ∧ p < b) :
    (List.range n).filter P = (List.range' a (b - a)).filter P := by
  by_cases hab : a ≤ b
  · rw [List.range_eq_range', show n = a + ((b - a) + (n - b)) by omega]
    rw [← List.range'_append_1, ← List.range'_append_1, List.filter_append, List.filter_append]
    have e1 : (List.range' 0 a).filter P = [] := by
      rw [List.filter_eq_nil_iff]
      intro p hp h
      rw [List.mem_range'_1] at hp
      have := hP p h
      omega
    have e2 : (List.range' (0 + a + (b - a)) (n - b)).filter P = [] := by
      rw [List.filter_eq_nil_iff]
      intro p hp h
      rw [List.mem_range'_1] at hp
      have := hP p h
      omega
    rw [e1, e2, List.nil_append, List.append_nil, Nat.zero_add]
  · have e1 : (List.range n).filter P = [] := by
      rw [List.filter_eq_nil_iff]
      intro p hp h
      have := hP p h
      omega
    rw [e1, show b - a = 0 by omega]
    rfl

/-- The number of candidates. -/
theorem cands_length (N : Nat) (h rest : List UInt8) : (cands N h rest).length = places N h rest := by
  unfold cands occ places
  rw [filter_range_range' (a := h.length - N) (b := h.length - 5) (by omega)]
  · congr 1
    apply List.filter_congr
    intro p hp
    rw [List.mem_range'_1] at hp
    rw [decide_eq_decide]
    constructor
    · intro hh; exact ⟨by omega, by omega, hh⟩
    · intro hh; exact hh.2.2
  · intro p hp
    rw [decide_eq_true_eq] at hp
    omega

theorem askNotes_spec {N : Nat} {e : Encoder} {h rest : List UInt8}
    (he : HistInv N e.history h) {L : Nat} (hL : 6 ≤ L) (hLr : L ≤ rest.length)
    (hrb : e.repBuf = rest.take L) : e.askNotes = [.asked (places N h rest)] := by
  unfold Encoder.askNotes
  have hl : e.repBuf.length = L := by rw [hrb, List.length_take]; omega
  rw [if_neg (by simp [hl, minRep]; omega)]
  have hk : e.repBuf.take minRep = rest.take 6 := by
    rw [hrb, List.take_take, minRep, Nat.min_eq_left hL]
  rw [hk, he.startIndices, ← cands_length]
  rfl

theorem repLoopNotes_spec {N : Nat} {cap : Caps} (hcap : ∀ i, repBufInit ≤ cap i) {h rest : List UInt8}
    (fuel : Nat) {e : Encoder} {L : Nat} (he : EncInv N e h rest L) (hL : 6 ≤ L ∨ L = rest.length)
    (hrb : e.repBuf = rest.take L) (hf : rest.length - L < fuel) :
    Looks N h rest (cap e.queries) L (e.repLoopNotes cap fuel) := by
  induction fuel generalizing e L with
  | zero => omega
  | succ fuel ih =>
    have hLr := he.input.le_rest
    have hl : e.repBuf.length = L := by rw [hrb, List.length_take]; omega
    by_cases h6 : 6 ≤ L
    · simp only [Encoder.repLoopNotes, bufferedRepetition_spec he.hist h6 hLr hrb, hl, askNotes_spec he.hist h6 hLr hrb]
      have hbs := best_spec (fun p => lcp (rest.take L) (h.drop p)) h.length (cands N h rest)
        (pairwise_occ _ _ _ _) 0 0
      generalize hbst : best (fun p => lcp (rest.take L) (h.drop p)) h.length (cands N h rest) 0 0 = r
        at *
      obtain ⟨len, back⟩ := r
      simp only
      by_cases hlen : len = L
      · rw [if_pos hlen]
        have hocc : ∃ back, Occurs N h rest L back := by
          rcases hbs with ⟨h1, -⟩ | ⟨j, hj, h1, -⟩
          · simp only [Prod.mk.injEq] at h1
            omega
          · simp only [Prod.mk.injEq] at h1
            have ho := occurs_iff.1 (occurs_of_mem hj)
            refine ⟨h.length - j, occurs_iff.2 ⟨ho.1, ho.2.1, ?_⟩⟩
            have := h1.1
            rw [lcp_take] at this
            omega
        obtain ⟨back', hocc⟩ := hocc
        obtain ⟨e', h1, h2, h3⟩ := moreData_spec (cap := cap) he
        have hc := hcap e.queries
        have h2' : e'.repBuf = rest.take (min (L + cap e.queries) rest.length) := by
          rw [h2, hrb, ← List.take_add, List.take_eq_take_min]
        have hl' : e'.repBuf.length = min (L + cap e.queries) rest.length := by
          rw [h2', List.length_take]; omega
        have hc' := hcap e'.queries
        rw [repBufInit] at hc hc'
        simp only [h1]
        by_cases hsame : e'.repBuf.length = L
        · rw [if_pos hsame]
          exact .ends (by omega) hocc (by omega) hc'
        · rw [if_neg hsame]
          exact .on (by omega) hocc (by omega) hc' (ih h3 (by omega) h2' (by omega))
      · rw [if_neg hlen]
        refine .differs (by omega) ?_
        intro len' back' ho
        apply Classical.byContradiction
        intro hn
        have ho' := occurs_iff.1 ho
        have hm := mem_cands_of_occurs ho (by omega)
        have hlcp : lcp (rest.take L) (h.drop (h.length - back')) = L := by
          rw [lcp_take]
          omega
        rcases hbs with ⟨h1, h2⟩ | ⟨j, hj, h1, h2, h3, h4⟩
        · have := h2 _ hm
          omega
        · simp only [Prod.mk.injEq] at h1
          have h5 := h3 _ hm
          have hb := lcp_le_left (rest.take L) (h.drop j)
          rw [List.length_take] at hb
          omega
    · have hLr' : L = rest.length := by omega
      have : e.repLoopNotes cap (fuel + 1) = [] := by
        simp [Encoder.repLoopNotes, Encoder.askNotes, Encoder.bufferedRepetition, hl, minRep, show L < 6 by omega]
      rw [this]
      exact .short (by omega)

theorem nextRepetitionNotes_spec {N : Nat} {cap : Caps} (hcap : ∀ i, repBufInit ≤ cap i)
    {h rest : List UInt8} {e : Encoder} (he : EncInv N e h rest 0) : Look N h rest (e.nextRepetitionNotes cap) := by
  obtain ⟨e1, h1, h2, h3⟩ := moreData_spec (cap := cap) (e := { e with repBuf := [] })
    ⟨he.hist, he.input⟩
  simp only [Encoder.nextRepetitionNotes, h1]
  have hc := hcap e.queries
  have hc' := hcap e1.queries
  rw [repBufInit] at hc hc'
  simp only [List.nil_append, List.drop_zero, Nat.zero_add] at h2 h3
  have hsz := h3.input.size
  exact ⟨_, _, hc, hc', repLoopNotes_spec hcap _ h3 (by omega) (by rw [h2, List.take_eq_take_min]) (by omega)⟩

theorem says_nil {N : Nat} {h : List UInt8} {syms : List Symbol} {notes : List Note} (hf : Says N h [] [] syms notes) :
    syms = [] ∧ notes = [] := by
  have hlook : ∀ {look}, Look N h [] look → look = [] := by
    rintro look ⟨c, c', -, -, hl⟩
    cases hl with
    | short => rfl
    | differs h1 | ends h1 | on h1 => simp at h1
  generalize hr : ([] : List UInt8) = r at hf
  generalize hr' : ([] : List UInt8) = run at hf
  cases hf with
  | copy h1 _ => have := h1.useful; have := h1.occurs.avail; subst hr; simp at this; omega
  | extend _ h1 _ => subst hr; subst hr'; simp at h1
  | last _ _ h3 => subst hr; subst hr'; rw [hlook h3]; simp [literal]

theorem symbolLoopNotes_spec {N : Nat} (hN : 0 < N) {cap : Caps} (hcap : ∀ i, repBufInit ≤ cap i)
    (fuel : Nat) {e : Encoder} {h rest cur : List UInt8} (he : EncInv N e h rest 0)
    (hf : rest.length < fuel) :
    ∃ chan e' h' rest', e.symbolLoop N cap fuel cur = some (chan, e') ∧ EncInv N e' h' rest' 0 ∧
      (chan ≠ [] → rest'.length < cur.length + rest.length) ∧ (chan = [] → rest' = []) ∧
      ∀ syms notes, Says N h' [] rest' syms notes →
        Says N h cur rest (chan ++ syms) (e.symbolLoopNotes N cap fuel cur ++ chan.map Symbol.note ++ notes) := by
  induction fuel generalizing e h rest cur with
  | zero => omega
  | succ fuel ih =>
    obtain ⟨e1, pos, h1, he1⟩ := nextRepetition_spec hcap he
    have hlook := nextRepetitionNotes_spec hcap he
    have hext : NoCopy N h rest → ∃ chan e' h' rest',
        (match e1.extendExplicit N cur with
         | none => none
         | some (mustReturn, cur, e) =>
           if mustReturn then some (pushExplicit cur, e) else e.symbolLoop N cap fuel cur) =
          some (chan, e') ∧ EncInv N e' h' rest' 0 ∧
        (chan ≠ [] → rest'.length < cur.length + rest.length) ∧ (chan = [] → rest' = []) ∧
        ∀ syms notes, Says N h' [] rest' syms notes → Says N h cur rest (chan ++ syms)
          (e.nextRepetitionNotes cap ++
            (match e1.extendExplicit N cur with
             | none => []
             | some (mustReturn, cur, e) => if mustReturn then [] else e.symbolLoopNotes N cap fuel cur) ++
            chan.map Symbol.note ++ notes) := by
      intro hno
      obtain ⟨e2, h2, he2⟩ := extendExplicit_spec hN (cur := cur) he1
      simp only [h2]
      by_cases hd : rest.length < max cur.length 2
      · simp only [hd, decide_true, if_true]
        rw [List.take_of_length_le (by omega), List.drop_of_length_le (by omega)] at he2
        rw [List.take_of_length_le (by omega)]
        refine ⟨_, e2, _, _, rfl, he2, ?_, fun _ => rfl, ?_⟩
        · intro hne
          rw [pushExplicit_eq] at hne
          cases hcr : cur ++ rest with
          | nil => simp [hcr, literal] at hne
          | cons a l =>
            have : (cur ++ rest).length = l.length + 1 := by rw [hcr]; rfl
            simp only [List.length_append] at this
            simp only [List.length_nil]; omega
        · intro syms notes hs
          obtain ⟨rfl, rfl⟩ := says_nil hs
          rw [List.append_nil, List.append_nil, List.append_nil, pushExplicit_eq]
          exact .last hno hd hlook
      · simp only [hd, decide_false, Bool.false_eq_true, if_false]
        obtain ⟨chan, e', h', rest', h3, h4, h5, h6, h7⟩ :=
          ih (cur := cur ++ rest.take (max cur.length 2)) he2 (by simp; omega)
        refine ⟨chan, e', h', rest', h3, h4, ?_, h6, ?_⟩
        · intro hne
          have := h5 hne
          simp only [List.length_append, List.length_take, List.length_drop] at this
          omega
        · intro syms notes hs
          have := Says.extend hno (by omega) hlook (h7 syms notes hs)
          simpa only [List.append_assoc] using this
    simp only [Encoder.symbolLoop, Encoder.symbolLoopNotes, h1]
    by_cases h6 : rest.length < 6
    · simp only [if_pos h6, Option.filter_none]
      exact hext (noCopy_of_short h6)
    · simp only [if_neg h6]
      by_cases hb : 6 ≤ (bestRep N h rest).1
      · have hcopy := bestRep_copy hb
        obtain ⟨e2, h2, he2⟩ := commitBytes_spec hN he1 hcopy.occurs.avail
        have hfl : (some (bestRep N h rest)).filter (fun lb => decide (lb.1 ≥ minRep)) =
            some (bestRep N h rest) := by simp [Option.filter, minRep, hb]
        simp only [hfl, h2]
        refine ⟨_, e2, _, _, rfl, he2, ?_, ?_, ?_⟩
        · intro _; have := hcopy.occurs.avail; simp only [List.length_drop]; omega
        · intro hh; simp at hh
        · intro syms notes hs
          have := Says.copy (run := cur) hcopy hlook hs
          rw [pushExplicit_eq]
          simpa [Symbol.note] using this
      · have hfl : (some (bestRep N h rest)).filter (fun lb => decide (lb.1 ≥ minRep)) = none := by
          simp only [Option.filter, minRep, ge_iff_le, hb, decide_false]; rfl
        simp only [hfl]
        exact hext (bestRep_noCopy hb)

theorem Says.factor {N : Nat} {h run rest : List UInt8} {syms : List Symbol} {notes : List Note}
    (hs : Says N h run rest syms notes) : Factor N h run rest syms := by
  induction hs with
  | copy h1 _ _ ih => exact .copy h1 ih
  | extend h1 h2 _ _ ih => exact .extend h1 h2 ih
  | last h1 h2 _ => exact .last h1 h2

/-- Copies refer to the window. -/
theorem says_back {N : Nat} {h run rest : List UInt8} {syms : List Symbol} {notes : List Note}
    (hs : Says N h run rest syms notes) : ∀ l b, .lookBack l b ∈ syms → b ≤ N := by
  have hlit : ∀ (r : List UInt8) l b, .lookBack l b ∉ literal r := by
    intro r l b hm
    unfold literal at hm
    split at hm <;> simp at hm
  induction hs with
  | copy h1 _ _ ih =>
    intro l b hm
    simp only [List.mem_append, List.mem_cons, Symbol.lookBack.injEq] at hm
    rcases hm with hm | ⟨rfl, rfl⟩ | hm
    · exact absurd hm (hlit _ _ _)
    · exact h1.occurs.inWindow
    · exact ih l b hm
  | extend _ _ _ _ ih => exact ih
  | last => intro l b hm; exact absurd hm (hlit _ _ _)

/-- Notes that are about looking only. -/
def Looking (ns : List Note) : Prop := ∀ n ∈ ns, (∃ k, n = .asked k) ∨ ∃ a b, n = .more a b

theorem looks_looking {N : Nat} {h rest : List UInt8} {c l : Nat} {ns : List Note} (hl : Looks N h rest c l ns) :
    Looking ns := by
  induction hl with
  | short => intro n hn; simp at hn
  | differs => intro n hn; simp at hn; exact .inl ⟨_, hn⟩
  | ends =>
    intro n hn
    simp only [List.mem_cons, List.not_mem_nil, or_false] at hn
    rcases hn with hn | hn
    · exact .inl ⟨_, hn⟩
    · exact .inr ⟨_, _, hn⟩
  | on _ _ _ _ _ ih =>
    intro n hn
    simp only [List.mem_cons] at hn
    rcases hn with hn | hn | hn
    · exact .inl ⟨_, hn⟩
    · exact .inr ⟨_, _, hn⟩
    · exact ih n hn

theorem upTo_looking {a b : List Note} (ha : Looking a) : upToTooLong (a ++ b) = a ++ upToTooLong b := by
  induction a with
  | nil => rfl
  | cons n a ih =>
    have h1 : ¬ TooLong n := by
      rcases ha n (by simp) with ⟨k, rfl⟩ | ⟨x, y, rfl⟩ <;> exact id
    rw [List.cons_append, upToTooLong, if_neg h1, ih fun m hm => ha m (by simp [hm])]
    rfl

theorem symbolLoop_looking {N : Nat} {cap : Caps} (hN : 0 < N) (hcap : ∀ i, repBufInit ≤ cap i) (fuel : Nat) {e : Encoder}
    {h rest cur : List UInt8} (he : EncInv N e h rest 0) : Looking (e.symbolLoopNotes N cap fuel cur) := by
  induction fuel generalizing e h rest cur with
  | zero => intro n hn; simp [Encoder.symbolLoopNotes] at hn
  | succ fuel ih =>
    obtain ⟨e1, pos, h1, he1⟩ := nextRepetition_spec hcap he
    obtain ⟨c, c', -, -, hlook⟩ := nextRepetitionNotes_spec hcap he
    obtain ⟨e2, h2, he2⟩ := extendExplicit_spec hN (cur := cur) he1
    intro n hn
    simp only [Encoder.symbolLoopNotes, h1, List.mem_append] at hn
    rcases hn with hn | hn
    · exact looks_looking hlook n hn
    · split at hn
      · simp at hn
      · rw [h2] at hn
        simp only at hn
        split at hn
        · simp at hn
        · exact ih he2 n hn

theorem note_tooLong {s : Symbol} (hb : ∀ l b, s = .lookBack l b → b ≤ 65535) : s.passes = true ↔ ¬ TooLong s.note := by
  cases s with
  | explicit d => simp [Symbol.passes, Symbol.note, TooLong]
  | lookBack l b => simp [Symbol.passes, Symbol.note, TooLong, hb l b rfl]

theorem serNotes_spec {syms : List Symbol} (hb : ∀ l b, .lookBack l b ∈ syms → b ≤ 65535) (rest : List Note) :
    upToTooLong (syms.map Symbol.note ++ rest) =
      (serNotes syms).1 ++ if (serNotes syms).2 then upToTooLong rest else [] := by
  induction syms with
  | nil => simp [serNotes]
  | cons s syms ih =>
    have ih := ih fun l b h => hb l b (by simp [h])
    have hs := note_tooLong (s := s) fun l b h => hb l b (by simp [h])
    rw [List.map_cons, List.cons_append, upToTooLong, serNotes]
    by_cases h : s.passes = true
    · rw [if_pos h, if_neg (hs.1 h), ih]
      rfl
    · rw [if_neg h, if_pos (Classical.byContradiction fun h' => h (hs.2 h'))]
      simp

theorem encodeLoopNotes_spec {N : Nat} (hN : 0 < N) (hN' : N ≤ 65535) {cap : Caps} (hcap : ∀ i, repBufInit ≤ cap i)
    (fuel : Nat) {e : Encoder} {h rest : List UInt8} (he : EncInv N e h rest 0)
    (hf : rest.length < fuel) :
    ∃ syms notes, Says N h [] rest syms notes ∧ encodeLoop N cap fuel e = Proc.forEach Symbol.ser syms ∧
      encodeLoopNotes N cap fuel e = upToTooLong notes := by
  induction fuel generalizing e h rest with
  | zero => omega
  | succ fuel ih =>
    have hsz := he.input.size
    obtain ⟨chan, e', h', rest', h1, h2, h3, h4, h5⟩ := symbolLoopNotes_spec hN hcap
      (e.input.iter.length + e.input.saved.length + 1) (cur := []) he (by omega)
    have hlk := symbolLoop_looking hN hcap (e.input.iter.length + e.input.saved.length + 1) (cur := []) he
    simp only [encodeLoop, encodeLoopNotes, Encoder.nextSymbols, Encoder.nextSymbolsNotes, h1]
    by_cases hc : chan = []
    · have hr := h4 hc
      subst hc hr
      refine ⟨[], e.symbolLoopNotes N cap (e.input.iter.length + e.input.saved.length + 1) [], ?_, rfl, ?_⟩
      · have := h5 [] [] (.last (look := []) (noCopy_of_short (by simp)) (by simp) ⟨16, 16, by omega, by omega, .short (by simp)⟩)
        simpa using this
      · have := upTo_looking (b := []) hlk
        simp only [List.append_nil] at this
        rw [this]
        simp [upToTooLong]
    · have hc' : chan.isEmpty = false := by simpa using hc
      rw [hc']
      have := h3 hc
      obtain ⟨syms, notes, h6, h7, h8⟩ := ih h2 (by simp at this; omega)
      have hs := h5 _ _ h6
      refine ⟨chan ++ syms, _, hs, ?_, ?_⟩
      · simp only [Bool.false_eq_true, if_false]
        rw [h7, Proc.forEach_append]
      · have hb : ∀ l b, .lookBack l b ∈ chan → b ≤ 65535 := by
          intro l b hm
          have := says_back hs l b (by simp [hm])
          omega
        rw [List.append_assoc, upTo_looking hlk, serNotes_spec hb, h8]
        simp

theorem looking_len {ns : List Note} (h : Looking ns) : (ns.map noteLen).sum = 0 ∧ (ns.map noteSize).sum = 0 := by
  induction ns with
  | nil => exact ⟨rfl, rfl⟩
  | cons n ns ih =>
    obtain ⟨h1, h2⟩ := ih fun m hm => h m (by simp [hm])
    rcases h n (by simp) with ⟨k, rfl⟩ | ⟨a, b, rfl⟩ <;> simp [h1, h2, noteLen, noteSize]

theorem literal_notes (run : List UInt8) :
    (((literal run).map Symbol.note).map noteLen).sum = run.length ∧
    (((literal run).map Symbol.note).map noteSize).sum = ((literal run).flatMap symbolBytes).length ∧
    ((literal run).map Symbol.note = [] ∨ ∃ m, (literal run).map Symbol.note = [.literal m]) := by
  unfold literal
  split
  · rename_i h
    subst h
    exact ⟨rfl, rfl, .inl rfl⟩
  · refine ⟨by simp [Symbol.note, noteLen], ?_, .inr ⟨_, rfl⟩⟩
    simp [Symbol.note, noteSize, symbolBytes, le]
    omega

theorem look_looking {N : Nat} {h rest : List UInt8} {ns : List Note} (hl : Look N h rest ns) : Looking ns := by
  obtain ⟨c, c', -, -, hl⟩ := hl
  exact looks_looking hl

/-- The printed lengths add up to the input, the sizes to the file. -/
theorem says_sums {N : Nat} {h run rest : List UInt8} {syms : List Symbol} {notes : List Note}
    (hs : Says N h run rest syms notes) :
    (notes.map noteLen).sum = run.length + rest.length ∧ (notes.map noteSize).sum = (syms.flatMap symbolBytes).length := by
  induction hs with
  | @copy hist run rest len back syms look notes h1 h2 _ ih =>
    have hk := looking_len (look_looking h2)
    have hl := literal_notes run
    have := h1.occurs.avail
    simp only [List.map_append, List.map_cons, List.sum_append_nat, List.sum_cons, hk.1, hk.2, hl.1, hl.2.1, ih.1, ih.2, noteLen,
      noteSize, List.flatMap_append, List.flatMap_cons, List.length_append, List.length_drop, List.length_nil]
    refine ⟨by omega, ?_⟩
    have : (symbolBytes (.lookBack len back)).length = 4 := by simp [symbolBytes, le]
    omega
  | @extend hist run rest syms look notes h1 h2 h3 _ ih =>
    have hk := looking_len (look_looking h3)
    simp only [List.map_append, List.sum_append_nat, hk.1, hk.2, ih.1, ih.2, List.length_append, List.length_drop, List.length_take]
    exact ⟨by omega, by omega⟩
  | @last hist run rest look h1 h2 h3 =>
    have hk := looking_len (look_looking h3)
    have hl := literal_notes (run ++ rest)
    simp only [List.map_append, List.sum_append_nat, hk.1, hk.2, hl.1, hl.2.1, List.length_append]
    exact ⟨by omega, by omega⟩

/-- Something too long is printed if some symbol does not fit. -/
theorem says_fits {N : Nat} (hN : N ≤ 65535) {h run rest : List UInt8} {syms : List Symbol} {notes : List Note}
    (hs : Says N h run rest syms notes) : (∀ n ∈ notes, ¬ TooLong n) ↔ ∀ s ∈ syms, Fits s := by
  have hlook : ∀ {ns}, Looking ns → ∀ n ∈ ns, ¬ TooLong n := by
    intro ns hl n hn
    rcases hl n hn with ⟨k, rfl⟩ | ⟨x, y, rfl⟩ <;> exact id
  have hlit : ∀ run : List UInt8, (∀ n ∈ (literal run).map Symbol.note, ¬ TooLong n) ↔ ∀ s ∈ literal run, Fits s := by
    intro run
    unfold literal
    split
    · simp
    · simp [Symbol.note, TooLong, Fits]
  induction hs with
  | @copy hist run rest len back syms look notes h1 h2 _ ih =>
    have hb := h1.occurs.inWindow
    have hh := hlook (look_looking h2)
    simp only [List.mem_append, List.mem_cons]
    constructor
    · intro hn s hs
      rcases hs with hs | rfl | hs
      · exact (hlit run).1 (fun n h => hn n (.inl (.inr h))) s hs
      · have := hn (.copy len) (.inr (.inl rfl))
        exact ⟨by simpa [TooLong] using this, by omega⟩
      · exact ih.1 (fun n h => hn n (.inr (.inr h))) s hs
    · intro hn n hs
      rcases hs with (hs | hs) | rfl | hs
      · exact hh n hs
      · exact (hlit run).2 (fun s h => hn s (.inl h)) n hs
      · have := hn (.lookBack len back) (.inr (.inl rfl))
        show ¬ 32767 < len
        have := this.1
        omega
      · exact ih.2 (fun s h => hn s (.inr (.inr h))) n hs
  | @extend hist run rest syms look notes h1 h2 h3 _ ih =>
    have hh := hlook (look_looking h3)
    simp only [List.mem_append]
    exact ⟨fun hn => ih.1 fun n h => hn n (.inr h), fun hn n h => h.elim (hh n) (ih.2 hn n)⟩
  | @last hist run rest look h1 h2 h3 =>
    have hh := hlook (look_looking h3)
    simp only [List.mem_append]
    exact ⟨fun hn => (hlit _).1 fun n h => hn n (.inr h), fun hn n h => h.elim (hh n) ((hlit _).2 hn n)⟩

theorem upTo_none {ns : List Note} (h : ∀ n ∈ ns, ¬ TooLong n) : upToTooLong ns = ns := by
  induction ns with
  | nil => rfl
  | cons n ns ih => rw [upToTooLong, if_neg (h n (by simp)), ih fun m hm => h m (by simp [hm])]

theorem upTo_some {ns : List Note} (h : ¬ ∀ n ∈ ns, ¬ TooLong n) :
    ∃ pre n, upToTooLong ns = pre ++ [n] ∧ TooLong n ∧ ∀ m ∈ pre, ¬ TooLong m := by
  induction ns with
  | nil => simp at h
  | cons n ns ih =>
    rw [upToTooLong]
    by_cases hn : TooLong n
    · exact ⟨[], n, by rw [if_pos hn]; rfl, hn, by simp⟩
    · rw [if_neg hn]
      obtain ⟨pre, m, h1, h2, h3⟩ := ih (by
        intro h'
        apply h
        intro m hm
        rcases List.mem_cons.1 hm with rfl | hm
        · exact hn
        · exact h' m hm)
      refine ⟨n :: pre, m, by rw [h1]; rfl, h2, ?_⟩
      intro x hx
      rcases List.mem_cons.1 hx with rfl | hx
      · exact hn
      · exact h3 x hx

theorem places_pos {N : Nat} {h rest : List UInt8} {len back : Nat} (hc : LongestCopy N h rest len back) :
    0 < places N h rest := by
  rw [← cands_length]
  exact List.length_pos_of_mem (mem_cands_of_occurs hc.occurs hc.useful)

theorem places_zero {N : Nat} {h rest : List UInt8} (h6 : 6 ≤ rest.length) (hc : NoCopy N h rest) :
    places N h rest = 0 := by
  rw [← cands_length]
  cases hh : cands N h rest with
  | nil => rfl
  | cons p ps =>
    have hm : p ∈ cands N h rest := by rw [hh]; simp
    have ho := occurs_of_mem hm
    have := hc _ _ ho
    rw [cands, mem_occ] at hm
    have : 6 ≤ lcp rest (h.drop p) := by
      rw [le_lcp_iff]
      refine ⟨h6, by rw [List.length_drop]; omega, ?_⟩
      intro i hi
      have := congrArg (fun l => l[i]?) hm.2.2
      simp only [List.getElem?_take, if_pos hi] at this
      exact this.symm
    omega

theorem places_le (N : Nat) (h rest : List UInt8) : places N h rest ≤ N - 5 := by
  rw [← cands_length, cands, occ]
  refine Nat.le_trans (List.length_filter_le _ _) ?_
  rw [List.length_range']
  omega

/-- What is printed while looking. -/
theorem look_split {N : Nat} {h rest : List UInt8} {ns : List Note} (hl : Look N h rest ns) :
    (∀ n ∈ ns, n = .asked (places N h rest) ∨ ∃ a b, n = .more a b) ∧
    (6 ≤ rest.length → ∃ ns', ns = .asked (places N h rest) :: ns') ∧ (ns ≠ [] → 6 ≤ rest.length) := by
  obtain ⟨c, c', -, -, hl⟩ := hl
  generalize min c rest.length = l at hl
  clear c
  induction hl with
  | short h1 => exact ⟨by simp, fun h => by omega, fun h => absurd rfl h⟩
  | differs h1 => exact ⟨by simp, fun _ => ⟨_, rfl⟩, fun _ => h1⟩
  | ends h1 => exact ⟨by simp, fun _ => ⟨_, rfl⟩, fun _ => h1⟩
  | on h1 _ _ _ _ ih =>
    refine ⟨?_, fun _ => ⟨_, rfl⟩, fun _ => h1⟩
    intro n hn
    simp only [List.mem_cons] at hn
    rcases hn with rfl | rfl | hn
    · exact .inl rfl
    · exact .inr ⟨_, _, rfl⟩
    · exact ih.1 n hn

/-- What is printed while looking is before what `CopyNext` speaks of. -/
theorem copyNext_strip {k : Nat} {look x : List Note} (hl : Looking look) (h : CopyNext k (look ++ x)) :
    CopyNext k x ∧ ∀ j, .asked j ∈ look → j = k := by
  induction look with
  | nil => exact ⟨h, by simp⟩
  | cons n look ih =>
    obtain ⟨mid, lit, c, post, h1, h2, h3⟩ := h
    have hn := hl n (by simp)
    cases mid with
    | nil =>
      exfalso
      rcases h3 with rfl | ⟨m, rfl⟩
      · simp only [List.nil_append, List.cons_append, List.cons.injEq] at h1
        rcases hn with ⟨j, rfl⟩ | ⟨a, b, rfl⟩ <;> simp at h1
      · simp only [List.nil_append, List.cons_append, List.cons.injEq] at h1
        rcases hn with ⟨j, rfl⟩ | ⟨a, b, rfl⟩ <;> simp at h1
    | cons n' mid =>
      simp only [List.cons_append, List.cons.injEq] at h1
      obtain ⟨rfl, h1⟩ := h1
      obtain ⟨i1, i2⟩ := ih (fun m hm => hl m (by simp [hm])) ⟨mid, lit, c, post, h1, fun y hy => h2 y (by simp [hy]), h3⟩
      refine ⟨i1, ?_⟩
      intro j hj
      rcases List.mem_cons.1 hj with hj | hj
      · rcases h2 n (by simp) with h4 | ⟨a, b, h4⟩
        · rw [← hj] at h4
          simpa using h4
        · rw [← hj] at h4
          simp at h4
      · exact i2 j hj

/-- The first copy comes after some places were found. -/
theorem says_not_zero {N : Nat} {h run rest : List UInt8} {syms : List Symbol} {notes : List Note}
    (hs : Says N h run rest syms notes) : ¬ CopyNext 0 notes := by
  induction hs with
  | @copy hist run rest len back syms look notes h1 h2 _ ih =>
    intro hc
    rw [List.append_assoc] at hc
    obtain ⟨-, h3⟩ := copyNext_strip (look_looking h2) hc
    have h6 : 6 ≤ rest.length := by
      have := h1.useful
      have := h1.occurs.avail
      omega
    obtain ⟨ns', h4⟩ := (look_split h2).2.1 h6
    have := h3 (places N hist rest) (by rw [h4]; simp)
    have := places_pos h1
    omega
  | @extend hist run rest syms look notes h1 h2 h3 _ ih =>
    intro hc
    exact ih (copyNext_strip (look_looking h3) hc).1
  | @last hist run rest look h1 h2 h3 =>
    intro hc
    obtain ⟨⟨mid, lit, c, post, h4, -⟩, -⟩ := copyNext_strip (look_looking h3) hc
    have hm : Note.copy c ∈ (literal (run ++ rest)).map Symbol.note := by rw [h4]; simp
    rcases (literal_notes (run ++ rest)).2.2 with h5 | ⟨m, h5⟩ <;> rw [h5] at hm <;> simp at hm

/-- A place in a list of two parts. -/
theorem split_two {α : Type} {a b pre post : List α} {x : α} (h : a ++ b = pre ++ x :: post) :
    (∃ r, a = pre ++ x :: r ∧ post = r ++ b) ∨ ∃ l, pre = a ++ l ∧ b = l ++ x :: post := by
  induction a generalizing pre with
  | nil => exact .inr ⟨pre, rfl, h⟩
  | cons y a ih =>
    cases pre with
    | nil =>
      simp only [List.cons_append, List.nil_append, List.cons.injEq] at h
      exact .inl ⟨a, by rw [h.1]; rfl, h.2.symm⟩
    | cons z pre =>
      simp only [List.cons_append, List.cons.injEq] at h
      rcases ih h.2 with ⟨r, h1, h2⟩ | ⟨l, h1, h2⟩
      · exact .inl ⟨r, by rw [h.1, h1]; rfl, h2⟩
      · exact .inr ⟨l, by rw [h.1, h1]; rfl, h2⟩

/-- The number of places tells whether a copy follows. -/
theorem says_asked {N : Nat} {h run rest : List UInt8} {syms : List Symbol} {notes : List Note}
    (hs : Says N h run rest syms notes) {pre post : List Note} {k : Nat} (he : notes = pre ++ .asked k :: post) :
    k ≤ N - 5 ∧ (0 < k ↔ CopyNext k post) := by
  induction hs generalizing pre with
  | @copy hist run rest len back syms look notes h1 h2 _ ih =>
    rw [List.append_assoc] at he
    rcases split_two he with ⟨r, h3, h4⟩ | ⟨l, h3, h4⟩
    · have hk := (look_split h2).1 (.asked k) (by rw [h3]; simp)
      simp only [Note.asked.injEq, reduceCtorEq, exists_false, or_false] at hk
      subst hk
      refine ⟨places_le _ _ _, fun _ => ?_, fun _ => places_pos h1⟩
      refine ⟨r, (literal run).map Symbol.note, len, notes, h4, ?_, (literal_notes run).2.2⟩
      intro x hx
      exact (look_split h2).1 x (by rw [h3]; simp [hx])
    · rcases split_two h4 with ⟨r, h5, h6⟩ | ⟨l', h5, h6⟩
      · exfalso
        have hm : Note.asked k ∈ (literal run).map Symbol.note := by rw [h5]; simp
        rcases (literal_notes run).2.2 with h7 | ⟨m, h7⟩ <;> rw [h7] at hm <;> simp at hm
      · cases l' with
        | nil => simp at h6
        | cons y l' =>
          simp only [List.cons_append, List.cons.injEq] at h6
          exact ih h6.2
  | @extend hist run rest syms look notes h1 h2 h3 hsy ih =>
    rcases split_two he with ⟨r, h4, h5⟩ | ⟨l, h4, h5⟩
    · have hk := (look_split h3).1 (.asked k) (by rw [h4]; simp)
      simp only [Note.asked.injEq, reduceCtorEq, exists_false, or_false] at hk
      have hz := places_zero ((look_split h3).2.2 (by rw [h4]; simp)) h1
      rw [hz] at hk
      subst hk
      refine ⟨by omega, fun h => absurd h (by omega), fun hc => ?_⟩
      rw [h5] at hc
      have hr : Looking r := fun n hn => look_looking h3 n (by rw [h4]; simp [hn])
      exact absurd (copyNext_strip hr hc).1 (says_not_zero hsy)
    · exact ih h5
  | @last hist run rest look h1 h2 h3 =>
    rcases split_two he with ⟨r, h4, h5⟩ | ⟨l, h4, h5⟩
    · have hk := (look_split h3).1 (.asked k) (by rw [h4]; simp)
      simp only [Note.asked.injEq, reduceCtorEq, exists_false, or_false] at hk
      have hz := places_zero ((look_split h3).2.2 (by rw [h4]; simp)) h1
      rw [hz] at hk
      subst hk
      refine ⟨by omega, fun h => absurd h (by omega), fun hc => ?_⟩
      rw [h5] at hc
      have hr : Looking r := fun n hn => look_looking h3 n (by rw [h4]; simp [hn])
      obtain ⟨⟨mid, lit, c, post', h6, -⟩, -⟩ := copyNext_strip hr hc
      have hm : Note.copy c ∈ (literal (run ++ rest)).map Symbol.note := by rw [h6]; simp
      rcases (literal_notes (run ++ rest)).2.2 with h7 | ⟨m, h7⟩ <;> rw [h7] at hm <;> simp at hm
    · exfalso
      have hm : Note.asked k ∈ (literal (run ++ rest)).map Symbol.note := by rw [h5]; simp
      rcases (literal_notes (run ++ rest)).2.2 with h7 | ⟨m, h7⟩ <;> rw [h7] at hm <;> simp at hm

/-! ## The text -/

/-- A number and what follows it can be told apart. -/
theorem digits_sep {m n : Nat} {c d : Char} {r s : List Char} (hc : c.isDigit = false) (hd : d.isDigit = false)
    (h : Nat.toDigits 10 m ++ c :: r = Nat.toDigits 10 n ++ d :: s) : m = n ∧ c :: r = d :: s := by
  have tw : ∀ (k : Nat) (e : Char) (t : List Char), e.isDigit = false →
      (Nat.toDigits 10 k ++ e :: t).takeWhile Char.isDigit = Nat.toDigits 10 k := by
    intro k e t he
    rw [List.takeWhile_append_of_pos fun x hx => Nat.isDigit_of_mem_toDigits (by decide) (by decide) hx,
      List.takeWhile_cons, he]
    simp
  have h1 := congrArg (List.takeWhile Char.isDigit) h
  rw [tw m c r hc, tw n d s hd] at h1
  rw [h1] at h
  refine ⟨?_, List.append_cancel_left h⟩
  rw [← Nat.ofDigitChars_ten_toDigits (n := m), h1, Nat.ofDigitChars_ten_toDigits]

theorem text_asked (n : Nat) : (Note.asked n).text.toList = '?' :: (Nat.toDigits 10 n ++ [' ']) := by
  show ("?" ++ toString n ++ " ").toList = _
  simp only [String.toList_append, Nat.toString_eq_repr, Nat.toList_repr]
  generalize Nat.toDigits 10 n = l
  simp

theorem text_more (a b : Nat) : (Note.more a b).text.toList = "Buffered extra data from ".toList ++
    (Nat.toDigits 10 a ++ (' ' :: 't' :: 'o' :: ' ' :: (Nat.toDigits 10 b ++ ['\n']))) := by
  show ("Buffered extra data from " ++ toString a ++ " to " ++ toString b ++ "\n").toList = _
  simp only [String.toList_append, Nat.toString_eq_repr, Nat.toList_repr]
  generalize Nat.toDigits 10 a = l, Nat.toDigits 10 b = l'
  simp

theorem text_literal (n : Nat) : (Note.literal n).text.toList = '\n' :: '-' :: (Nat.toDigits 10 n ++ [' ']) := by
  show ("\n-" ++ toString n ++ " ").toList = _
  simp only [String.toList_append, Nat.toString_eq_repr, Nat.toList_repr]
  generalize Nat.toDigits 10 n = l
  simp

theorem text_copy (n : Nat) : (Note.copy n).text.toList = '+' :: (Nat.toDigits 10 n ++ [' ']) := by
  show ("+" ++ toString n ++ " ").toList = _
  simp only [String.toList_append, Nat.toString_eq_repr, Nat.toList_repr]
  generalize Nat.toDigits 10 n = l
  simp

theorem text_inj (xs ys : List Note) (h : xs.flatMap (fun n => n.text.toList) = ys.flatMap fun n => n.text.toList) : xs = ys := by
  induction xs generalizing ys with
  | nil =>
    cases ys with
    | nil => rfl
    | cons y ys => cases y <;> simp [text_asked, text_more, text_literal, text_copy] at h
  | cons x xs ih =>
    cases ys with
    | nil => cases x <;> simp [text_asked, text_more, text_literal, text_copy] at h
    | cons y ys =>
      rw [List.flatMap_cons, List.flatMap_cons] at h
      cases x <;> cases y <;> simp [text_asked, text_more, text_literal, text_copy] at h
      case asked.asked =>
        obtain ⟨rfl, h'⟩ := digits_sep (by decide) (by decide) h
        rw [ih _ (List.cons.inj h').2]
      case literal.literal =>
        obtain ⟨rfl, h'⟩ := digits_sep (by decide) (by decide) h
        rw [ih _ (List.cons.inj h').2]
      case copy.copy =>
        obtain ⟨rfl, h'⟩ := digits_sep (by decide) (by decide) h
        rw [ih _ (List.cons.inj h').2]
      case more.more =>
        obtain ⟨rfl, h'⟩ := digits_sep (by decide) (by decide) h
        simp only [List.cons.injEq, true_and] at h'
        obtain ⟨rfl, h''⟩ := digits_sep (by decide) (by decide) h'
        rw [ih _ (List.cons.inj h'').2]

theorem join_chars (l : List String) : (String.join l).toList = l.flatMap String.toList := by
  have key : ∀ (l : List String) (acc : String), (l.foldl (· ++ ·) acc).toList = acc.toList ++ l.flatMap String.toList := by
    intro l
    induction l with
    | nil => intro acc; simp
    | cons a l ih => intro acc; rw [List.foldl_cons, ih]; simp
  simpa [String.join] using key l ""

end Cniic.Back
