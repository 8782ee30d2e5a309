import Verif.Proofs.BackRing
import Verif.Proofs.Ser

/-! # Proofs about the lookback encoder -/

namespace Cniic.Back

open Cniic.Spec

/-! ## Common prefixes -/

/-- Length of the longest common prefix. -/
def lcp (a b : List UInt8) : Nat := ((a.zip b).takeWhile fun p => p.1 == p.2).length

theorem lcp_cons (x y : UInt8) (a b : List UInt8) :
    lcp (x :: a) (y :: b) = if x = y then lcp a b + 1 else 0 := by
  simp only [lcp, List.zip_cons_cons, List.takeWhile_cons]
  by_cases h : x = y <;> simp [h]

theorem le_lcp_iff (m : Nat) (a b : List UInt8) :
    m ≤ lcp a b ↔ m ≤ a.length ∧ m ≤ b.length ∧ ∀ i, i < m → a[i]? = b[i]? := by
  induction a generalizing b m with
  | nil =>
    simp only [lcp, List.zip_nil_left, List.takeWhile_nil, List.length_nil, Nat.le_zero]
    constructor
    · rintro rfl; simp
    · exact fun h => h.1
  | cons x a ih =>
    cases b with
    | nil =>
      simp only [lcp, List.zip_nil_right, List.takeWhile_nil, List.length_nil, Nat.le_zero]
      constructor
      · rintro rfl; simp
      · exact fun h => h.2.1
    | cons y b =>
      rw [lcp_cons]
      cases m with
      | zero => simp
      | succ m =>
        by_cases h : x = y
        · subst h
          rw [if_pos rfl, Nat.add_le_add_iff_right, ih]
          simp only [List.length_cons, Nat.add_le_add_iff_right]
          constructor
          · rintro ⟨h1, h2, h3⟩
            refine ⟨h1, h2, ?_⟩
            intro i hi
            cases i with
            | zero => simp
            | succ i => simpa using h3 i (by omega)
          · rintro ⟨h1, h2, h3⟩
            exact ⟨h1, h2, fun i hi => by simpa using h3 (i + 1) (by omega)⟩
        · rw [if_neg h]
          constructor
          · intro hh; omega
          · rintro ⟨_, _, h3⟩
            have := h3 0 (by omega)
            simp at this; exact absurd this h

theorem eq_of_le_iff {x y : Nat} (h : ∀ m, m ≤ x ↔ m ≤ y) : x = y :=
  Nat.le_antisymm ((h x).1 (Nat.le_refl _)) ((h y).2 (Nat.le_refl _))

theorem lcp_take (L : Nat) (a b : List UInt8) : lcp (a.take L) b = min L (lcp a b) := by
  apply eq_of_le_iff
  intro m
  rw [le_lcp_iff, Nat.le_min, le_lcp_iff, List.length_take, Nat.le_min]
  constructor
  · rintro ⟨⟨h1, h2⟩, h3, h4⟩
    refine ⟨h1, h2, h3, fun i hi => ?_⟩
    rw [← h4 i hi, List.getElem?_take_of_lt (by omega)]
  · rintro ⟨h1, h2, h3, h4⟩
    refine ⟨⟨h1, h2⟩, h3, fun i hi => ?_⟩
    rw [← h4 i hi, List.getElem?_take_of_lt (by omega)]

theorem lcp_le_left (a b : List UInt8) : lcp a b ≤ a.length :=
  ((le_lcp_iff _ a b).1 (Nat.le_refl _)).1

theorem lcp_le_right (a b : List UInt8) : lcp a b ≤ b.length :=
  ((le_lcp_iff _ a b).1 (Nat.le_refl _)).2.1

theorem take_eq_take_of_get {a b : List UInt8} {k : Nat} (h : ∀ i, i < k → a[i]? = b[i]?) :
    a.take k = b.take k := by
  apply List.ext_getElem?
  intro i
  by_cases hi : i < k
  · rw [List.getElem?_take_of_lt hi, List.getElem?_take_of_lt hi, h i hi]
  · rw [List.getElem?_take_eq_none (by omega), List.getElem?_take_eq_none (by omega)]

/-! ## The best candidate -/

/-- First maximum of `f` over the candidates, and its distance. -/
def best (f : Nat → Nat) (n : Nat) : List Nat → Nat → Nat → Nat × Nat
  | [], l, b => (l, b)
  | i :: is, l, b => if f i > l then best f n is (f i) (n - i) else best f n is l b

theorem best_congr {f g : Nat → Nat} {n : Nat} {is : List Nat} (h : ∀ i ∈ is, f i = g i) (l b : Nat) :
    best f n is l b = best g n is l b := by
  induction is generalizing l b with
  | nil => rfl
  | cons i is ih =>
    simp only [best, h i (by simp)]
    rw [ih fun j hj => h j (by simp [hj]), ih fun j hj => h j (by simp [hj])]

theorem best_spec (f : Nat → Nat) (n : Nat) (is : List Nat) (hs : is.Pairwise (· < ·)) (l b : Nat) :
    (best f n is l b = (l, b) ∧ ∀ j ∈ is, f j ≤ l) ∨
    (∃ i ∈ is, best f n is l b = (f i, n - i) ∧ l < f i ∧ (∀ j ∈ is, f j ≤ f i) ∧
      ∀ j ∈ is, f j = f i → i ≤ j) := by
  induction is generalizing l b with
  | nil => left; simp [best]
  | cons i is ih =>
    rw [List.pairwise_cons] at hs
    simp only [best]
    by_cases h : f i > l
    · rw [if_pos h]
      rcases ih hs.2 (f i) (n - i) with ⟨h1, h2⟩ | ⟨j, hj, h1, h2, h3, h4⟩
      · right
        refine ⟨i, by simp, h1, h, ?_, ?_⟩
        · intro j hj
          rcases List.mem_cons.1 hj with rfl | hj
          · exact Nat.le_refl _
          · exact h2 j hj
        · intro j hj _
          rcases List.mem_cons.1 hj with rfl | hj
          · exact Nat.le_refl _
          · exact Nat.le_of_lt (hs.1 j hj)
      · right
        refine ⟨j, by simp [hj], h1, by omega, ?_, ?_⟩
        · intro k hk
          rcases List.mem_cons.1 hk with rfl | hk
          · omega
          · exact h3 k hk
        · intro k hk he
          rcases List.mem_cons.1 hk with rfl | hk
          · omega
          · exact h4 k hk he
    · rw [if_neg h]
      rcases ih hs.2 l b with ⟨h1, h2⟩ | ⟨j, hj, h1, h2, h3, h4⟩
      · left
        refine ⟨h1, ?_⟩
        intro j hj
        rcases List.mem_cons.1 hj with rfl | hj
        · omega
        · exact h2 j hj
      · right
        refine ⟨j, by simp [hj], h1, h2, ?_, ?_⟩
        · intro k hk
          rcases List.mem_cons.1 hk with rfl | hk
          · omega
          · exact h3 k hk
        · intro k hk he
          rcases List.mem_cons.1 hk with rfl | hk
          · omega
          · exact h4 k hk he

theorem pairwise_occ (h k : List UInt8) (a b : Nat) : (occ h k a b).Pairwise (· < ·) :=
  List.Pairwise.filter _ List.pairwise_lt_range'

/-- The candidates: retained positions where the next six bytes of the input occur. -/
def cands (N : Nat) (h rest : List UInt8) : List Nat :=
  occ h (rest.take 6) (h.length - N) (h.length - 5)

/-- The best repetition of the input in the history. -/
def bestRep (N : Nat) (h rest : List UInt8) : Nat × Nat :=
  best (fun p => lcp rest (h.drop p)) h.length (cands N h rest) 0 0

theorem bestOf_spec {N : Nat} {ih : IndexedHistory} {h : List UInt8} (hi : HistInv N ih h)
    (rb : List UInt8) (is : List Nat) (his : ∀ i ∈ is, h.length - N ≤ i ∧ i ≤ h.length) (l b : Nat) :
    bestOf ih rb is l b = some (best (fun p => lcp rb (h.drop p)) h.length is l b) := by
  induction is generalizing l b with
  | nil => rfl
  | cons i is ihs =>
    have h1 := his i (by simp)
    have hsub : ih.subseq i = some (h.length - i, h.drop i) := by
      simp [IndexedHistory.subseq, hi.ring.iterStarting, hi.ring.lookbackValue i h1.1 h1.2, h1]
    have ihs := fun l b => ihs (fun j hj => his j (by simp [hj])) l b
    simp only [bestOf, hsub, best, ihs]
    by_cases hh : lcp rb (h.drop i) > l
    · rw [if_pos hh]; exact if_pos hh
    · rw [if_neg hh]; exact if_neg hh

/-! ## Repetitions and the specification -/

theorem occurs_iff {N : Nat} {h rest : List UInt8} {len back : Nat} :
    Occurs N h rest len back ↔ back ≤ h.length ∧ back ≤ N ∧
      len ≤ lcp rest (h.drop (h.length - back)) := by
  rw [le_lcp_iff]
  constructor
  · rintro ⟨h1, h2, h3, h4, h5⟩
    refine ⟨h1, h2, h4, by simp; omega, ?_⟩
    intro i hi
    rw [List.getElem?_drop, h5 i hi]
  · rintro ⟨h1, h2, h3, h4, h5⟩
    refine ⟨h1, h2, by simp at h4; omega, h3, ?_⟩
    intro i hi
    rw [h5 i hi, List.getElem?_drop]

theorem mem_cands_of_occurs {N : Nat} {h rest : List UInt8} {len back : Nat}
    (ho : Occurs N h rest len back) (h6 : 6 ≤ len) : h.length - back ∈ cands N h rest := by
  rw [cands, mem_occ]
  obtain ⟨h1, h2, h3, h4, h5⟩ := ho
  refine ⟨by omega, by omega, ?_⟩
  apply take_eq_take_of_get
  intro i hi
  rw [List.getElem?_drop, h5 i (by omega)]

theorem occurs_of_mem {N : Nat} {h rest : List UInt8} {p : Nat} (hp : p ∈ cands N h rest) :
    Occurs N h rest (lcp rest (h.drop p)) (h.length - p) := by
  rw [cands, mem_occ] at hp
  rw [occurs_iff, show h.length - (h.length - p) = p by omega]
  exact ⟨by omega, by omega, Nat.le_refl _⟩

/-- A useful best repetition is a longest copy, farthest back. -/
theorem bestRep_copy {N : Nat} {h rest : List UInt8} (h6 : 6 ≤ (bestRep N h rest).1) :
    LongestCopy N h rest (bestRep N h rest).1 (bestRep N h rest).2 := by
  rcases best_spec (fun p => lcp rest (h.drop p)) h.length (cands N h rest) (pairwise_occ _ _ _ _) 0 0
    with ⟨h1, _⟩ | ⟨i, hi, h1, h2, h3, h4⟩
  · simp [bestRep, h1] at h6
  · rw [← bestRep] at h1
    rw [h1] at h6 ⊢
    have him := hi
    rw [cands, mem_occ] at him
    refine ⟨occurs_of_mem hi, h6, ?_, ?_⟩
    · intro len' back' ho
      by_cases hl : 6 ≤ len'
      · have := h3 _ (mem_cands_of_occurs ho hl)
        have h5 := (occurs_iff.1 ho).2.2
        omega
      · simp only at h6 ⊢; omega
    · intro back' ho
      have hm := mem_cands_of_occurs ho h6
      have h5 := (occurs_iff.1 ho).2.2
      have := h4 _ hm (Nat.le_antisymm (h3 _ hm) h5)
      have := ho.inHist
      omega

/-- If the best repetition is not useful there is no copy. -/
theorem bestRep_noCopy {N : Nat} {h rest : List UInt8} (h6 : ¬ 6 ≤ (bestRep N h rest).1) :
    NoCopy N h rest := by
  intro len back ho
  apply Classical.byContradiction
  intro hl
  have hm := mem_cands_of_occurs ho (by omega)
  have h5 := (occurs_iff.1 ho).2.2
  rcases best_spec (fun p => lcp rest (h.drop p)) h.length (cands N h rest) (pairwise_occ _ _ _ _) 0 0
    with ⟨h1, h2⟩ | ⟨i, hi, h1, h2, h3, h4⟩
  · have := h2 _ hm
    omega
  · rw [bestRep, h1] at h6
    have := h3 _ hm
    simp only at h6; omega

theorem noCopy_of_short {N : Nat} {h rest : List UInt8} (h6 : rest.length < 6) : NoCopy N h rest := by
  intro len back ho; have := ho.avail; omega

/-! ## Buffered -/

/-- `rest` is the input that has not been accepted, of which `pos` bytes have been read. -/
structure BufInv (b : Buffered) (rest : List UInt8) (pos : Nat) : Prop where
  all : b.saved ++ b.iter = rest
  le  : pos ≤ b.saved.length
  pos : b.readPos = pos

theorem BufInv.new (input : List UInt8) : BufInv (.new input) input 0 := ⟨rfl, Nat.le_refl _, rfl⟩

theorem BufInv.le_rest {b : Buffered} {rest : List UInt8} {pos : Nat} (hb : BufInv b rest pos) :
    pos ≤ rest.length := by
  rw [← hb.all]; have := hb.le; simp; omega

theorem BufInv.size {b : Buffered} {rest : List UInt8} {pos : Nat} (hb : BufInv b rest pos) :
    b.iter.length + b.saved.length = rest.length := by rw [← hb.all]; simp; omega

theorem BufInv.next_some {b : Buffered} {rest : List UInt8} {pos : Nat} (hb : BufInv b rest pos)
    {x : UInt8} (hx : rest[pos]? = some x) :
    ∃ b', Buffered.next b = (.ok x, b') ∧ BufInv b' rest (pos + 1) := by
  obtain ⟨ha, hle, hp⟩ := hb
  have hlt : pos < rest.length := by
    apply Classical.byContradiction; intro h
    rw [List.getElem?_eq_none (by omega)] at hx; cases hx
  by_cases h : pos < b.saved.length
  · refine ⟨{ b with readPos := pos + 1 }, ?_, ha, by simp; omega, rfl⟩
    have : b.saved[pos]? = some x := by rw [← hx, ← ha, List.getElem?_append_left h]
    simp [Buffered.next, hp, h]
    simpa [List.getElem?_eq_getElem h] using this
  · obtain ⟨it, sv, rp⟩ := b
    simp only at *
    subst hp
    have hrp : rp = sv.length := by omega
    cases it with
    | nil => rw [← ha] at hlt; simp at hlt; omega
    | cons y it =>
      refine ⟨⟨it, sv ++ [y], rp + 1⟩, ?_, by simpa using ha, by simp; omega, rfl⟩
      have : y = x := by
        rw [← ha, hrp] at hx; simpa using hx
      subst this
      simp [Buffered.next, hrp]

theorem BufInv.next_none {b : Buffered} {rest : List UInt8} {pos : Nat} (hb : BufInv b rest pos)
    (hx : rest.length ≤ pos) : Buffered.next b = (.err (), b) := by
  obtain ⟨ha, hle, hp⟩ := hb
  obtain ⟨it, sv, rp⟩ := b
  simp only at *
  subst hp
  have : rest.length = sv.length + it.length := by rw [← ha]; simp
  have hit : it = [] := List.eq_nil_of_length_eq_zero (by omega)
  subst hit
  have : rp = sv.length := by simp at *; omega
  simp [Buffered.next, this]

theorem BufInv.takeCollect {b : Buffered} {rest : List UInt8} {pos : Nat} (hb : BufInv b rest pos)
    (k : Nat) : ∃ b', takeCollect Buffered.next k b = (.ok ((rest.drop pos).take k), b') ∧
      BufInv b' rest (min (pos + k) rest.length) := by
  induction k generalizing b pos with
  | zero =>
    refine ⟨b, by simp [Back.takeCollect], ?_⟩
    have := hb.le_rest
    rwa [Nat.add_zero, Nat.min_eq_left this]
  | succ k ih =>
    by_cases h : pos < rest.length
    · obtain ⟨b1, h1, h2⟩ := hb.next_some (List.getElem?_eq_getElem h)
      obtain ⟨b2, h3, h4⟩ := ih h2
      refine ⟨b2, ?_, by rwa [show pos + (k + 1) = pos + 1 + k by omega]⟩
      simp only [Back.takeCollect, h1, h3]
      rw [List.drop_eq_getElem_cons h, List.take_succ_cons]
    · refine ⟨b, ?_, ?_⟩
      · simp only [Back.takeCollect, hb.next_none (by omega)]
        rw [List.drop_of_length_le (by omega)]; simp
      · have := hb.le_rest
        rwa [show min (pos + (k + 1)) rest.length = pos by omega]

theorem BufInv.restore {b : Buffered} {rest : List UInt8} {pos : Nat} (hb : BufInv b rest pos) :
    BufInv b.restore rest 0 := ⟨hb.all, Nat.zero_le _, rfl⟩

theorem BufInv.accept {b : Buffered} {rest : List UInt8} {pos : Nat} (hb : BufInv b rest pos)
    {n : Nat} (hn : n ≤ pos) : ∃ b', b.accept n = some b' ∧ BufInv b' (rest.drop n) (pos - n) := by
  obtain ⟨ha, hle, hp⟩ := hb
  refine ⟨_, if_pos ⟨by omega, by omega⟩, ?_, by simp; omega, by simp [hp]⟩
  rw [← ha, List.drop_append_of_le_length (by omega)]

/-! ## The encoder -/

/-- `h` has been encoded, `rest` is left, of which `pos` bytes have been read ahead. -/
structure EncInv (N : Nat) (e : Encoder) (h rest : List UInt8) (pos : Nat) : Prop where
  hist  : HistInv N e.history h
  input : BufInv e.input rest pos

theorem moreData_spec {N : Nat} {cap : Caps} {e : Encoder} {h rest : List UInt8} {pos : Nat}
    (he : EncInv N e h rest pos) :
    ∃ e', e.moreData cap = some e' ∧
      e'.repBuf = e.repBuf ++ (rest.drop pos).take (cap e.queries) ∧
      EncInv N e' h rest (min (pos + cap e.queries) rest.length) := by
  obtain ⟨b, h1, h2⟩ := he.input.takeCollect (cap e.queries)
  exact ⟨{ e with repBuf := _, input := b, queries := _ }, by rw [Encoder.moreData, h1], rfl, he.hist, h2⟩

theorem bufferedRepetition_spec {N : Nat} {e : Encoder} {h rest : List UInt8}
    (he : HistInv N e.history h) {L : Nat} (hL : 6 ≤ L) (hLr : L ≤ rest.length)
    (hrb : e.repBuf = rest.take L) :
    e.bufferedRepetition =
      some (some (best (fun p => lcp (rest.take L) (h.drop p)) h.length (cands N h rest) 0 0)) := by
  unfold Encoder.bufferedRepetition
  have hl : e.repBuf.length = L := by rw [hrb, List.length_take]; omega
  rw [if_neg (by simp [hl, minRep]; omega)]
  have hk : e.repBuf.take minRep = rest.take 6 := by
    rw [hrb, List.take_take, minRep, Nat.min_eq_left hL]
  simp only [hk, he.startIndices]
  rw [← cands, bestOf_spec he, hrb]
  intro i hi
  rw [cands, mem_occ] at hi
  omega

theorem repLoop_spec {N : Nat} {cap : Caps} (hcap : ∀ i, repBufInit ≤ cap i) {h rest : List UInt8}
    (fuel : Nat) {e : Encoder} {L : Nat} (he : EncInv N e h rest L) (hL : 6 ≤ L ∨ L = rest.length)
    (hrb : e.repBuf = rest.take L) (hf : rest.length - L < fuel) :
    ∃ e' pos, e.repLoop cap fuel =
        some (if rest.length < 6 then none else some (bestRep N h rest), e') ∧
      EncInv N e' h rest pos := by
  induction fuel generalizing e L with
  | zero => omega
  | succ fuel ih =>
    have hLr := he.input.le_rest
    have hl : e.repBuf.length = L := by rw [hrb, List.length_take]; omega
    by_cases h6 : 6 ≤ L
    · rw [if_neg (by omega)]
      simp only [Encoder.repLoop, bufferedRepetition_spec he.hist h6 hLr hrb, hl]
      have hbs := best_spec (fun p => lcp (rest.take L) (h.drop p)) h.length (cands N h rest)
        (pairwise_occ _ _ _ _) 0 0
      generalize hbst : best (fun p => lcp (rest.take L) (h.drop p)) h.length (cands N h rest) 0 0 = r
        at *
      obtain ⟨len, back⟩ := r
      simp only
      by_cases hlen : len = L
      · rw [if_pos hlen]
        obtain ⟨e', h1, h2, h3⟩ := moreData_spec (cap := cap) he
        simp only [h1]
        have hc := hcap e.queries
        have h2' : e'.repBuf = rest.take (min (L + cap e.queries) rest.length) := by
          rw [h2, hrb, ← List.take_add, List.take_eq_take_min]
        have hl' : e'.repBuf.length = min (L + cap e.queries) rest.length := by
          rw [h2', List.length_take]; omega
        by_cases hsame : e'.repBuf.length = L
        · rw [if_pos hsame]
          refine ⟨e', _, ?_, h3⟩
          have : L = rest.length := by rw [repBufInit] at hc; omega
          rw [this, List.take_length] at hbst
          rw [bestRep, hbst]
        · rw [if_neg hsame]
          obtain ⟨e2, pos, h4, h5⟩ := ih h3 (by omega) h2' (by omega)
          rw [if_neg (by omega)] at h4
          exact ⟨e2, pos, h4, h5⟩
      · rw [if_neg hlen]
        refine ⟨e, L, ?_, he⟩
        rw [bestRep, ← hbst]
        congr 3
        apply best_congr
        intro i hi
        have hle : lcp (rest.take L) (h.drop i) ≤ len ∧ len ≤ L := by
          rcases hbs with ⟨h1, h2⟩ | ⟨j, hj, h1, h2, h3, h4⟩
          · simp only [Prod.mk.injEq] at h1
            have := h2 i hi
            omega
          · simp only [Prod.mk.injEq] at h1
            have := h3 i hi
            have hb := lcp_le_left (rest.take L) (h.drop j)
            rw [List.length_take] at hb
            omega
        rw [lcp_take] at hle ⊢
        omega
    · have hLr : L = rest.length := by omega
      rw [if_pos (by omega)]
      refine ⟨e, L, ?_, he⟩
      simp [Encoder.repLoop, Encoder.bufferedRepetition, hl, minRep, show L < 6 by omega]

theorem nextRepetition_spec {N : Nat} {cap : Caps} (hcap : ∀ i, repBufInit ≤ cap i)
    {h rest : List UInt8} {e : Encoder} (he : EncInv N e h rest 0) :
    ∃ e' pos, e.nextRepetition cap =
        some (if rest.length < 6 then none else some (bestRep N h rest), e') ∧
      EncInv N e' h rest pos := by
  obtain ⟨e1, h1, h2, h3⟩ := moreData_spec (cap := cap) (e := { e with repBuf := [] })
    ⟨he.hist, he.input⟩
  simp only [Encoder.nextRepetition, h1]
  have hc := hcap e.queries
  rw [repBufInit] at hc
  simp only [List.nil_append, List.drop_zero, Nat.zero_add] at h2 h3
  have hsz := h3.input.size
  exact repLoop_spec hcap _ h3 (by omega) (by rw [h2, List.take_eq_take_min]) (by omega)

theorem commitLoop_spec {N : Nat} (hN : 0 < N) {rest : List UInt8} (k : Nat) {e : Encoder}
    {h : List UInt8} {pos : Nat} (hh : HistInv N e.history h) (hb : BufInv e.input rest pos)
    (hk : pos + k ≤ rest.length) :
    ∃ e', e.commitLoop N k = some e' ∧ HistInv N e'.history (h ++ (rest.drop pos).take k) ∧
      BufInv e'.input rest (pos + k) := by
  induction k generalizing e h pos with
  | zero => exact ⟨e, rfl, by simpa using hh, hb⟩
  | succ k ih =>
    have hp : pos < rest.length := by omega
    obtain ⟨b1, h1, h2⟩ := hb.next_some (List.getElem?_eq_getElem hp)
    simp only [Encoder.commitLoop, h1]
    obtain ⟨e', h3, h4, h5⟩ := ih (e := { e with input := b1, history := e.history.write N rest[pos] })
      (hh.write hN _) h2 (by omega)
    refine ⟨e', h3, ?_, by rwa [show pos + (k + 1) = pos + 1 + k by omega]⟩
    rw [List.drop_eq_getElem_cons hp, List.take_succ_cons]
    simpa using h4

theorem commitBytes_spec {N : Nat} (hN : 0 < N) {e : Encoder} {h rest : List UInt8} {pos k : Nat}
    (he : EncInv N e h rest pos) (hk : k ≤ rest.length) :
    ∃ e', e.commitBytes N k = some e' ∧ EncInv N e' (h ++ rest.take k) (rest.drop k) 0 := by
  obtain ⟨e1, h1, h2, h3⟩ := commitLoop_spec hN k (e := { e with input := e.input.restore })
    he.hist he.input.restore (by omega)
  rw [Nat.zero_add] at h3
  obtain ⟨b, h4, h5⟩ := h3.accept (Nat.le_refl k)
  simp only [Encoder.commitBytes, h1, h4]
  exact ⟨_, rfl, by simpa using h2, by simpa using h5⟩

theorem extendExplicit_spec {N : Nat} (hN : 0 < N) {e : Encoder} {h rest cur : List UInt8} {pos : Nat}
    (he : EncInv N e h rest pos) :
    ∃ e', e.extendExplicit N cur =
        some (decide (rest.length < max cur.length 2), cur ++ rest.take (max cur.length 2), e') ∧
      EncInv N e' (h ++ rest.take (max cur.length 2)) (rest.drop (max cur.length 2)) 0 := by
  obtain ⟨b, h1, h2⟩ := he.input.restore.takeCollect (max cur.length 2)
  rw [List.drop_zero, Nat.zero_add] at *
  obtain ⟨b', h3, h4⟩ := h2.accept (n := (rest.take (max cur.length 2)).length)
    (by rw [List.length_take]; omega)
  simp only [Encoder.extendExplicit, h1, h3]
  refine ⟨{ e with input := b', history := _ }, ?_, he.hist.writeAll hN _, ?_⟩
  · congr 2
    rw [decide_eq_decide, List.length_take]; omega
  · have e1 : min (max cur.length 2) rest.length - (rest.take (max cur.length 2)).length = 0 := by
      rw [List.length_take]; omega
    rw [e1] at h4
    have e2 : rest.drop (rest.take (max cur.length 2)).length = rest.drop (max cur.length 2) := by
      rw [List.length_take]
      by_cases hh : max cur.length 2 ≤ rest.length
      · rw [Nat.min_eq_left hh]
      · rw [List.drop_of_length_le (by omega), List.drop_of_length_le (by omega)]
    rw [e2] at h4
    exact h4

theorem pushExplicit_eq (run : List UInt8) : pushExplicit run = literal run := by
  cases run <;> simp [pushExplicit, literal]

theorem factor_nil {N : Nat} {h : List UInt8} {syms : List Symbol} (hf : Factor N h [] [] syms) :
    syms = [] := by
  generalize hr : ([] : List UInt8) = r at hf
  generalize hr' : ([] : List UInt8) = run at hf
  cases hf with
  | copy h1 _ => have := h1.useful; have := h1.occurs.avail; subst hr; simp at this; omega
  | extend _ h1 _ => subst hr; subst hr'; simp at h1
  | last _ _ => subst hr; subst hr'; simp [literal]

theorem symbolLoop_spec {N : Nat} (hN : 0 < N) {cap : Caps} (hcap : ∀ i, repBufInit ≤ cap i)
    (fuel : Nat) {e : Encoder} {h rest cur : List UInt8} (he : EncInv N e h rest 0)
    (hf : rest.length < fuel) :
    ∃ chan e' h' rest', e.symbolLoop N cap fuel cur = some (chan, e') ∧ EncInv N e' h' rest' 0 ∧
      (chan ≠ [] → rest'.length < cur.length + rest.length) ∧ (chan = [] → rest' = []) ∧
      ∀ syms, Factor N h' [] rest' syms → Factor N h cur rest (chan ++ syms) := by
  induction fuel generalizing e h rest cur with
  | zero => omega
  | succ fuel ih =>
    obtain ⟨e1, pos, h1, he1⟩ := nextRepetition_spec hcap he
    have hext : NoCopy N h rest → ∃ chan e' h' rest',
        (match e1.extendExplicit N cur with
         | none => none
         | some (mustReturn, cur, e) =>
           if mustReturn then some (pushExplicit cur, e) else e.symbolLoop N cap fuel cur) =
          some (chan, e') ∧ EncInv N e' h' rest' 0 ∧
        (chan ≠ [] → rest'.length < cur.length + rest.length) ∧ (chan = [] → rest' = []) ∧
        ∀ syms, Factor N h' [] rest' syms → Factor N h cur rest (chan ++ syms) := by
      intro hno
      obtain ⟨e2, h2, he2⟩ := extendExplicit_spec hN (cur := cur) he1
      simp only [h2]
      by_cases hd : rest.length < max cur.length 2
      · simp only [hd, decide_true, if_true]
        rw [List.take_of_length_le (by omega), List.drop_of_length_le (by omega)] at he2
        rw [List.take_of_length_le (by omega)]
        refine ⟨_, e2, _, _, rfl, he2, ?_, fun _ => rfl, ?_⟩
        · intro hne
          rw [pushExplicit_eq] at hne
          cases hcr : cur ++ rest with
          | nil => simp [hcr, literal] at hne
          | cons a l =>
            have : (cur ++ rest).length = l.length + 1 := by rw [hcr]; rfl
            simp only [List.length_append] at this
            simp only [List.length_nil]; omega
        · intro syms hs
          rw [factor_nil hs, List.append_nil, pushExplicit_eq]
          exact .last hno hd
      · simp only [hd, decide_false, Bool.false_eq_true, if_false]
        obtain ⟨chan, e', h', rest', h3, h4, h5, h6, h7⟩ :=
          ih (cur := cur ++ rest.take (max cur.length 2)) he2 (by simp; omega)
        refine ⟨chan, e', h', rest', h3, h4, ?_, h6, ?_⟩
        · intro hne
          have := h5 hne
          simp only [List.length_append, List.length_take, List.length_drop] at this
          omega
        · intro syms hs
          exact .extend hno (by omega) (h7 syms hs)
    simp only [Encoder.symbolLoop, h1]
    by_cases h6 : rest.length < 6
    · simp only [if_pos h6, Option.filter_none]
      exact hext (noCopy_of_short h6)
    · simp only [if_neg h6]
      by_cases hb : 6 ≤ (bestRep N h rest).1
      · have hcopy := bestRep_copy hb
        obtain ⟨e2, h2, he2⟩ := commitBytes_spec hN he1 hcopy.occurs.avail
        have hfl : (some (bestRep N h rest)).filter (fun lb => decide (lb.1 ≥ minRep)) =
            some (bestRep N h rest) := by simp [Option.filter, minRep, hb]
        simp only [hfl, h2]
        refine ⟨_, e2, _, _, rfl, he2, ?_, ?_, ?_⟩
        · intro _; have := hcopy.occurs.avail; simp only [List.length_drop]; omega
        · intro hh; simp at hh
        · intro syms hs
          rw [pushExplicit_eq, List.append_assoc]
          exact .copy hcopy hs
      · have hfl : (some (bestRep N h rest)).filter (fun lb => decide (lb.1 ≥ minRep)) = none := by
          simp only [Option.filter, minRep, ge_iff_le, hb, decide_false]; rfl
        simp only [hfl]
        exact hext (bestRep_noCopy hb)

theorem encodeLoop_spec {N : Nat} (hN : 0 < N) {cap : Caps} (hcap : ∀ i, repBufInit ≤ cap i)
    (fuel : Nat) {e : Encoder} {h rest : List UInt8} (he : EncInv N e h rest 0)
    (hf : rest.length < fuel) :
    ∃ syms, Factor N h [] rest syms ∧ encodeLoop N cap fuel e = Proc.forEach Symbol.ser syms := by
  induction fuel generalizing e h rest with
  | zero => omega
  | succ fuel ih =>
    have hsz := he.input.size
    obtain ⟨chan, e', h', rest', h1, h2, h3, h4, h5⟩ := symbolLoop_spec hN hcap
      (e.input.iter.length + e.input.saved.length + 1) (cur := []) he (by omega)
    simp only [encodeLoop, Encoder.nextSymbols, h1]
    by_cases hc : chan = []
    · have hr := h4 hc
      subst hc hr
      refine ⟨[], ?_, rfl⟩
      have := h5 [] (.last (noCopy_of_short (by simp)) (by simp))
      simpa using this
    · have hc' : chan.isEmpty = false := by simpa using hc
      rw [hc']
      have := h3 hc
      obtain ⟨syms, h6, h7⟩ := ih h2 (by simp at this; omega)
      refine ⟨chan ++ syms, h5 _ h6, ?_⟩
      simp only [Bool.false_eq_true, if_false]
      rw [h7, Proc.forEach_append]

theorem zipBackEncode_spec {N : Nat} (hN : 0 < N) {cap : Caps} (hcap : ∀ i, repBufInit ≤ cap i)
    (input : List UInt8) :
    ∃ syms, Factor N [] [] input syms ∧
      zipBackEncode N cap input = Proc.forEach Symbol.ser syms :=
  encodeLoop_spec hN hcap _ ⟨.new N, .new input⟩ (by simp)

end Cniic.Back
