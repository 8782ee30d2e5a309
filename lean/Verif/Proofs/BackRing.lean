import Verif.Spec.ZipBack

/-! # Proofs about `RingBuffer` and `Index` -/

namespace Cniic.Back

open Cniic.Spec (retained)

variable {T : Type}

theorem retained_length (N : Nat) (h : List T) : (retained N h).length = min N h.length := by
  simp only [retained, List.length_drop]; omega

theorem retained_snoc (N : Nat) (hN : 0 < N) (h : List T) (x : T) :
    retained N (h ++ [x]) = (if h.length < N then retained N h else (retained N h).tail) ++ [x] := by
  simp only [retained, List.length_append, List.length_singleton]
  by_cases hl : h.length < N
  · simp [hl, show h.length + 1 - N = 0 by omega, show h.length - N = 0 by omega]
  · rw [if_neg hl, List.drop_append_of_le_length (by omega), List.tail_drop,
      show h.length + 1 - N = h.length - N + 1 by omega]

/-- The ring buffer `r` of capacity `N` has been written the elements `h`. -/
structure RingInv (N : Nat) (r : RingBuffer T) (h : List T) : Prop where
  size  : r.data.length = N
  start : r.start = h.length - N
  small : h.length ≤ N → r.writePos = h.length ∧ r.data.take h.length = h
  large : N < h.length → 0 < r.writePos ∧ r.writePos ≤ N ∧
    r.data.drop r.writePos ++ r.data.take r.writePos = retained N h

theorem RingInv.new (N : Nat) (d : T) : RingInv N (.new N d) [] :=
  ⟨by simp [RingBuffer.new], by simp [RingBuffer.new], by simp [RingBuffer.new], by simp⟩

theorem RingInv.write {N : Nat} (hN : 0 < N) {r : RingBuffer T} {h : List T} (hr : RingInv N r h)
    (x : T) : RingInv N (r.write x) (h ++ [x]) := by
  obtain ⟨hsz, hst, hsm, hlg⟩ := hr
  by_cases h1 : h.length < N
  · obtain ⟨hw, ht⟩ := hsm (by omega)
    have hs0 : r.start = 0 := by omega
    have hwN : ¬ r.writePos = r.data.length := by omega
    refine ⟨by simp [RingBuffer.write, hsz], ?_, ?_, ?_⟩
    · simp [RingBuffer.write, hs0, hwN]; omega
    · intro _
      refine ⟨by simp only [RingBuffer.write, beq_iff_eq, if_neg hwN]; simp [hw], ?_⟩
      simp only [RingBuffer.write, beq_iff_eq, if_neg hwN, List.length_append,
        List.length_singleton]
      rw [hw]
      rw [List.take_add_one, List.take_set_of_le (Nat.le_refl _), ht,
        List.getElem?_set_self (by omega)]; rfl
    · intro hh; simp at hh; omega
  · by_cases h2 : h.length = N
    · obtain ⟨hw, ht⟩ := hsm (by omega)
      have hs0 : r.start = 0 := by omega
      have hd : r.data = h := by rw [← ht, List.take_of_length_le (by omega)]
      have hwN : r.writePos = r.data.length := by omega
      refine ⟨by simp [RingBuffer.write, hsz], ?_, ?_, ?_⟩
      · simp [RingBuffer.write, hs0, hwN]; omega
      · intro hh; simp at hh; omega
      · intro _
        refine ⟨by simp [RingBuffer.write], ?_, ?_⟩
        · simp [RingBuffer.write, hwN]; omega
        · rw [retained_snoc N hN, if_neg (by omega)]
          simp only [RingBuffer.write, beq_iff_eq, hwN, if_true, hd]
          cases h with
          | nil => simp at h2; omega
          | cons a h => simp [retained, ← h2]
    · obtain ⟨hw0, hwle, hcat⟩ := hlg (by omega)
      refine ⟨by simp [RingBuffer.write, hsz], ?_, ?_, ?_⟩
      · simp [RingBuffer.write, show r.start > 0 by omega]; omega
      · intro hh; simp at hh; omega
      · intro _
        rw [retained_snoc N hN, if_neg (by omega), ← hcat]
        by_cases hwN : r.writePos = r.data.length
        · refine ⟨by simp [RingBuffer.write], by simp [RingBuffer.write, hwN]; omega, ?_⟩
          simp only [RingBuffer.write, beq_iff_eq, hwN, if_true]
          match hdata : r.data with
          | [] => simp [hdata] at hsz; omega
          | a :: l => simp
        · have hlt : r.writePos < r.data.length := by omega
          refine ⟨by simp [RingBuffer.write], by simp [RingBuffer.write, hwN]; omega, ?_⟩
          simp only [RingBuffer.write, beq_iff_eq, hwN, if_false]
          rw [List.take_add_one, List.take_set_of_le (Nat.le_refl _),
            List.getElem?_set_self (by omega), List.drop_set_of_lt (by omega)]
          rw [List.drop_eq_getElem_cons hlt, List.cons_append, List.tail_cons]
          simp

theorem RingInv.writeAll {N : Nat} (hN : 0 < N) {r : RingBuffer T} {h : List T}
    (hr : RingInv N r h) (xs : List T) : RingInv N (r.writeAll xs) (h ++ xs) := by
  induction xs generalizing r h with
  | nil => simpa [RingBuffer.writeAll] using hr
  | cons x xs ih =>
    have := ih (hr.write hN x)
    simpa [RingBuffer.writeAll] using this

section
variable {N : Nat} {r : RingBuffer T} {h : List T}

theorem RingInv.wrapped (hr : RingInv N r h) : r.wrappedAround = decide (N < h.length) := by
  simp only [RingBuffer.wrappedAround, hr.start]
  by_cases hh : N < h.length <;> simp <;> omega

theorem RingInv.len (hr : RingInv N r h) : r.len = min N h.length := by
  unfold RingBuffer.len
  rw [hr.wrapped]
  by_cases hh : N < h.length
  · simp [hh, hr.size]; omega
  · simp [hh, (hr.small (by omega)).1]; omega

theorem RingInv.readPos (hr : RingInv N r h) : r.readPos = h.length := by
  unfold RingBuffer.readPos
  rw [hr.len, hr.start]; omega

theorem RingInv.slices (hr : RingInv N r h) : r.asSlices.1 ++ r.asSlices.2 = retained N h := by
  unfold RingBuffer.asSlices RingBuffer.validSlice
  rw [hr.wrapped]
  by_cases hh : N < h.length
  · simpa [hh] using (hr.large hh).2.2
  · obtain ⟨h1, h2⟩ := hr.small (by omega)
    simp [hh, h1, h2, retained, show h.length - N = 0 by omega]

theorem RingInv.iterStarting (hr : RingInv N r h) (p : Nat) :
    r.iterStarting p = if h.length - N ≤ p ∧ p ≤ h.length then some (h.drop p) else none := by
  have hs := hr.slices
  have hl := retained_length N h
  simp only [RingBuffer.iterStarting]
  generalize r.asSlices.1 = l at *
  generalize r.asSlices.2 = rt at *
  rw [hr.start]
  by_cases h1 : p < h.length - N
  · rw [if_pos h1, if_neg (by omega)]
  · rw [if_neg h1]
    have hd : h.length - N ≤ p → h.drop p = (l ++ rt).drop (p - (h.length - N)) := by
      intro _
      rw [hs, retained, List.drop_drop]; congr 1; omega
    have hlen : l.length + rt.length = min N h.length := by rw [← hl, ← hs]; simp
    by_cases h2 : l.length ≥ p - (h.length - N)
    · rw [if_pos h2, if_pos (by omega), hd (by omega), List.drop_append_of_le_length h2]
    · rw [if_neg h2]
      by_cases h3 : p ≤ h.length
      · rw [if_pos (by omega), if_pos (by omega), hd (by omega), List.drop_append,
          List.drop_of_length_le (show l.length ≤ _ by omega)]
      · rw [if_neg (by omega), if_neg (by omega)]

theorem RingInv.lookbackValue (hr : RingInv N r h) (p : Nat) (h1 : h.length - N ≤ p)
    (h2 : p ≤ h.length) : r.lookbackValue p = some (h.length - p) := by
  unfold RingBuffer.lookbackValue
  simp only [hr.len, hr.start]
  rw [if_neg (by omega), if_pos (by omega)]
  congr 1; omega

theorem RingInv.lookbackPos (hr : RingInv N r h) (back : Nat) :
    r.lookbackPos back = if back ≤ h.length ∧ back ≤ N then some (h.length - back) else none := by
  unfold RingBuffer.lookbackPos
  simp only [hr.len, hr.start]
  by_cases hb : back ≤ h.length ∧ back ≤ N
  · rw [if_pos (by omega), if_pos hb]; congr 1; omega
  · rw [if_neg (by omega), if_neg hb]

theorem RingInv.lookbackSequence (hr : RingInv N r h) (len back : Nat) :
    r.lookbackSequence len back =
      if back ≤ h.length ∧ back ≤ N then some ((h.drop (h.length - back)).take len) else none := by
  unfold RingBuffer.lookbackSequence
  rw [hr.lookbackPos]
  by_cases hb : back ≤ h.length ∧ back ≤ N
  · simp only [if_pos hb]
    rw [hr.iterStarting, if_pos (by omega)]
  · simp only [if_neg hb]

theorem RingInv.contains (hr : RingInv N r h) (p : Nat) (hp : p < h.length) :
    r.contains p = decide (h.length - N ≤ p) := by
  unfold RingBuffer.contains
  rw [hr.wrapped, hr.start]
  by_cases hh : N < h.length
  · simp [hh]
  · simp [hh, (hr.small (by omega)).1, hp]; omega

end

/-! ## The index -/

theorem PosMap.get_push (m : PosMap) (k k' : List UInt8) (p : Nat) :
    PosMap.get (PosMap.push m k p) k' = if k = k' then PosMap.get m k' ++ [p] else PosMap.get m k' := by
  induction m with
  | nil =>
    simp only [PosMap.push, PosMap.get]
    by_cases hk : k = k' <;> simp [hk]
  | cons e m ih =>
    obtain ⟨k0, ps⟩ := e
    simp only [PosMap.push]
    by_cases h0 : k0 = k
    · subst h0
      simp only [if_true, PosMap.get]
      by_cases hk : k0 = k' <;> simp [hk]
    · simp only [if_neg h0, PosMap.get, ih]
      by_cases h1 : k0 = k'
      · have : k ≠ k' := fun h => h0 (h1.trans h.symm)
        simp [h1, this]
      · simp [h1]

/-- The positions from `a` up to (excluding) `b` where the six bytes `k` occur in `h`. -/
def occ (h : List UInt8) (k : List UInt8) (a b : Nat) : List Nat :=
  (List.range' a (b - a)).filter fun p => (h.drop p).take 6 = k

theorem occ_empty (h k : List UInt8) (a : Nat) : occ h k a a = [] := by simp [occ]

theorem occ_append (h k : List UInt8) {a b c : Nat} (h1 : a ≤ b) (h2 : b ≤ c) :
    occ h k a b ++ occ h k b c = occ h k a c := by
  unfold occ
  rw [← List.filter_append, show c - a = (b - a) + (c - b) by omega, ← List.range'_append_1,
    show a + (b - a) = b by omega]

theorem occ_congr {h h' k : List UInt8} {a b : Nat}
    (e : ∀ p, a ≤ p → p < b → (h.drop p).take 6 = (h'.drop p).take 6) : occ h k a b = occ h' k a b := by
  unfold occ
  apply List.filter_congr
  intro p hp
  rw [List.mem_range'_1] at hp
  rw [e p hp.1 (by omega)]

theorem mem_occ {h k : List UInt8} {a b p : Nat} :
    p ∈ occ h k a b ↔ a ≤ p ∧ p < b ∧ (h.drop p).take 6 = k := by
  unfold occ
  rw [List.mem_filter, List.mem_range'_1]
  simp only [decide_eq_true_eq]
  constructor
  · rintro ⟨h1, h2⟩; exact ⟨h1.1, by omega, h2⟩
  · rintro ⟨h1, h2, h3⟩; exact ⟨⟨h1, by omega⟩, h3⟩

theorem nodup_occ (h k : List UInt8) (a b : Nat) : (occ h k a b).Nodup :=
  List.Pairwise.filter _ List.nodup_range'

/-- The index has been told the bytes `h`. -/
structure IndexInv (N : Nat) (ix : Index) (h : List UInt8) : Prop where
  inc  : ix.incomplete = (List.range' (h.length - 5) (h.length - (h.length - 5))).map
    fun p => (p, h.drop p)
  maps : ∃ a c, a ≤ c ∧ c ≤ h.length - 5 ∧ a ≤ h.length - N ∧ c ≤ (h.length - 1) / N * N ∧
    (∀ k, ix.old.get k = occ h k a c) ∧ (∀ k, ix.new.get k = occ h k c (h.length - 5))

theorem IndexInv.empty (N : Nat) : IndexInv N .empty [] :=
  ⟨by simp [Index.empty], 0, 0, by simp [Index.empty, PosMap.get, occ]⟩

theorem occ_snoc (h k : List UInt8) (x : UInt8) {a b : Nat} (hb : b ≤ h.length - 5) :
    occ (h ++ [x]) k a b = occ h k a b := by
  apply occ_congr
  intro p _ hp
  rw [List.drop_append_of_le_length (by omega), List.take_append_of_le_length (by simp; omega)]

theorem occ_one (h k : List UInt8) (p : Nat) :
    occ h k p (p + 1) = if (h.drop p).take 6 = k then [p] else [] := by
  have e : p + 1 - p = 1 := by omega
  simp only [occ, e, List.range'_one]
  by_cases hk : (h.drop p).take 6 = k <;> simp [hk]

theorem updateIncomplete_spec {N : Nat} {ix : Index} {h : List UInt8} (hi : IndexInv N ix h)
    (x : UInt8) :
    ix.updateIncompleteKeys x h.length =
      ({ ix with incomplete := (List.range' ((h ++ [x]).length - 5)
          ((h ++ [x]).length - ((h ++ [x]).length - 5))).map fun p => (p, (h ++ [x]).drop p) },
       if h.length < 5 then none else some (h.length - 5, (h ++ [x]).drop (h.length - 5))) := by
  have hinc : (ix.incomplete ++ [(h.length, [])]).map
      (fun (e : Nat × List UInt8) => (e.1, e.2 ++ [x])) =
      (List.range' (h.length - 5) (h.length - (h.length - 5) + 1)).map
        fun p => (p, (h ++ [x]).drop p) := by
    rw [hi.inc, List.map_append, List.map_map, List.range'_concat, List.map_append]
    congr 1
    · apply List.map_congr_left
      intro p hp
      rw [List.mem_range'_1] at hp
      simp [List.drop_append_of_le_length (show p ≤ h.length by omega)]
    · simp [show h.length - 5 + (h.length - (h.length - 5)) = h.length by omega]
  unfold Index.updateIncompleteKeys
  simp only [hinc, List.length_append, List.length_singleton]
  by_cases h5 : h.length < 5
  · simp only [if_pos h5, show h.length - 5 = 0 by omega, show h.length + 1 - 5 = 0 by omega,
      Nat.sub_zero, List.range'_succ, List.map_cons, minRep]
    simp; omega
  · rw [List.range'_succ, List.map_cons]
    have h6 : ((h ++ [x]).drop (h.length - 5)).length = minRep := by simp [minRep]; omega
    simp only [if_neg h5, h6, if_true]
    simp only [show h.length - (h.length - 5) = 5 by omega,
      show h.length + 1 - (h.length + 1 - 5) = 5 by omega,
      show h.length - 5 + 1 = h.length + 1 - 5 by omega]

theorem IndexInv.update {N : Nat} (hN : 0 < N) {ix : Index} {h : List UInt8} (hi : IndexInv N ix h)
    (x : UInt8) : IndexInv N (ix.update N x h.length) (h ++ [x]) := by
  obtain ⟨a, c, hac, hc5, haN, hcN, hold, hnew⟩ := hi.maps
  have hmono : (h.length - 1) / N * N ≤ h.length / N * N :=
    Nat.mul_le_mul_right _ (Nat.div_le_div_right (by omega))
  -- the index after steps 1 and 2
  have key : ∃ ix' : Index, ix.update N x h.length =
        (if h.length % N = 0 ∧ ix'.new ≠ [] then { ix' with old := ix'.new, new := [] } else ix') ∧
      ix'.incomplete = (List.range' ((h ++ [x]).length - 5)
          ((h ++ [x]).length - ((h ++ [x]).length - 5))).map (fun p => (p, (h ++ [x]).drop p)) ∧
      (∀ k, ix'.old.get k = occ (h ++ [x]) k a c) ∧
      (∀ k, ix'.new.get k = occ (h ++ [x]) k c (h.length + 1 - 5)) := by
    have hold' : ∀ k, ix.old.get k = occ (h ++ [x]) k a c := fun k => by
      rw [hold, occ_snoc _ _ _ hc5]
    by_cases h5 : h.length < 5
    · refine ⟨{ ix with incomplete := _ }, by rw [Index.update, updateIncomplete_spec hi, if_pos h5],
        rfl, hold', ?_⟩
      intro k
      show ix.new.get k = _
      rw [hnew, ← occ_snoc _ _ x (Nat.le_refl _)]
      congr 1; omega
    · refine ⟨{ ix with incomplete := _, new := _ },
        by rw [Index.update, updateIncomplete_spec hi, if_neg h5], rfl, hold', ?_⟩
      intro k
      show PosMap.get (PosMap.push ix.new _ _) k = _
      rw [PosMap.get_push, hnew, ← occ_snoc _ _ x (Nat.le_refl _),
        show h.length + 1 - 5 = h.length - 5 + 1 by omega,
        ← occ_append _ _ hc5 (Nat.le_succ _), occ_one]
      rw [List.take_of_length_le (by simp; omega)]
      by_cases hk : (h ++ [x]).drop (h.length - 5) = k <;> simp [hk]
  obtain ⟨ix', he, hinc', hold', hnew'⟩ := key
  rw [he]
  have hlen : (h ++ [x]).length = h.length + 1 := by simp
  by_cases hsw : h.length % N = 0 ∧ ix'.new ≠ []
  · rw [if_pos hsw]
    refine ⟨hinc', c, h.length + 1 - 5, by omega, by omega, ?_, ?_, ?_, ?_⟩
    · rw [hlen]
      have hd : N ∣ h.length := Nat.dvd_of_mod_eq_zero hsw.1
      obtain ⟨q, hq⟩ := hd
      cases q with
      | zero => rw [Nat.mul_zero] at hq; omega
      | succ q =>
        have : (h.length - 1) / N = q := by
          rw [hq, Nat.mul_succ]
          apply Nat.div_eq_of_lt_le
          · rw [Nat.mul_comm]; omega
          · rw [Nat.succ_mul, Nat.mul_comm]; omega
        rw [this] at hcN
        rw [hq, Nat.mul_succ]
        rw [Nat.mul_comm] at hcN; omega
    · rw [hlen, Nat.add_sub_cancel, Nat.div_mul_cancel (Nat.dvd_of_mod_eq_zero hsw.1)]; omega
    · intro k; exact hnew' k
    · intro k; rw [hlen, occ_empty]; rfl
  · rw [if_neg hsw]
    refine ⟨hinc', a, c, hac, by omega, by omega, ?_, hold', ?_⟩
    · rw [hlen, Nat.add_sub_cancel]; omega
    · intro k; rw [hlen]; exact hnew' k

/-- The history has been written the bytes `h`. -/
structure HistInv (N : Nat) (ih : IndexedHistory) (h : List UInt8) : Prop where
  ring  : RingInv N ih.data h
  index : IndexInv N ih.index h

theorem HistInv.new (N : Nat) : HistInv N (.new N) [] := ⟨.new N 0, .empty N⟩

theorem HistInv.write {N : Nat} (hN : 0 < N) {ih : IndexedHistory} {h : List UInt8}
    (hi : HistInv N ih h) (x : UInt8) : HistInv N (ih.write N x) (h ++ [x]) := by
  refine ⟨hi.ring.write hN x, ?_⟩
  simp only [IndexedHistory.write, hi.ring.readPos]
  exact hi.index.update hN x

theorem HistInv.writeAll {N : Nat} (hN : 0 < N) {ih : IndexedHistory} {h : List UInt8}
    (hi : HistInv N ih h) (xs : List UInt8) : HistInv N (ih.writeAll N xs) (h ++ xs) := by
  induction xs generalizing ih h with
  | nil => simpa [IndexedHistory.writeAll] using hi
  | cons x xs ihx =>
    have := ihx (hi.write hN x)
    simpa [IndexedHistory.writeAll] using this

/-- The index reports exactly the retained occurrences, oldest first. -/
theorem HistInv.startIndices {N : Nat} {ih : IndexedHistory} {h : List UInt8}
    (hi : HistInv N ih h) (k : List UInt8) :
    ih.index.startIndicesFor k ih.data = occ h k (h.length - N) (h.length - 5) := by
  obtain ⟨a, c, hac, hc5, haN, hcN, hold, hnew⟩ := hi.index.maps
  unfold Index.startIndicesFor
  rw [hold, hnew, ← List.filter_append, occ_append _ _ hac hc5]
  have hf : (occ h k a (h.length - 5)).filter ih.data.contains =
      (occ h k a (h.length - 5)).filter fun p => decide (h.length - N ≤ p) := by
    apply List.filter_congr
    intro p hp
    rw [mem_occ] at hp
    rw [hi.ring.contains p (by omega)]
  rw [hf]
  by_cases hle : h.length - N ≤ h.length - 5
  · rw [← occ_append _ _ haN hle, List.filter_append]
    have h1 : (occ h k a (h.length - N)).filter (fun p => decide (h.length - N ≤ p)) = [] := by
      rw [List.filter_eq_nil_iff]
      intro p hp; rw [mem_occ] at hp; simp; omega
    have h2 : (occ h k (h.length - N) (h.length - 5)).filter (fun p => decide (h.length - N ≤ p)) =
        occ h k (h.length - N) (h.length - 5) := by
      rw [List.filter_eq_self]
      intro p hp; rw [mem_occ] at hp; simp; omega
    rw [h1, h2, List.nil_append]
  · have e : occ h k (h.length - N) (h.length - 5) = [] := by
      simp [occ, show h.length - 5 - (h.length - N) = 0 by omega]
    rw [e, List.filter_eq_nil_iff]
    intro p hp; rw [mem_occ] at hp; simp; omega

end Cniic.Back
