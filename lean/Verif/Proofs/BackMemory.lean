import Verif.Proofs.BackRing
import Verif.Spec.BackMemory

/-!
# The positions kept by the index of zip-back: proofs
-/

namespace Cniic.Back
open Spec

theorem positions_push (m : PosMap) (k : List UInt8) (p : Nat) :
    (positions (m.push k p)).length = (positions m).length + 1 ∧ m.push k p ≠ [] ∧
    ((∀ e ∈ m, e.2 ≠ []) → ∀ e ∈ m.push k p, e.2 ≠ []) := by
  induction m with
  | nil => simp [PosMap.push, positions]
  | cons e m ih =>
    obtain ⟨k', ps⟩ := e
    rw [PosMap.push]
    split
    · refine ⟨by simp [positions]; omega, by simp, ?_⟩
      intro h e he
      rcases List.mem_cons.1 he with rfl | he
      · simp
      · exact h e (by simp [he])
    · refine ⟨?_, by simp, ?_⟩
      · have := ih.1
        simp only [positions, List.flatMap_cons, List.length_append] at this ⊢
        omega
      · intro h e he
        rcases List.mem_cons.1 he with rfl | he
        · exact h _ (by simp)
        · exact ih.2.2 (fun e he => h e (by simp [he])) e he

theorem positions_entries {m : PosMap} (h : ∀ e ∈ m, e.2 ≠ []) : m.length ≤ (positions m).length := by
  induction m with
  | nil => simp
  | cons e m ih =>
    have h1 := ih fun e he => h e (by simp [he])
    have h2 := List.length_pos_iff.2 (h e (by simp))
    simp only [positions, List.flatMap_cons, List.length_append, List.length_cons] at h1 ⊢
    omega

/-- What the index keeps after the bytes `h`, exactly. -/
structure Exact (N : Nat) (ix : Index) (h : List UInt8) : Prop where
  inv  : IndexInv N ix h
  old  : ∀ k, ix.old.get k = occ h k (cut N (cleanups N h.length - 1)) (cut N (cleanups N h.length))
  new  : ∀ k, ix.new.get k = occ h k (cut N (cleanups N h.length)) (h.length - 5)
  oldL : (positions ix.old).length = cut N (cleanups N h.length) - cut N (cleanups N h.length - 1)
  newL : (positions ix.new).length = h.length - 5 - cut N (cleanups N h.length)
  oldE : ∀ e ∈ ix.old, e.2 ≠ []
  newE : ∀ e ∈ ix.new, e.2 ≠ []

theorem Exact.empty (N : Nat) : Exact N .empty [] := by
  refine ⟨.empty N, ?_, ?_, ?_, ?_, ?_, ?_⟩ <;> simp [Index.empty, PosMap.get, occ, cut, cleanups, positions]

theorem cleanups_next {N n : Nat} :
    cleanups N (n + 1) = if n % N = 0 ∧ 0 < n then cleanups N n + 1 else cleanups N n := by
  unfold cleanups
  rw [Nat.add_sub_cancel]
  cases n with
  | zero => simp
  | succ n =>
    rw [Nat.add_sub_cancel, Nat.succ_div]
    simp only [Nat.dvd_iff_mod_eq_zero, Nat.succ_pos, and_true]
    by_cases h : (n + 1) % N = 0 <;> simp [h]

theorem cleanups_le (N n : Nat) : cleanups N n * N ≤ n - 1 := Nat.div_mul_le_self _ _

theorem cleanups_lt {N n : Nat} (hN : 0 < N) (hn : 0 < n) : n ≤ (cleanups N n + 1) * N := by
  have := Nat.lt_mul_div_succ (n - 1) hN
  rw [Nat.mul_comm] at this
  unfold cleanups
  omega

theorem Exact.update {N : Nat} (hN : 6 ≤ N) {ix : Index} {h : List UInt8} (he : Exact N ix h) (x : UInt8) :
    Exact N (ix.update N x h.length) (h ++ [x]) := by
  have hinv := he.inv.update (show 0 < N by omega) x
  have hcl := cleanups_next (N := N) (n := h.length)
  have hle := cleanups_le N h.length
  have hlen : (h ++ [x]).length = h.length + 1 := by simp
  have hupd := updateIncomplete_spec he.inv x
  have hcut : cut N (cleanups N h.length) ≤ h.length - 5 := by unfold cut; omega
  have hmono : cut N (cleanups N h.length - 1) ≤ cut N (cleanups N h.length) := by
    unfold cut
    have := Nat.mul_le_mul_right N (Nat.sub_le (cleanups N h.length) 1)
    omega
  by_cases h5 : h.length < 5
  · have hq : cleanups N h.length = 0 := Nat.div_eq_of_lt (by omega)
    have hq' : cleanups N (h.length + 1) = 0 := Nat.div_eq_of_lt (by omega)
    have hcut0 : cut N 0 = 0 := by simp [cut]
    have hnew0 : ix.new = [] := by
      have h1 := he.newL
      have h2 := positions_entries he.newE
      have : ix.new.length = 0 := by omega
      exact List.eq_nil_of_length_eq_zero this
    have hu : ix.update N x h.length = { ix with incomplete := (ix.update N x h.length).incomplete } := by
      rw [Index.update, hupd, if_pos h5]
      simp [hnew0]
    have ho : (ix.update N x h.length).old = ix.old := by rw [hu]
    have hn : (ix.update N x h.length).new = ix.new := by rw [hu]
    refine ⟨hinv, ?_, ?_, ?_, ?_, by rw [ho]; exact he.oldE, by rw [hn]; exact he.newE⟩
    · intro k
      rw [ho, he.old, hlen, hq, hq', hcut0, occ_empty, occ_empty]
    · intro k
      rw [hn, he.new, hlen, hq, hq', hcut0, show h.length - 5 = 0 by omega, show h.length + 1 - 5 = 0 by omega, occ_empty,
        occ_empty]
    · rw [ho, he.oldL, hlen, hq, hq']
    · rw [hn, he.newL, hlen, hq, hq', hcut0]
      omega
  · have hpush := positions_push ix.new ((h ++ [x]).drop (h.length - 5)) (h.length - 5)
    have hget : ∀ k, (ix.new.push ((h ++ [x]).drop (h.length - 5)) (h.length - 5)).get k =
        occ (h ++ [x]) k (cut N (cleanups N h.length)) (h.length + 1 - 5) := by
      intro k
      rw [PosMap.get_push, he.new, ← occ_snoc _ _ x (Nat.le_refl _),
        show h.length + 1 - 5 = h.length - 5 + 1 by omega,
        ← occ_append _ _ hcut (Nat.le_succ _), occ_one]
      rw [List.take_of_length_le (by simp; omega)]
      by_cases hk : (h ++ [x]).drop (h.length - 5) = k <;> simp [hk]
    by_cases hm : h.length % N = 0
    · rw [if_pos ⟨hm, by omega⟩] at hcl
      have hc' : cut N (cleanups N h.length + 1) = h.length - 4 := by
        have h1 := cleanups_le N (h.length + 1)
        have h2 := Nat.div_mul_cancel (Nat.dvd_of_mod_eq_zero hm)
        have : cleanups N (h.length + 1) = h.length / N := rfl
        rw [hcl] at this
        rw [cut, this, h2]
      have hu : ix.update N x h.length =
          { ix with
            incomplete := (ix.update N x h.length).incomplete
            old := ix.new.push ((h ++ [x]).drop (h.length - 5)) (h.length - 5)
            new := [] } := by
        rw [Index.update, hupd, if_neg h5]
        simp [hm, hpush.2.1]
      have ho : (ix.update N x h.length).old = ix.new.push ((h ++ [x]).drop (h.length - 5)) (h.length - 5) := by rw [hu]
      have hn : (ix.update N x h.length).new = [] := by rw [hu]
      refine ⟨hinv, ?_, ?_, ?_, ?_, by rw [ho]; exact hpush.2.2 he.newE, by rw [hn]; simp⟩
      · intro k
        rw [ho, hget, hlen, hcl, hc', Nat.add_sub_cancel]
        congr 1
      · intro k
        rw [hn, hlen, hcl, hc', show h.length + 1 - 5 = h.length - 4 by omega, occ_empty]
        rfl
      · rw [ho, hpush.1, he.newL, hlen, hcl, hc', Nat.add_sub_cancel]
        omega
      · rw [hn, hlen, hcl, hc']
        simp [positions]
    · rw [if_neg (fun h => hm h.1)] at hcl
      have hu : ix.update N x h.length =
          { ix with
            incomplete := (ix.update N x h.length).incomplete
            new := ix.new.push ((h ++ [x]).drop (h.length - 5)) (h.length - 5) } := by
        rw [Index.update, hupd, if_neg h5]
        simp [hm]
      have ho : (ix.update N x h.length).old = ix.old := by rw [hu]
      have hn : (ix.update N x h.length).new = ix.new.push ((h ++ [x]).drop (h.length - 5)) (h.length - 5) := by rw [hu]
      refine ⟨hinv, ?_, ?_, ?_, ?_, by rw [ho]; exact he.oldE, by rw [hn]; exact hpush.2.2 he.newE⟩
      · intro k
        rw [ho, he.old, hlen, hcl, occ_snoc _ _ _ hcut]
      · intro k
        rw [hn, hget, hlen, hcl]
      · rw [ho, he.oldL, hlen, hcl]
      · rw [hn, hpush.1, he.newL, hlen, hcl]
        omega

/-- A history made by writing. -/
def Written (N : Nat) (ih : IndexedHistory) : Prop := ∃ xs, ih = (IndexedHistory.new N).writeAll N xs

theorem exact_writeAll {N : Nat} (hN : 6 ≤ N) (xs : List UInt8) :
    HistInv N ((IndexedHistory.new N).writeAll N xs) xs ∧ Exact N ((IndexedHistory.new N).writeAll N xs).index xs := by
  have h : ∀ (xs h : List UInt8) (ih : IndexedHistory), HistInv N ih h → Exact N ih.index h →
      HistInv N (ih.writeAll N xs) (h ++ xs) ∧ Exact N (ih.writeAll N xs).index (h ++ xs) := by
    intro xs
    induction xs with
    | nil => intro h ih h1 h2; simpa [IndexedHistory.writeAll] using ⟨h1, h2⟩
    | cons x xs hi =>
      intro h ih h1 h2
      have h3 : Exact N (ih.write N x).index (h ++ [x]) := by
        simp only [IndexedHistory.write, h1.ring.readPos]
        exact h2.update hN x
      have := hi (h ++ [x]) (ih.write N x) (h1.write (by omega) x) h3
      simpa [IndexedHistory.writeAll] using this
  simpa using h xs [] (.new N) (.new N) (.empty N)

theorem Written.write {N : Nat} {ih : IndexedHistory} (h : Written N ih) (x : UInt8) : Written N (ih.write N x) := by
  obtain ⟨xs, rfl⟩ := h
  exact ⟨xs ++ [x], by simp [IndexedHistory.writeAll]⟩

theorem Written.writeAll {N : Nat} {ih : IndexedHistory} (h : Written N ih) (ys : List UInt8) : Written N (ih.writeAll N ys) := by
  obtain ⟨xs, rfl⟩ := h
  exact ⟨xs ++ ys, by simp [IndexedHistory.writeAll]⟩

theorem moreData_history {cap : Caps} {e e' : Encoder} (h : e.moreData cap = some e') : e'.history = e.history := by
  unfold Encoder.moreData at h
  split at h
  · cases h; rfl
  · cases h

theorem repLoop_history {cap : Caps} {fuel : Nat} {e e' : Encoder} {r : Option (Nat × Nat)}
    (h : e.repLoop cap fuel = some (r, e')) : e'.history = e.history := by
  induction fuel generalizing e with
  | zero => cases h
  | succ fuel ih =>
    unfold Encoder.repLoop at h
    split at h
    · cases h
    · split at h
      · split at h
        · cases h
        · rename_i hm
          split at h
          · cases h; exact moreData_history hm
          · rw [ih h, moreData_history hm]
      · cases h; rfl
    · cases h; rfl

theorem nextRepetition_history {cap : Caps} {e e' : Encoder} {r : Option (Nat × Nat)}
    (h : e.nextRepetition cap = some (r, e')) : e'.history = e.history := by
  unfold Encoder.nextRepetition at h
  split at h
  · cases h
  · rename_i hm
    rw [repLoop_history h, moreData_history hm]

theorem commitLoop_written {N k : Nat} {e e' : Encoder} (he : Written N e.history) (h : e.commitLoop N k = some e') :
    Written N e'.history := by
  induction k generalizing e with
  | zero => cases h; exact he
  | succ k ih =>
    unfold Encoder.commitLoop at h
    split at h
    · exact ih (he.write _) h
    · cases h

theorem commitBytes_written {N k : Nat} {e e' : Encoder} (he : Written N e.history) (h : e.commitBytes N k = some e') :
    Written N e'.history := by
  unfold Encoder.commitBytes at h
  split at h
  · cases h
  · rename_i hc
    have := commitLoop_written (e := { e with input := e.input.restore }) he hc
    split at h
    · cases h
    · cases h; exact this

theorem extendExplicit_written {N : Nat} {e e' : Encoder} {cur cur' : List UInt8} {b : Bool} (he : Written N e.history)
    (h : e.extendExplicit N cur = some (b, cur', e')) : Written N e'.history := by
  unfold Encoder.extendExplicit at h
  simp only at h
  split at h
  · split at h
    · cases h
    · cases h; exact he.writeAll _
  · cases h

theorem symbolLoop_written {N : Nat} {cap : Caps} {fuel : Nat} {e e' : Encoder} {cur : List UInt8} {syms : List Symbol}
    (he : Written N e.history) (h : e.symbolLoop N cap fuel cur = some (syms, e')) : Written N e'.history := by
  induction fuel generalizing e cur with
  | zero => cases h
  | succ fuel ih =>
    unfold Encoder.symbolLoop at h
    split at h
    · cases h
    · rename_i hr
      have hw := he
      rw [← nextRepetition_history hr] at hw
      split at h
      · split at h
        · cases h
        · rename_i hc
          cases h
          exact commitBytes_written hw hc
      · split at h
        · cases h
        · rename_i hx
          have := extendExplicit_written hw hx
          split at h
          · cases h; exact this
          · exact ih this h

theorem encoding_written {N : Nat} {cap : Caps} {input : List UInt8} {e : Encoder} (h : Encoding N cap input e) :
    Written N e.history := by
  induction h with
  | start => exact ⟨[], rfl⟩
  | step _ hs ih => exact symbolLoop_written ih hs

end Cniic.Back
