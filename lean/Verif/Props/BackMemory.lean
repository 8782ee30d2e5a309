import Verif.Proofs.BackMemory

/-!
# What the index of zip-back keeps (C104)
-/

namespace Cniic
open Spec Back

/-- **C104**, the index: after any bytes the older map has the occurrences from one multiple of the window size (minus 4) to the
next, the newer map those from there on. -/
theorem C104_index (N : Nat) (hN : 6 ≤ N) (xs : List UInt8) (key : List UInt8) :
    let ix := ((IndexedHistory.new N).writeAll N xs).index
    (∀ p, p ∈ ix.old.get key ↔ cut N (cleanups N xs.length - 1) ≤ p ∧ p < cut N (cleanups N xs.length) ∧
      (xs.drop p).take 6 = key) ∧
    (∀ p, p ∈ ix.new.get key ↔ cut N (cleanups N xs.length) ≤ p ∧ p + 5 < xs.length ∧ (xs.drop p).take 6 = key) := by
  obtain ⟨-, he⟩ := exact_writeAll hN xs
  refine ⟨fun p => by rw [he.old, mem_occ], fun p => ?_⟩
  rw [he.new, mem_occ, show p < xs.length - 5 ↔ p + 5 < xs.length by omega]

/-- **C104**, memory: however long the input, at each point of encoding the index keeps fewer than `2 N` positions, in as many
entries or fewer, and at most five keys that are not complete; the history has `N` bytes. -/
theorem C104_memory (N : Nat) (hN : 6 ≤ N) (cap : Caps) (input : List UInt8) (e : Encoder) (he : Encoding N cap input e) :
    let ix := e.history.index
    (positions ix.old).length + (positions ix.new).length < 2 * N ∧
    ix.old.length ≤ (positions ix.old).length ∧ ix.new.length ≤ (positions ix.new).length ∧
    ix.incomplete.length ≤ 5 ∧ (∀ k ∈ ix.incomplete, k.2.length < 6) ∧ e.history.data.data.length = N := by
  obtain ⟨xs, hx⟩ := encoding_written he
  rw [hx]
  obtain ⟨hh, h⟩ := exact_writeAll hN xs
  refine ⟨?_, positions_entries h.oldE, positions_entries h.newE, ?_, ?_, hh.ring.size⟩
  · rw [h.oldL, h.newL]
    cases hl : xs.length with
    | zero => simp [cleanups, cut]; omega
    | succ n =>
      have h1 := cleanups_lt (N := N) (n := n + 1) (by omega) (by omega)
      have h2 := cleanups_le N (n + 1)
      unfold cut
      generalize cleanups N (n + 1) = q at h1 h2 ⊢
      cases q with
      | zero => simp at h1 ⊢; omega
      | succ q =>
        rw [Nat.add_sub_cancel]
        simp only [Nat.add_mul, Nat.one_mul] at h1 h2 ⊢
        omega
  · rw [h.inv.inc]
    simp
    omega
  · intro k hk
    rw [h.inv.inc, List.mem_map] at hk
    obtain ⟨p, hp, rfl⟩ := hk
    rw [List.mem_range'_1] at hp
    simp
    omega

/-- **C104**, with the window of the program: at most 131069 positions. -/
theorem C104_program (cap : Caps) (input : List UInt8) (e : Encoder) (he : Encoding ringSize cap input e) :
    (positions e.history.index.old).length + (positions e.history.index.new).length ≤ 131069 := by
  have := (C104_memory ringSize (by decide) cap input e he).1
  have hr : ringSize = 65535 := rfl
  omega

/-- **C104**, the filter of the newer map (back.rs:530-533), which the author did not expect to be needed: it removes positions
exactly after the last four bytes before a clean-up, from the second one on. -/
theorem C104_filter (N : Nat) (hN : 6 ≤ N) (xs : List UInt8) :
    let h := (IndexedHistory.new N).writeAll N xs
    (∃ key, (h.index.new.get key).filter h.data.contains ≠ h.index.new.get key) ↔
      N < xs.length ∧ N ≤ (xs.length - 1) % N + 4 := by
  obtain ⟨hh, he⟩ := exact_writeAll hN xs
  simp only
  generalize (IndexedHistory.new N).writeAll N xs = h at *
  have hle := cleanups_le N xs.length
  have hdm := Nat.div_add_mod (xs.length - 1) N
  have hq : cleanups N xs.length * N = N * ((xs.length - 1) / N) := Nat.mul_comm _ _
  have hmod := Nat.mod_lt (xs.length - 1) (show 0 < N by omega)
  have key : (∃ key, (h.index.new.get key).filter h.data.contains ≠ h.index.new.get key) ↔
      cut N (cleanups N xs.length) < xs.length - N := by
    constructor
    · rintro ⟨key, hk⟩
      apply Nat.lt_of_not_le
      intro hc
      apply hk
      rw [List.filter_eq_self]
      intro p hp
      rw [he.new, mem_occ] at hp
      rw [hh.ring.contains p (by omega)]
      simp
      omega
    · intro hc
      refine ⟨(xs.drop (cut N (cleanups N xs.length))).take 6, ?_⟩
      intro hk
      rw [List.filter_eq_self] at hk
      have := hk (cut N (cleanups N xs.length)) (by rw [he.new, mem_occ]; exact ⟨Nat.le_refl _, by omega, rfl⟩)
      rw [hh.ring.contains _ (by omega)] at this
      simp at this
      omega
  rw [key]
  unfold cut
  by_cases hn : N < xs.length
  · have hpos : N ≤ N * ((xs.length - 1) / N) := by
      have : 0 < (xs.length - 1) / N := Nat.div_pos (by omega) (by omega)
      exact Nat.le_mul_of_pos_right N this
    rw [hq]
    constructor
    · intro h; exact ⟨hn, by omega⟩
    · intro h; omega
  · constructor
    · intro h; omega
    · intro h; exact absurd h.1 hn

/-- **C104**, and without it the encoder would panic: such a position is not in the history any more. -/
theorem C104_stale (N : Nat) (hN : 6 ≤ N) (xs : List UInt8) (hn : N < xs.length) (hm : N ≤ (xs.length - 1) % N + 4) :
    let h := (IndexedHistory.new N).writeAll N xs
    ∃ key p, key.length = 6 ∧ p ∈ h.index.new.get key ∧ h.subseq p = none := by
  obtain ⟨key, hk⟩ := (C104_filter N hN xs).2 ⟨hn, hm⟩
  obtain ⟨hh, he⟩ := exact_writeAll hN xs
  simp only
  generalize (IndexedHistory.new N).writeAll N xs = h at *
  rw [ne_eq, List.filter_eq_self] at hk
  have : ∃ p ∈ h.index.new.get key, h.data.contains p ≠ true := Classical.byContradiction fun hc =>
    hk fun p hp => Classical.byContradiction fun hc' => hc ⟨p, hp, hc'⟩
  obtain ⟨p, hp, hc⟩ := this
  have hp' := hp
  rw [he.new, mem_occ] at hp'
  rw [hh.ring.contains p (by omega)] at hc
  refine ⟨key, p, ?_, hp, ?_⟩
  · rw [← hp'.2.2, List.length_take, List.length_drop]; omega
  · unfold IndexedHistory.subseq
    rw [hh.ring.iterStarting, if_neg]
    simp at hc
    omega

/-! ## Examples -/

/-- A window of 8 after 15 bytes: position 4 is not in the history any more but still in the newer map.  (The clean-up after 9
bytes moved positions 0 to 3.) -/
example : let h := (IndexedHistory.new 8).writeAll 8 [0, 1, 2, 3, 4, 5, 6, 7, 8, 9, 10, 11, 12, 13, 14]
    h.index.new.get [4, 5, 6, 7, 8, 9] = [4] ∧ h.data.contains 4 = false ∧ h.subseq 4 = none ∧
    positions h.index.old = [0, 1, 2, 3] ∧ positions h.index.new = [4, 5, 6, 7, 8, 9] := by decide +kernel

example : 8 < 15 ∧ 8 ≤ (15 - 1) % 8 + 4 ∧ cut 8 (cleanups 8 15) = 4 := by decide

/-- A state in the middle of encoding. -/
example : ∃ e, Encoding 8 (fun _ => 16) [1, 2, 3, 4, 5, 6, 1, 2, 3, 4, 5, 6, 7] e ∧
    (positions e.history.index.old).length + (positions e.history.index.new).length = 8 := by
  have h : ((Encoder.new 8 [1, 2, 3, 4, 5, 6, 1, 2, 3, 4, 5, 6, 7]).nextSymbols 8 (fun _ => 16)).any (fun r =>
      (positions r.2.history.index.old).length + (positions r.2.history.index.new).length == 8) = true := by decide +kernel
  rw [Option.any_eq_true] at h
  obtain ⟨r, h1, h2⟩ := h
  exact ⟨r.2, .step .start h1, by simpa using h2⟩

end Cniic
