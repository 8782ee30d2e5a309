import Verif.Proofs.DictNotes
import Verif.Props.DictStats

/-! # Properties of what the dictionary coder prints (C117) -/

namespace Cniic
open Spec

attribute [local irreducible] DictEncoder.new allBytes DictEncoder.createAllLines

/-- The lines printed during a history of insertions, the last one in front. -/
def historyLines {T : Type} : List (List UInt8 × T) → Nat
  | [] => 0
  | e :: hist =>
    historyLines hist +
      match insertHistory hist with
      | none => 0
      | some n => n.insertLines e.1

/-- **C117.** After any history of insertions, the number of lines on conversions is the number of sequences that at least 65
keys extend by one byte, plus the number of sequences that at least 65 nodes extend by one byte; it does not depend on the
order of the insertions or on the values.  The density of the children, and that of the values, is at least 65/256. -/
theorem C117_history {T : Type} (hist : List (List UInt8 × T)) (hk : ∀ e ∈ hist, e.1 ≠ []) :
    ∃ n a c, insertHistory hist = some n ∧ Counts (Wide (· ∈ hist.map Prod.fst)) a ∧
      Counts (Wide (Inner (hist.map Prod.fst))) c ∧ historyLines hist = a + c ∧
      ∀ chk st, trieStats chk n = some st →
        65 * st.totChildren ≤ 256 * st.usedChildren ∧ 65 * st.totValues ≤ 256 * st.usedValues := by
  obtain ⟨n, h1, h2, h3, h4⟩ := insertHistory_spec hk
  have key : n.Fitted ∧ historyLines hist = n.arrays := by
    clear h2 h3 h4
    induction hist generalizing n with
    | nil => cases h1; exact ⟨Node.fitted_new, Node.arrays_new.symm⟩
    | cons e hist ih =>
      have hk' : ∀ e ∈ hist, e.1 ≠ [] := fun e he => hk e (by simp [he])
      obtain ⟨m, m1, m2, -, -⟩ := insertHistory_spec hk'
      obtain ⟨i1, i2⟩ := ih hk' m m1
      obtain ⟨n', h4, h5, h6⟩ := Node.insert_spec m2 (hk e (by simp)) e.2
      simp only [insertHistory, m1, h4] at h1
      cases h1
      obtain ⟨q1, q2⟩ := Node.insert_fitted m2 i1 (hk e (by simp)) h4
      exact ⟨q1, by simp only [historyLines, m1]; omega⟩
  obtain ⟨a, c, ha, hc, hs⟩ := Node.arrays_counts h2 key.1 h3 h4
  exact ⟨n, a, c, h1, ha, hc, key.2.trans hs, fun chk st => Node.density h2 key.1⟩

/-- 65 keys `b 1`: the root gets 65 children, which is one line. -/
example : historyLines ((List.range 65).map fun b => ([UInt8.ofNat b, 1], b)) = 1 := by decide +kernel

/-- With 64 keys there is none. -/
example : historyLines ((List.range 64).map fun b => ([UInt8.ofNat b, 1], b)) = 0 := by decide +kernel

example : ∀ e ∈ (List.range 65).map fun b => ([UInt8.ofNat b, 1], b), e.1 ≠ ([] : List UInt8) := by
  intro e he
  obtain ⟨b, -, rfl⟩ := List.mem_map.1 he
  simp

/-- **C117.** What `zip_dict_encode` prints, told from the dictionary at the end: it panics exactly in a debug build with 2^31
or more nodes, and otherwise prints one line for each sequence that at least 65 sequences of the dictionary extend by one byte
and for each that at least 65 nodes extend by one byte, then the numbers of nodes and of sequences. -/
theorem C117_prints (chk : Bool) (nodeSize : Nat) (input : List UInt8) :
    ∃ k nodes keys a c, After oneByteSeqs input k ∧ Counts (Inner k) nodes ∧ Counts (· ∈ k) keys ∧
      Counts (Wide (· ∈ k)) a ∧ Counts (Wide (Inner k)) c ∧
      (zipDictPrints chk nodeSize input = none ↔ chk = true ∧ 2 ^ 31 ≤ nodes) ∧
      ∀ lines r, zipDictPrints chk nodeSize input = some (lines, r) →
        lines = a + c ∧ r.stats.nodeCount = Int32.ofNat nodes ∧ r.stats.usedChildren + 1 = nodes ∧
        r.stats.usedValues = keys ∧ r.total = nodes * nodeSize ∧ r.useful = (nodes - 1) * nodeSize + keys * 2 ∧
        r.stats.usedChildren ≤ r.stats.totChildren ∧ r.stats.usedValues ≤ r.stats.totValues ∧
        65 * r.stats.totChildren ≤ 256 * r.stats.usedChildren ∧ 65 * r.stats.totValues ≤ 256 * r.stats.usedValues := by
  obtain ⟨e, he, hi, hin⟩ := encoder_new input
  have hr : e.input.rest = input := by simp [hin, Input.rest]
  obtain ⟨f1, f2⟩ := new_fitted he
  obtain ⟨k, e', lines, ha, hi', ht', hf', hl, hs⟩ := zipDictLines_spec (input.length + 1) hi hasOnes_refl (new_tight he) f1
    (by rw [hr]; omega)
  rw [hr] at ha
  obtain ⟨a, c, h1, h2, h3⟩ := Node.arrays_counts hi'.wf hf' ht' hi'.look'
  have hnodes : Counts (Inner k) e'.trie.count :=
    Counts.congr (fun p => ht'.inner (fun k => hi'.look' k) p) (Node.count_paths hi'.wf)
  have hkeys := Counts.congr (Q := fun x => x ∈ k) hi'.look' (Node.count_values hi'.wf)
  have hz : zipDictPrints chk nodeSize input =
      match trieReport chk nodeSize e'.trie with
      | none => none
      | some r => some (e.trie.arrays + lines, r) := by
    unfold zipDictPrints
    rw [← f2, he]
    simp only [hl]
    rfl
  refine ⟨k, _, _, a, c, ha, hnodes, hkeys, h1, h2, ?_, ?_⟩
  · rw [hz]
    simp only [trieReport, trieStats_eq]
    by_cases hp : chk = true ∧ 2 ^ 31 ≤ e'.trie.count
    · rw [if_pos hp]
      exact ⟨fun _ => hp, fun _ => rfl⟩
    · rw [if_neg hp]
      exact ⟨fun h => (by cases h), fun h => absurd h hp⟩
  · intro lines' r h
    rw [hz] at h
    simp only [trieReport] at h
    cases hst : trieStats chk e'.trie with
    | none => rw [hst] at h; cases h
    | some st =>
      rw [hst] at h
      simp only [Option.some.injEq, Prod.mk.injEq] at h
      obtain ⟨rfl, rfl⟩ := h
      obtain ⟨d1, d2⟩ := Node.density hi'.wf hf' hst
      have hch := dfs_children [e'.trie]
      have hlen : (dfs [e'.trie]).length = e'.trie.count := by rw [dfs_length]; simp
      rw [List.length_singleton, hlen] at hch
      rw [trieStats_eq] at hst
      split at hst
      · cases hst
      · cases hst
        have hslots : ∀ {S : Type} (c : Content S), c.entries.length ≤ c.slots := by
          intro S c
          cases c with
          | part ks vs => exact Nat.le_refl _
          | full d =>
            refine Nat.le_trans (List.length_filterMap_le _ _) ?_
            simp [allBytes, Content.slots]
        have hsum : ∀ (f g : Node Symbol → Nat) (l : List (Node Symbol)), (∀ m, f m ≤ g m) → (l.map f).sum ≤ (l.map g).sum := by
          intro f g l h
          induction l with
          | nil => simp
          | cons a l ih =>
            have := h a
            simp only [List.map_cons, List.sum_cons]
            omega
        refine ⟨by omega, ?_, ?_, ?_, rfl, ?_, ?_, ?_, d1, d2⟩
        · simp only [statsOf, hlen, Nat.zero_add]
        · simp only [statsOf]; omega
        · simp only [statsOf, Nat.zero_add]
        · simp only [statsOf, Nat.zero_add]
          congr 2
          omega
        · simp only [statsOf, Nat.zero_add]
          exact hsum _ _ _ fun m => hslots _
        · simp only [statsOf, Nat.zero_add]
          exact hsum _ _ _ fun m => hslots _

/-- The values of the root are always converted. -/
theorem wide_root {input : List UInt8} {k : List (List UInt8)} (ha : After oneByteSeqs input k) : Wide (· ∈ k) [] :=
  ⟨allBytes, allBytes_nodup, by unfold allBytes; simp, fun b _ => ha.subset _ (hasOnes_refl.mem b)⟩

/-- **C117.** At least one line on conversions is printed, and exactly one for inputs of less than 130 bytes. -/
theorem C117_lines {chk : Bool} {nodeSize : Nat} {input : List UInt8} {lines : Nat} {r : TrieReport}
    (h : zipDictPrints chk nodeSize input = some (lines, r)) : 1 ≤ lines ∧ (input.length < 130 → lines = 1) := by
  obtain ⟨k, nodes, keys, a, c, ha, -, -, ⟨la, a1, a2, rfl⟩, ⟨lc, c1, c2, rfl⟩, -, hp⟩ := C117_prints chk nodeSize input
  obtain ⟨rfl, -⟩ := hp _ _ h
  have h0 : [] ∈ la := (a2 []).2 (wide_root ha)
  have hpos := List.length_pos_of_mem h0
  refine ⟨by omega, fun hlen => ?_⟩
  have hl := ha.longs
  rw [longs_ones, List.length_nil] at hl
  have hc : lc = [] := by
    cases lc with
    | nil => rfl
    | cons p lc =>
      have := wide_longs (.inl ((c2 p).1 (by simp)))
      omega
  have hal := nodup_length_le a1 (l' := [[]]) (by
    intro p hp
    rw [List.mem_singleton]
    apply Classical.byContradiction
    intro hne
    have := wide_longs (.inr ⟨(a2 p).1 hp, hne⟩)
    omega)
  rw [List.length_singleton] at hal
  rw [hc, List.length_nil]
  omega

/-- **C117.** "Child density" is 0/0, which is printed as `NaN%`, exactly if the input has less than two bytes. -/
theorem C117_nan {chk : Bool} {nodeSize : Nat} {input : List UInt8} {lines : Nat} {r : TrieReport}
    (h : zipDictPrints chk nodeSize input = some (lines, r)) :
    (r.stats.totChildren = 0 ↔ input.length < 2) ∧ (r.stats.totChildren = 0 → r.stats.usedChildren = 0) ∧
      0 < r.stats.totValues := by
  obtain ⟨k, nodes, keys, a, c, ha, hn, ⟨lk, k1, k2, rfl⟩, -, -, -, hp⟩ := C117_prints chk nodeSize input
  obtain ⟨-, -, p3, p4, -, -, p5, p6, p7, -⟩ := hp _ _ h
  have h0 : [0] ∈ lk := (k2 _).2 (ha.subset _ (hasOnes_refl.mem 0))
  have hpos := List.length_pos_of_mem h0
  refine ⟨⟨fun h0 => ?_, fun hlt => ?_⟩, fun _ => by omega, by omega⟩
  · apply Nat.lt_of_not_le
    intro hle
    have hone : nodes = 1 := by omega
    have hx : ∃ x ∈ k, 2 ≤ x.length := by
      cases ha with
      | nil => simp at hle
      | one hl =>
        obtain ⟨b, -, hb⟩ := List.mem_map.1 (List.mem_of_getElem? hl.isKnown)
        have := congrArg List.length hl.split
        rw [← hb] at this
        simp at this
        omega
      | @two _ _ s1 x1 i' s2 x2 i'' _ h1 h2 h3 =>
        refine ⟨x1 ++ x2, h3.subset _ ?_, ?_⟩
        · rw [learn, if_pos (by simp [oneByteSeqs])]
          simp
        · have := List.length_pos_iff.2 h1.nonempty
          have := List.length_pos_iff.2 h2.nonempty
          rw [List.length_append]
          omega
    obtain ⟨x, x1, x2⟩ := hx
    obtain ⟨l, l1, l2, l3⟩ := hn
    have := nodup_length_le (l := [[], x.take 1]) (l' := l) (by
      have : x.take 1 ≠ [] := by
        intro e
        have := congrArg List.length e
        rw [List.length_take, List.length_nil] at this
        omega
      simpa using Ne.symm this) (by
      intro p hp
      rcases List.mem_cons.1 hp with rfl | hp
      · exact (l2 _).2 (.inl rfl)
      · rw [List.mem_singleton.1 hp]
        refine (l2 _).2 (.inr ⟨x, x1, List.take_prefix _ _, fun e => ?_⟩)
        have := congrArg List.length e
        rw [List.length_take] at this
        omega)
    rw [l3, hone] at this
    simp at this
  · have h1 := inner_le hn
    have h2 := ha.extras
    rw [extras_ones] at h2
    omega

/-- **C117.** When a node takes less than 512 bytes, "Useful size" is more than "Total size". -/
theorem C117_useful {chk : Bool} {nodeSize : Nat} {input : List UInt8} {lines : Nat} {r : TrieReport}
    (h : zipDictPrints chk nodeSize input = some (lines, r)) (hs : nodeSize < 512) : r.total < r.useful := by
  obtain ⟨k, nodes, keys, a, c, ha, hn, ⟨lk, k1, k2, rfl⟩, -, -, -, hp⟩ := C117_prints chk nodeSize input
  obtain ⟨-, -, p3, -, p5, p6, -⟩ := hp _ _ h
  have hk : 256 ≤ lk.length := by
    have h1 : oneByteSeqs.length = 256 := by simp [oneByteSeqs]
    have h2 := nodup_length_le (l := oneByteSeqs) (l' := lk) (by decide +kernel) fun x hx => (k2 x).2 (ha.subset x hx)
    omega
  obtain ⟨m, rfl⟩ : ∃ m, nodes = m + 1 := ⟨_, p3.symm⟩
  rw [p5, p6, Nat.add_sub_cancel, Nat.succ_mul]
  omega

/-- What is printed for `1 2 1 2 1 2`, with nodes of 96 bytes: one line, 4 nodes of 384 bytes together, 3 children in 3 places,
258 values in 258 places, and 804 bytes of useful size. -/
example : zipDictPrints true 96 [1, 2, 1, 2, 1, 2] = some (1, ⟨⟨4, 3, 3, 258, 258⟩, 384, 804⟩) := by decide +kernel

/-- With 65 different pairs, 130 bytes, there is a second line. -/
example : (zipDictPrints true 96 ((List.range 65).flatMap fun b => [UInt8.ofNat b, 200])).map Prod.fst = some 2 := by
  decide +kernel

/-- For one byte of input there is no child, and no place for one. -/
example : zipDictPrints true 96 [7] = some (1, ⟨⟨1, 0, 0, 256, 256⟩, 96, 512⟩) := by decide +kernel

end Cniic
