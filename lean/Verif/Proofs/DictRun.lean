import Verif.Proofs.DictStats
import Verif.Proofs.Clusterc

/-! # Proofs: the trie that an encoding leaves behind -/

namespace Cniic
open Spec

variable {T : Type}

/-! ## Every node is needed -/

theorem Node.reach_append (n : Node T) (p q : List UInt8) : n.reach (p ++ q) = (n.reach p).bind fun m => m.reach q := by
  induction p generalizing n with
  | nil => rfl
  | cons b p ih =>
    rw [List.cons_append, reach_cons, reach_cons]
    cases n.children.get b with
    | none => rfl
    | some c => exact ih c

theorem Node.reach_of_descend {n : Node T} {k p : List UInt8} (h : (descend n k).isSome = true) (hp : p <+: k) (hne : p ≠ k) :
    (n.reach p).isSome = true := by
  obtain ⟨q, rfl⟩ := hp
  have hq : q ≠ [] := by rintro rfl; exact hne (by simp)
  rw [← List.dropLast_concat_getLast hq, ← List.append_assoc, descend_append, reach_append] at h
  cases hr : n.reach p with
  | none => rw [hr] at h; cases h
  | some m => rfl

/-- Every node but the root leads to a value. -/
def Node.Tight (n : Node T) : Prop :=
  ∀ p, (n.reach p).isSome = true → p = [] ∨ ∃ k, (descend n k).isSome = true ∧ p <+: k ∧ p ≠ k

theorem Node.tight_new : (new : Node T).Tight := fun p h => .inl ((reach_new p).1 h)

theorem Node.Tight.insert {n : Node T} (ht : n.Tight) (hn : n.WF) {k : List UInt8} (hk : k ≠ []) (v : T) {n' : Node T}
    {prev : Option T} (h : n.insert k v = some (n', prev)) : n'.Tight := by
  obtain ⟨n1, h1, -, h3⟩ := Node.insert_spec hn hk v
  rw [h] at h1
  obtain ⟨rfl, -⟩ := Prod.mk.inj (Option.some.inj h1)
  intro p hp
  rcases (Node.insert_reach hn hk v h p).1 hp with h4 | h4
  · rcases ht p h4 with h5 | ⟨k', h5, h6, h7⟩
    · exact .inl h5
    · refine .inr ⟨k', ?_, h6, h7⟩
      rw [h3]
      split
      · rfl
      · exact h5
  · exact .inr ⟨k, by rw [h3, if_pos rfl]; rfl, h4.1, h4.2⟩

theorem Node.Tight.inner {n : Node T} (ht : n.Tight) {keys : List (List UInt8)}
    (hk : ∀ k, (descend n k).isSome = true ↔ k ∈ keys) (p : List UInt8) : (n.reach p).isSome = true ↔ Inner keys p := by
  constructor
  · intro h
    rcases ht p h with h | ⟨k, h1, h2⟩
    · exact .inl h
    · exact .inr ⟨k, (hk k).1 h1, h2⟩
  · rintro (rfl | ⟨k, h1, h2, h3⟩)
    · rfl
    · exact reach_of_descend ((hk k).2 h1) h2 h3

theorem Counts.congr {α : Type} {P Q : α → Prop} (h : ∀ a, P a ↔ Q a) {n : Nat} (hc : Counts P n) : Counts Q n := by
  obtain ⟨l, h1, h2, h3⟩ := hc
  exact ⟨l, h1, fun a => (h2 a).trans (h a), h3⟩

theorem insertHistory_spec {hist : List (List UInt8 × T)} (hk : ∀ e ∈ hist, e.1 ≠ []) :
    ∃ n, insertHistory hist = some n ∧ n.WF ∧ n.Tight ∧
      ∀ key, (descend n key).isSome = true ↔ key ∈ hist.map Prod.fst := by
  induction hist with
  | nil => exact ⟨.new, rfl, Node.wf_new, Node.tight_new, fun key => by simp [Node.descend_new]⟩
  | cons e hist ih =>
    obtain ⟨n, h1, h2, ht, h3⟩ := ih (fun e he => hk e (by simp [he]))
    obtain ⟨n', h4, h5, h6⟩ := Node.insert_spec h2 (hk e (by simp)) e.2
    refine ⟨n', by simp only [insertHistory, h1, h4], h5, ht.insert h2 (hk e (by simp)) e.2 h4, ?_⟩
    intro key
    rw [h6, List.map_cons, List.mem_cons, ← h3]
    by_cases hke : key = e.1
    · simp [hke]
    · simp [hke]

/-! ## The encoder -/

theorem findSymbol_trie (e : DictEncoder) : e.findSymbol.2.trie = e.trie := rfl

theorem createSymbol_tight {e e' : DictEncoder} {seq : List UInt8} (hw : e.trie.WF) (ht : e.trie.Tight) (hs : seq ≠ [])
    (h : e.createSymbol seq = some e') : e'.trie.Tight ∧ e'.trie.WF := by
  unfold DictEncoder.createSymbol at h
  generalize abbrevNext e.abbrev_ = r at h
  obtain ⟨code, counter⟩ := r
  cases code with
  | none => cases h; exact ⟨ht, hw⟩
  | some code =>
    simp only at h
    obtain ⟨n', h1, h2, -⟩ := Node.insert_spec hw hs code
    rw [h1] at h
    cases h
    exact ⟨ht.insert hw hs code h1, h2⟩

theorem createAll_tight {bs : List UInt8} {e e' : DictEncoder} (hw : e.trie.WF) (ht : e.trie.Tight)
    (h : e.createAll bs = some e') : e'.trie.Tight := by
  induction bs generalizing e with
  | nil => cases h; exact ht
  | cons b bs ih =>
    rw [DictEncoder.createAll] at h
    cases h1 : e.createSymbol [b] with
    | none => rw [h1] at h; cases h
    | some e1 =>
      rw [h1] at h
      obtain ⟨h2, h3⟩ := createSymbol_tight hw ht (by simp) h1
      exact ih h3 h2 h

attribute [local irreducible] allBytes in
theorem new_tight {input : List UInt8} {e : DictEncoder} (h : DictEncoder.new input = some e) : e.trie.Tight := by
  unfold DictEncoder.new at h
  cases h1 : DictEncoder.createAll { input := ⟨[], input⟩, trie := .new, abbrev_ := 0 } allBytes with
  | none => rw [h1] at h; cases h
  | some e1 =>
    rw [h1] at h
    simp only at h
    split at h
    · cases h
      exact createAll_tight Node.wf_new Node.tight_new h1
    · cases h

theorem nextPair_tight {e e' : DictEncoder} {r : Ret Unit (Symbol × Symbol)} (hw : e.trie.WF) (ht : e.trie.Tight)
    (h : e.nextPair = (r, e')) : e'.trie.Tight := by
  unfold DictEncoder.nextPair at h
  have t1 := findSymbol_trie e
  generalize e.findSymbol = q at h t1
  obtain ⟨⟨s1, x1⟩, e1⟩ := q
  simp only at t1
  cases s1 with
  | none =>
    simp only at h
    split at h <;> cases h <;> rw [t1] <;> exact ht
  | some s1 =>
    simp only at h
    split at h
    · cases h; rw [t1]; exact ht
    · rename_i hx
      have t2 := findSymbol_trie e1
      generalize e1.findSymbol = q at h t2
      obtain ⟨⟨s2, x2⟩, e2⟩ := q
      simp only at t2
      have t3 : e2.trie = e.trie := t2.trans t1
      cases s2 with
      | none =>
        simp only at h
        split at h <;> cases h <;> rw [t3] <;> exact ht
      | some s2 =>
        simp only at h
        split at h
        · cases h; rw [t3]; exact ht
        · split at h
          · cases h; rw [t3]; exact ht
          · rename_i e3 he3
            cases h
            refine (createSymbol_tight (by rw [t3]; exact hw) (by rw [t3]; exact ht) ?_ he3).1
            intro hnil
            rw [(List.append_eq_nil_iff.1 hnil).1] at hx
            exact hx rfl

theorem zipDictLoop_run (fuel : Nat) (e : DictEncoder) : zipDictLoop fuel e = (zipDictRun fuel e >>= fun _ => pure ()) := by
  induction fuel generalizing e with
  | zero => rfl
  | succ fuel ih =>
    rw [zipDictLoop, zipDictRun]
    generalize DictEncoder.nextPair e = r
    obtain ⟨r, e1⟩ := r
    cases r with
    | err u => rfl
    | panic => rfl
    | ok a =>
      obtain ⟨s1, s2⟩ := a
      simp only [bind_assoc, ih]

theorem zipDictRun_spec (fuel : Nat) {e : DictEncoder} {known : List (List UInt8)}
    (h : EncInv e known) (h1 : HasOnes known) (ht : e.trie.Tight) (hf : e.input.rest.length < fuel) :
    ∃ syms k e', Parse known e.input.rest syms ∧ After known e.input.rest k ∧ EncInv e' k ∧ e'.trie.Tight ∧
      Emits Emits.errOnly (zipDictRun fuel e) (symBytes syms) e' := by
  induction fuel generalizing e known with
  | zero => omega
  | succ fuel ih =>
    rcases nextPair_spec h h1 with ⟨hr, e', hn, hi⟩ | ⟨s, x, e', hl, hn, hi, hr⟩ |
      ⟨s1, x1, i', s2, x2, e', hl1, hl2, hn, hi⟩
    · refine ⟨[], known, e', by rw [hr]; exact .nil, by rw [hr]; exact .nil, hi, nextPair_tight h.wf ht hn, ?_⟩
      simp only [zipDictRun, hn]
      exact Emits.pure e'
    · have hpos : 0 < fuel := by
        have h2 := hl.split
        have := List.length_pos_iff.2 hl.nonempty
        rw [h2] at hf
        simp at hf; omega
      obtain ⟨syms, k, e'', hp, ha, hi', ht', he⟩ := ih hi h1 (nextPair_tight h.wf ht hn) (by rw [hr]; exact hpos)
      rw [hr] at hp ha
      have hs : syms = [] := by
        cases hp with
        | nil => rfl
        | one hl' =>
          have := hl'.split
          simp at this; exact absurd this hl'.nonempty
        | two hl' =>
          have := hl'.split
          simp at this; exact absurd this.1 hl'.nonempty
      have hk : k = known := by
        cases ha with
        | nil => rfl
        | one hl' => rfl
        | two hl' =>
          have := hl'.split
          simp at this; exact absurd this.1 hl'.nonempty
      subst hs hk
      refine ⟨[s, 65535], k, e'', .one hl, .one hl, hi', ht', ?_⟩
      simp only [zipDictRun, hn]
      exact (emits_symbol s).bind ((emits_symbol 65535).bind he)
    · have hlen : e'.input.rest.length < fuel := by
        have h2 := hl1.split
        have h3 := hl2.split
        have h4 := List.length_pos_iff.2 hl1.nonempty
        rw [h2, h3] at hf
        simp at hf; omega
      obtain ⟨syms, k, e'', hp, ha, hi', ht', he⟩ := ih hi (h1.learn _) (nextPair_tight h.wf ht hn) hlen
      refine ⟨s1 :: s2 :: syms, k, e'', .two hl1 hl2 hp, .two hl1 hl2 ha, hi', ht', ?_⟩
      simp only [zipDictRun, hn]
      exact (emits_symbol s1).bind ((emits_symbol s2).bind he)

attribute [local irreducible] DictEncoder.new in
/-- The encoder with statistics compared to the one without. -/
theorem zipDictEncodeStats_spec (chk : Bool) (input : List UInt8) :
    ∃ k nodes, After oneByteSeqs input k ∧ Counts (Inner k) nodes ∧
      (¬ (chk = true ∧ 2 ^ 31 ≤ nodes) → zipDictEncodeStats chk input = zipDictEncode input) ∧
      (chk = true ∧ 2 ^ 31 ≤ nodes → ∀ s, zipDictEncodeStats chk input s =
        match zipDictEncode input s with
        | (.ok _, s') => (.panic, s')
        | r => r) := by
  obtain ⟨e, he, hi, hin⟩ := encoder_new input
  have hr : e.input.rest = input := by simp [hin, Input.rest]
  obtain ⟨syms, k, e', hp, ha, hi', ht', hs⟩ := zipDictRun_spec (input.length + 1) hi hasOnes_refl (new_tight he)
    (by rw [hr]; omega)
  rw [hr] at hp ha
  have hcount : Counts (Inner k) e'.trie.count :=
    Counts.congr (fun p => ht'.inner (fun k => hi'.look' k) p) (Node.count_paths hi'.wf)
  have hrun : zipDictEncode input = (zipDictRun (input.length + 1) e >>= fun _ => pure ()) := by
    unfold zipDictEncode
    rw [he]
    exact zipDictLoop_run _ _
  have hst : zipDictEncodeStats chk input = (zipDictRun (input.length + 1) e >>= fun e =>
      match trieStats chk e.trie with
      | none => Proc.panic
      | some _ => pure ()) := by
    unfold zipDictEncodeStats
    rw [he]
    rfl
  have hcase : ∀ s, ∃ s', (zipDictRun (input.length + 1) e s = (.ok e', s')) ∨
      zipDictRun (input.length + 1) e s = (.err .io, s') := by
    intro s
    obtain ⟨n, ⟨-, h⟩ | ⟨-, -, p, kk, -, rfl, h⟩⟩ := hs s
    · exact ⟨_, .inl h⟩
    · exact ⟨_, .inr h⟩
  refine ⟨k, _, ha, hcount, fun hc => ?_, fun hc s => ?_⟩
  · rw [hst, hrun]
    funext s
    obtain ⟨s', h | h⟩ := hcase s
    · rw [Proc.bind_ok h, Proc.bind_ok h, trieStats_eq, if_neg hc]
    · rw [Proc.bind_err h, Proc.bind_err h]
  · rw [hst, hrun]
    obtain ⟨s', h | h⟩ := hcase s
    · rw [Proc.bind_ok h, Proc.bind_ok h, trieStats_eq, if_pos hc]
      rfl
    · rw [Proc.bind_err h, Proc.bind_err h]

/-! ## The number of nodes -/

/-- The sequences that are at least one byte longer than something. -/
def extras (known : List (List UInt8)) : Nat := (known.map fun k => k.length - 1).sum

theorem inner_le {known : List (List UInt8)} {n : Nat} (h : Counts (Inner known) n) : n ≤ 1 + extras known := by
  obtain ⟨l, h1, h2, rfl⟩ := h
  have := nodup_length_le h1 (l' := [] :: known.flatMap fun k => (List.range (k.length - 1)).map fun i => k.take (i + 1)) (by
    intro p hp
    rcases (h2 p).1 hp with rfl | ⟨k, hk, hpk, hne⟩
    · simp
    · cases p with
      | nil => simp
      | cons b p =>
        rw [List.mem_cons]
        right
        refine List.mem_flatMap.2 ⟨k, hk, List.mem_map.2 ⟨p.length, List.mem_range.2 ?_, ?_⟩⟩
        · have := hpk.length_le
          have : (b :: p).length ≠ k.length := fun e => hne (hpk.eq_of_length e)
          simp only [List.length_cons] at *
          omega
        · have := List.prefix_iff_eq_take.1 hpk
          rw [List.length_cons] at this
          exact this.symm)
  rw [List.length_cons, List.length_flatMap] at this
  simp only [List.length_map, List.length_range] at this
  unfold extras
  omega

theorem extras_learn_le (known : List (List UInt8)) (x : List UInt8) : extras (learn known x) ≤ extras known + (x.length - 1) := by
  unfold learn
  split
  · simp [extras]
  · omega

theorem Spec.After.extras {known i k} (h : After known i k) :
    Cniic.extras k ≤ Cniic.extras known ∨ Cniic.extras k + 1 ≤ Cniic.extras known + i.length := by
  induction h with
  | nil => exact .inl (Nat.le_refl _)
  | one _ => exact .inl (Nat.le_refl _)
  | @two known i s1 x1 i' s2 x2 i'' k h1 h2 _ ih =>
    right
    have p1 := List.length_pos_iff.2 h1.nonempty
    have e1 := congrArg List.length h1.split
    have e2 := congrArg List.length h2.split
    have hx := extras_learn_le known (x1 ++ x2)
    rw [List.length_append] at e1 e2 hx
    rcases ih with ih | ih <;> omega

theorem extras_ones : extras oneByteSeqs = 0 := by decide +kernel

/-! ## A constant input -/

theorem replicate_prefix_iff {b : UInt8} {k : List UInt8} {m : Nat} :
    k <+: List.replicate m b ↔ k = List.replicate k.length b ∧ k.length ≤ m := by
  constructor
  · intro h
    have h1 := List.prefix_iff_eq_take.1 h
    have h2 := h.length_le
    rw [List.length_replicate] at h2
    rw [List.take_replicate, Nat.min_eq_left h2] at h1
    exact ⟨h1, h2⟩
  · rintro ⟨h1, h2⟩
    rw [h1, List.prefix_iff_eq_take, List.length_replicate, List.take_replicate, Nat.min_eq_left h2]

theorem Spec.After.subset {known i k} (h : After known i k) : ∀ x ∈ known, x ∈ k := by
  induction h with
  | nil => exact fun _ h => h
  | one _ => exact fun _ h => h
  | two _ _ _ ih =>
    intro x hx
    apply ih
    unfold learn
    split
    · exact List.mem_append_left _ hx
    · exact hx

/-- While the input is one byte repeated, what is learned doubles. -/
theorem Spec.After.doubles {b : UInt8} (J : Nat) : ∀ {j m : Nat} {known k : List (List UInt8)},
    After known (List.replicate m b) k → j ≤ J → 2 ^ (J + 1) ≤ m + 2 ^ (j + 1) → known.length + J < 65535 + j →
    List.replicate (2 ^ j) b ∈ known → (∀ i, List.replicate i b ∈ known → i ≤ 2 ^ j) →
    List.replicate (2 ^ J) b ∈ k := by
  intro j
  generalize hd : J - j = d
  induction d generalizing j with
  | zero =>
    intro m known k h hj hm hl hin hmax
    obtain rfl : j = J := by omega
    exact h.subset _ hin
  | succ d ih =>
    intro m known k h hj hm hl hin hmax
    have hpow : 2 ^ (j + 2) ≤ 2 ^ (J + 1) := Nat.pow_le_pow_right (by omega) (by omega)
    have hp1 : 2 ^ (j + 1) = 2 * 2 ^ j := by rw [Nat.pow_succ]; omega
    have hp2 : 2 ^ (j + 2) = 4 * 2 ^ j := by rw [Nat.pow_succ, Nat.pow_succ]; omega
    have hp0 : 0 < 2 ^ j := Nat.two_pow_pos j
    -- the longest known sequence
    have long : ∀ {m' s x r}, 2 ^ j ≤ m' → Longest known (List.replicate m' b) s x r →
        x = List.replicate (2 ^ j) b ∧ r = List.replicate (m' - 2 ^ j) b := by
      intro m' s x r hm' hl
      obtain ⟨h1, h2⟩ := replicate_prefix_iff.1 ⟨r, hl.split.symm⟩
      have h3 : x.length ≤ 2 ^ j := hmax _ (by rw [← h1]; exact List.mem_of_getElem? hl.isKnown)
      have h4 := hl.longest _ hin (replicate_prefix_iff.2 ⟨by rw [List.length_replicate], by rw [List.length_replicate]; exact hm'⟩)
      rw [List.length_replicate] at h4
      have h5 : x.length = 2 ^ j := by omega
      rw [h5] at h1
      refine ⟨h1, ?_⟩
      have h6 := hl.split
      rw [show m' = 2 ^ j + (m' - 2 ^ j) by omega, ← List.replicate_append_replicate, h1] at h6
      exact (List.append_cancel_left h6).symm
    generalize hi : List.replicate m b = i at h
    cases h with
    | nil =>
      have := congrArg List.length hi
      rw [List.length_replicate] at this
      simp at this
      omega
    | one hl1 =>
      subst hi
      have := (long (by omega) hl1).2
      have := congrArg List.length this
      rw [List.length_replicate] at this
      simp at this
      omega
    | @two _ _ s1 x1 i' s2 x2 i'' _ h1 h2 h3 =>
      subst hi
      obtain ⟨rfl, rfl⟩ := long (by omega) h1
      obtain ⟨rfl, rfl⟩ := long (by omega) h2
      rw [List.replicate_append_replicate, show 2 ^ j + 2 ^ j = 2 ^ (j + 1) by omega] at h3
      have hlearn : learn known (List.replicate (2 ^ (j + 1)) b) = known ++ [List.replicate (2 ^ (j + 1)) b] := by
        unfold learn
        rw [if_pos (by omega)]
      rw [hlearn] at h3
      refine ih (j := j + 1) (by omega) h3 (by omega) ?_ ?_ ?_ ?_
      · rw [show j + 1 + 1 = j + 2 from rfl, hp2]
        omega
      · rw [List.length_append, List.length_singleton]
        omega
      · exact List.mem_append_right _ (by simp)
      · intro i hi
        rcases List.mem_append.1 hi with hi | hi
        · have := hmax i hi
          omega
        · have := congrArg List.length (List.mem_singleton.1 hi)
          rw [List.length_replicate, List.length_replicate] at this
          omega

theorem nodes_of_key {known : List (List UInt8)} {n m : Nat} {b : UInt8} (hc : Counts (Inner known) n)
    (hk : List.replicate m b ∈ known) : m ≤ n := by
  obtain ⟨l, h1, h2, rfl⟩ := hc
  have := nodup_length_le (l := (List.range m).map fun i => List.replicate i b) (l' := l) (by
    rw [List.nodup_iff_pairwise_ne, List.pairwise_map]
    refine (List.nodup_iff_pairwise_ne.1 List.nodup_range).imp ?_
    intro a c hac e
    have := congrArg List.length e
    rw [List.length_replicate, List.length_replicate] at this
    exact hac this) (by
    intro p hp
    obtain ⟨i, hi, rfl⟩ := List.mem_map.1 hp
    have hi := List.mem_range.1 hi
    refine (h2 _).2 (.inr ⟨_, hk, replicate_prefix_iff.2 ⟨by rw [List.length_replicate], by rw [List.length_replicate]; omega⟩, ?_⟩)
    intro e
    have := congrArg List.length e
    rw [List.length_replicate, List.length_replicate] at this
    omega)
  rw [List.length_map, List.length_range] at this
  exact this

theorem ones_max (b : UInt8) (i : Nat) (h : List.replicate i b ∈ oneByteSeqs) : i ≤ 2 ^ 0 := by
  obtain ⟨c, -, hc⟩ := List.mem_map.1 h
  have := congrArg List.length hc
  rw [List.length_replicate] at this
  simp at this
  omega

end Cniic
