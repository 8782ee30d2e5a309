import Verif.Model.DictDrop
import Verif.Proofs.DictRun

/-!
# Freeing a trie (C88)

The keys of the dictionary coder can be half as long as its input, and the trie is as deep; it is freed without nested calls.
-/

namespace Cniic
open Spec

attribute [local irreducible] DictEncoder.new

variable {T : Type}

theorem Node.taken_children (n : Node T) : n.taken.children.entries = [] := by
  obtain ⟨c, v⟩ := n
  cases c with
  | part ks vs => rfl
  | full d => simp [Node.taken, Content.taken, Content.entries, Node.children]

theorem dropLoop_eq (st : List (Node T)) : dropLoop st = (dfs st).map Node.taken := by
  induction st using dfs_induction with
  | nil => rw [dropLoop, dfs_nil]; rfl
  | cons n st ih =>
    rw [dropLoop, dfs_cons, List.map_cons, ← ih]
    rfl

theorem dropTrie_perm (n : Node T) : (dropTrie n).Perm ((dfs [n]).map Node.taken) := by
  rw [dropTrie, dropLoop_eq, dfs_cons, List.map_cons]
  exact List.perm_append_comm

theorem Content.mem_entries {S : Type} {c : Content S} (hc : c.WF) (v : S) : v ∈ c.entries ↔ ∃ b, c.get b = some v := by
  rw [(Content.entries_perm hc).mem_iff, List.mem_filterMap]
  constructor
  · rintro ⟨b, -, h⟩
    exact ⟨b, h⟩
  · rintro ⟨b, h⟩
    exact ⟨b, mem_allBytes b, h⟩

theorem nested_iff {n : Node T} (hn : n.WF) (d : Nat) : Nested n d ↔ ∃ p, (n.reach p).isSome = true ∧ p.length + 1 = d := by
  constructor
  · intro h
    induction h with
    | self n => exact ⟨[], rfl, rfl⟩
    | @child n c d hc _ ih =>
      obtain ⟨h1, -, h3⟩ := hn
      obtain ⟨b, hb⟩ := (Content.mem_entries h1 c).1 hc
      obtain ⟨p, e1, e2⟩ := ih (h3 b c hb)
      refine ⟨b :: p, ?_, by simp [e2]⟩
      rw [Node.reach_cons, hb]
      exact e1
  · rintro ⟨p, h1, rfl⟩
    induction p generalizing n with
    | nil => exact .self n
    | cons b p ih =>
      obtain ⟨k1, -, k3⟩ := hn
      rw [Node.reach_cons] at h1
      cases hb : n.children.get b with
      | none => rw [hb] at h1; cases h1
      | some c =>
        rw [hb] at h1
        exact .child ((Content.mem_entries k1 c).2 ⟨b, hb⟩) (ih (k3 b c hb) h1)

/-- **C88.** Whatever was inserted into a trie, dropping it drops every node exactly once (`l` lists the nodes with the sequences
that lead to them), with all its values and without its children, so that no two calls are nested. -/
theorem C88_drop {T : Type} (hist : List (List UInt8 × T)) (hk : ∀ e ∈ hist, e.1 ≠ []) :
    ∃ n, insertHistory hist = some n ∧ (∀ m ∈ dropTrie n, ∀ d, Nested m d → d = 1) ∧
      ∃ l : List (List UInt8 × Node T), (dropTrie n).Perm (l.map fun e => e.2.taken) ∧
        (∀ e ∈ l, e.2.taken.values = e.2.values) ∧ (l.map Prod.fst).Nodup ∧
        ∀ p, p ∈ l.map Prod.fst ↔ Inner (hist.map Prod.fst) p := by
  obtain ⟨n, h1, h2, h3, h4⟩ := insertHistory_spec hk
  refine ⟨n, h1, fun m hm d hd => ?_, ?_⟩
  · obtain ⟨m', -, rfl⟩ := List.mem_map.1 ((dropTrie_perm n).mem_iff.1 hm)
    cases hd with
    | self => rfl
    | child hc _ =>
      rw [Node.taken_children] at hc
      cases hc
  · obtain ⟨l, e1, e2, e3⟩ := Node.paths h2
    refine ⟨l, ?_, fun _ _ => rfl, e2, fun p => ?_⟩
    · refine (dropTrie_perm n).trans ?_
      have := (e1.map Node.taken).symm
      rwa [List.map_map] at this
    · rw [← h3.inner h4 p, List.mem_map]
      constructor
      · rintro ⟨⟨q, m⟩, h, rfl⟩
        rw [(e3 q m).1 h]
        rfl
      · intro h
        cases hr : n.reach p with
        | none => rw [hr] at h; cases h
        | some m => exact ⟨(p, m), (e3 p m).2 hr, rfl⟩

/-- **C88.** Without that, calls would be nested as deep as the longest key is long. -/
theorem C88_depth {T : Type} (hist : List (List UInt8 × T)) (hk : ∀ e ∈ hist, e.1 ≠ []) (hne : hist ≠ []) :
    ∃ n, insertHistory hist = some n ∧ ∀ d, Nested n d ↔ 0 < d ∧ ∃ e ∈ hist, d ≤ e.1.length := by
  obtain ⟨n, h1, h2, h3, h4⟩ := insertHistory_spec hk
  refine ⟨n, h1, fun d => ?_⟩
  rw [nested_iff h2]
  constructor
  · rintro ⟨p, hp, rfl⟩
    refine ⟨by omega, ?_⟩
    rcases (h3.inner h4 p).1 hp with rfl | ⟨k, hk', hpre, hneq⟩
    · obtain ⟨e, he⟩ := List.exists_mem_of_ne_nil hist hne
      have := List.length_pos_iff.2 (hk e he)
      exact ⟨e, he, by rw [List.length_nil]; omega⟩
    · obtain ⟨e, he, rfl⟩ := List.mem_map.1 hk'
      refine ⟨e, he, ?_⟩
      have := hpre.length_le
      have : p.length ≠ e.1.length := fun h => hneq (hpre.eq_of_length h)
      omega
  · rintro ⟨hd, e, he, hle⟩
    refine ⟨e.1.take (d - 1), (h3.inner h4 _).2 (.inr ⟨e.1, List.mem_map_of_mem he, List.take_prefix _ _, fun h => ?_⟩), ?_⟩
    · have := congrArg List.length h
      rw [List.length_take] at this
      omega
    · rw [List.length_take]
      omega

/-- **C88**, the dictionary coder: when `n` equal bytes are encoded, `2^(j+1) ≤ n + 2`, the trie would lead to 2^j nested calls;
dropped as it is, to none. -/
theorem C88_encoder (b : UInt8) (n j : Nat) (h : 2 ^ (j + 1) ≤ n + 2) (hj : j < 65279) :
    ∃ e0 e bytes, DictEncoder.new (List.replicate n b) = some e0 ∧
      Emits Emits.errOnly (zipDictRun (n + 1) e0) bytes e ∧ Nested e.trie (2 ^ j) ∧
      ∀ m ∈ dropTrie e.trie, ∀ d, Nested m d → d = 1 := by
  obtain ⟨e, he, hi, hin⟩ := encoder_new (List.replicate n b)
  have hr : e.input.rest = List.replicate n b := by simp [hin, Input.rest]
  obtain ⟨syms, k, e', hp, ha, hi', ht', hs⟩ := zipDictRun_spec (n + 1) hi hasOnes_refl (new_tight he)
    (by rw [hr, List.length_replicate]; omega)
  rw [hr] at hp ha
  refine ⟨e, e', _, he, hs, ?_, fun m hm d hd => ?_⟩
  · have hlen : oneByteSeqs.length = 256 := by simp [oneByteSeqs]
    have hkey : List.replicate (2 ^ j) b ∈ k := ha.doubles j (j := 0) (Nat.zero_le _) (by simpa using h) (by omega)
      (hasOnes_refl.mem b) (ones_max b)
    have hpos := Nat.two_pow_pos j
    refine (nested_iff hi'.wf _).2 ⟨List.replicate (2 ^ j - 1) b, ?_, by rw [List.length_replicate]; omega⟩
    refine (ht'.inner (fun k => hi'.look' k) _).2 (.inr ⟨_, hkey, ?_, fun h => ?_⟩)
    · exact replicate_prefix_iff.2 ⟨by rw [List.length_replicate], by rw [List.length_replicate]; omega⟩
    · have := congrArg List.length h
      rw [List.length_replicate, List.length_replicate] at this
      omega
  · obtain ⟨m', -, rfl⟩ := List.mem_map.1 ((dropTrie_perm _).mem_iff.1 hm)
    cases hd with
    | self => rfl
    | child hc _ =>
      rw [Node.taken_children] at hc
      cases hc

/-! ## Concrete cases -/

/-- C88: the values of the nodes, in the order in which they are dropped; the root is the last. -/
example : (insertHistory [([9], 'e'), ([7, 7], 'd'), ([1, 2, 3], 'c'), ([1, 2], 'b'), ([1, 2, 3], 'a')]).map
    (fun n => (dropTrie n).map fun m => m.values.entries) = some [['d'], ['b'], ['c'], ['e']] := by
  rw [show insertHistory [([9], 'e'), ([7, 7], 'd'), ([1, 2, 3], 'c'), ([1, 2], 'b'), ([1, 2, 3], 'a')] =
    some (.mk (.part [1, 7]
      [.mk (.part [2] [.mk (.part [] []) (.part [3] ['c'])]) (.part [2] ['b']), .mk (.part [] []) (.part [7] ['d'])])
      (.part [9] ['e'])) from rfl]
  simp [dropTrie, handleChildren, dropLoop, Node.taken, Content.taken, Content.entries, Node.children, Node.values]

/-- C88: the calls that the same trie would lead to. -/
example : ∃ n, insertHistory [([9], 'e'), ([7, 7], 'd'), ([1, 2, 3], 'c'), ([1, 2], 'b'), ([1, 2, 3], 'a')] = some n ∧
    Nested n 3 ∧ ¬ Nested n 4 := by
  obtain ⟨n, h1, h2⟩ := C88_depth [([9], 'e'), ([7, 7], 'd'), ([1, 2, 3], 'c'), ([1, 2], 'b'), ([1, 2, 3], 'a')] (by decide)
    (by decide)
  exact ⟨n, h1, (h2 3).2 (by decide), fun h => absurd ((h2 4).1 h) (by decide)⟩

/-- C88: a million equal bytes. -/
example : ∃ e0 e bytes, DictEncoder.new (List.replicate 1048574 7) = some e0 ∧
    Emits Emits.errOnly (zipDictRun (1048574 + 1) e0) bytes e ∧ Nested e.trie (2 ^ 19) ∧
    ∀ m ∈ dropTrie e.trie, ∀ d, Nested m d → d = 1 := C88_encoder 7 1048574 19 (by decide) (by decide)

end Cniic
