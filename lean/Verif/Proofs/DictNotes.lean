import Verif.Model.DictNotes
import Verif.Spec.DictNotes
import Verif.Proofs.DictRun

/-! # Proofs: what the dictionary coder prints -/

namespace Cniic
open Spec

variable {T : Type}

/-! ## Sums over a content -/

namespace Content

/-- Sum over the entries, byte by byte. -/
def total (f : T → Nat) (c : Content T) : Nat := (allBytes.map fun b => ((c.get b).map f).getD 0).sum

theorem total_eq {c : Content T} (hc : c.WF) (f : T → Nat) : (c.entries.map f).sum = c.total f := by
  rw [((entries_perm hc).map f).sum_nat, total]
  generalize allBytes = l
  induction l with
  | nil => rfl
  | cons b l ih =>
    rw [List.filterMap_cons, List.map_cons, List.sum_cons, ← ih]
    cases c.get b <;> simp

theorem total_update {c c' : Content T} {b : UInt8} {v : T} (h : ∀ x, c'.get x = if x = b then some v else c.get x) (f : T → Nat) :
    c'.total f + ((c.get b).map f).getD 0 = c.total f + f v := by
  unfold total
  have hp := List.perm_cons_erase (mem_allBytes b)
  rw [(hp.map _).sum_nat, (hp.map fun b => ((c.get b).map f).getD 0).sum_nat, List.map_cons, List.map_cons, List.sum_cons,
    List.sum_cons]
  have : ((allBytes.erase b).map fun b => ((c'.get b).map f).getD 0) = (allBytes.erase b).map fun b => ((c.get b).map f).getD 0 := by
    apply List.map_congr_left
    intro x hx
    have hne : x ≠ b := by
      rintro rfl
      exact allBytes_nodup.not_mem_erase hx
    simp only [h, if_neg hne]
  rw [this, h, if_pos rfl]
  simp only [Option.map_some, Option.getD_some]
  omega

/-- How many bytes have an entry. -/
theorem entries_length {c : Content T} (hc : c.WF) : c.entries.length = c.total fun _ => 1 := by
  rw [← total_eq hc]
  generalize c.entries = l
  induction l with
  | nil => rfl
  | cons a l ih => rw [List.length_cons, List.map_cons, List.sum_cons, ih, Nat.add_comm]

/-- The format with an array. -/
def isFull : Content T → Bool
  | .part _ _ => false
  | .full _ => true

/-- The array is used from 65 entries on. -/
def Fit (c : Content T) : Prop := c.isFull = true ↔ 65 ≤ c.entries.length

theorem fit_new : (new : Content T).Fit := by simp [Fit, new, isFull, entries]

theorem fit_slots {c : Content T} (h : c.Fit) : 65 * c.slots ≤ 256 * c.entries.length := by
  cases c with
  | part ks vs => simp only [slots, entries]; omega
  | full d =>
    have := h.1 rfl
    simp only [slots]
    omega

theorem upsert_fit {c c' : Content T} (hc : c.WF) (hf : c.Fit) {b : UInt8} {v : T} {prev : Option T}
    (h : c.upsert b v = some (c', prev)) : c'.Fit ∧ c'.isFull.toNat = c.isFull.toNat + (c.converts b).toNat := by
  obtain ⟨c'', h1, h2, h3⟩ := upsert_spec hc b v
  rw [h] at h1
  obtain ⟨rfl, rfl⟩ := Prod.mk.inj (Option.some.inj h1)
  have hl := total_update h3 (fun _ => 1)
  rw [← entries_length h2, ← entries_length hc] at hl
  cases c with
  | full d =>
    have := hf.1 rfl
    simp only [upsert, Option.some.injEq, Prod.mk.injEq] at h
    obtain ⟨rfl, -⟩ := h
    refine ⟨⟨fun _ => ?_, fun _ => rfl⟩, rfl⟩
    cases hg : get (.full d) b <;> rw [hg] at hl <;> simp at hl <;> omega
  | part ks vs =>
    have hlt : vs.length < 65 := by
      apply Nat.lt_of_not_le
      intro hle
      cases hf.2 hle
    have e1 : (part ks vs).entries.length = vs.length := rfl
    rw [e1, get_part] at hl
    cases hfi : find ks b with
    | some i =>
      have hs := (assoc_set v hfi hc.1 b).2.1
      obtain ⟨w, hw⟩ := Option.isSome_iff_exists.1 hs
      rw [← (assoc_set v hfi hc.1 b).1, hw] at hl
      simp only [upsert, hfi] at h
      split at h
      · cases h
      · simp only [Option.some.injEq, Prod.mk.injEq] at h
        obtain ⟨rfl, -⟩ := h
        refine ⟨⟨fun h => (by cases h), fun h => ?_⟩, ?_⟩
        · simp at hl; omega
        · simp [isFull, converts, hfi]
    | none =>
      rw [assoc_not_mem (find_none hfi)] at hl
      simp only [Option.map_none, Option.getD_none] at hl
      by_cases ht : ks.length < threshold
      · simp only [upsert, hfi, if_pos ht, Option.some.injEq, Prod.mk.injEq] at h
        obtain ⟨rfl, -⟩ := h
        refine ⟨⟨fun h => (by cases h), fun h => ?_⟩, ?_⟩
        · have := hc.1
          simp only [threshold] at ht
          omega
        · simp [isFull, converts, hfi, ht]
      · simp only [upsert, hfi, if_neg ht, Option.some.injEq, Prod.mk.injEq] at h
        obtain ⟨rfl, -⟩ := h
        refine ⟨⟨fun _ => ?_, fun _ => rfl⟩, ?_⟩
        · have := hc.1
          simp only [threshold] at ht
          omega
        · simp [isFull, converts, hfi, ht]

theorem put_fit {c : Content T} (hc : c.WF) (hf : c.Fit) {b : UInt8} {w : T} (h : c.get b = some w) (v : T) :
    (c.put b v).Fit ∧ (c.put b v).isFull = c.isFull := by
  have hsame : (c.put b v).isFull = c.isFull := by
    cases c with
    | full d => rfl
    | part ks vs => simp only [put]; split <;> rfl
  obtain ⟨h2, h3⟩ := put_spec hc h v
  have hl := total_update h3 (fun _ => 1)
  rw [← entries_length h2, ← entries_length hc, h] at hl
  simp only [Option.map_some, Option.getD_some] at hl
  refine ⟨?_, hsame⟩
  unfold Fit
  rw [hsame, show (c.put b v).entries.length = c.entries.length by omega]
  exact hf

end Content

/-! ## Tries -/

namespace Node

/-- Every content has the format that its size asks for. -/
inductive Fitted : Node T → Prop
  | mk {n : Node T} : n.children.Fit → n.values.Fit → (∀ b c, n.children.get b = some c → Fitted c) → Fitted n

theorem fitted_new : Fitted (new : Node T) :=
  ⟨Content.fit_new, Content.fit_new, fun b c h => by simp [new, children, Content.new, Content.get_part, assoc] at h⟩

theorem fitted_reach {n : Node T} (hn : n.Fitted) {p : List UInt8} {m : Node T} (h : n.reach p = some m) : m.Fitted := by
  induction p generalizing n with
  | nil => cases h; exact hn
  | cons b p ih =>
    rw [Node.reach_cons] at h
    cases hb : n.children.get b with
    | none => rw [hb] at h; cases h
    | some c =>
      rw [hb] at h
      obtain ⟨-, -, hch⟩ := hn
      exact ih (hch b c hb) h

/-- The arrays at one node. -/
def own (n : Node T) : Nat := n.children.isFull.toNat + n.values.isFull.toNat

/-- All arrays. -/
def arrays (n : Node T) : Nat := ((dfs [n]).map own).sum

theorem arrays_eq {n : Node T} (hn : n.WF) : n.arrays = n.own + n.children.total arrays := by
  obtain ⟨hc, -, -⟩ := hn
  rw [← Content.total_eq hc]
  unfold arrays
  rw [dfs_cons, List.append_nil, List.map_cons, List.sum_cons,
    ((dfs_perm (List.reverse_perm n.children.entries)).map own).sum_nat, dfs_flatMap]
  congr 1
  generalize n.children.entries = l
  induction l with
  | nil => rfl
  | cons m l ih => rw [List.flatMap_cons, List.map_append, List.sum_append_nat, ih, List.map_cons, List.sum_cons]

theorem arrays_new : (new : Node T).arrays = 0 := by
  rw [arrays_eq wf_new]
  have : ∀ l : List UInt8, (l.map fun b => (((new : Node T).children.get b).map arrays).getD 0).sum = 0 := by
    intro l
    induction l with
    | nil => rfl
    | cons b l ih => simpa [new, children, Content.new, Content.get_part, assoc] using ih
  rw [Content.total, this]
  rfl

theorem ensure_fitted {n n' : Node T} (hn : n.WF) (hf : n.Fitted) {b : UInt8} (h : n.ensureChild b = some n') :
    n'.Fitted ∧ n'.arrays = n.arrays + n.ensureLines b := by
  obtain ⟨m, c, h1, hm, -, -⟩ := ensureChild_spec hn b
  rw [h] at h1
  cases h1
  have hn0 := hn
  obtain ⟨hc, hv, hch⟩ := hn
  obtain ⟨fc, fv, fch⟩ := hf
  cases hb : n.children.get b with
  | some d =>
    simp only [ensureChild, hb] at h
    cases h
    exact ⟨⟨fc, fv, fch⟩, by simp [ensureLines, hb]⟩
  | none =>
    obtain ⟨c', he, hc', hg⟩ := Content.upsert_spec hc b (new : Node T)
    obtain ⟨u1, u2⟩ := Content.upsert_fit hc fc he
    simp only [ensureChild, hb, he, Option.isNone_none, if_true, Option.some.injEq] at h
    subst h
    refine ⟨⟨u1, fv, ?_⟩, ?_⟩
    · intro x d hx
      rw [children_mk, hg] at hx
      split at hx
      · cases hx; exact fitted_new
      · exact fch x d hx
    · have ht := Content.total_update hg arrays
      rw [hb, arrays_new] at ht
      simp only [Option.map_none, Option.getD_none] at ht
      rw [arrays_eq hm, arrays_eq hn0]
      simp only [ensureLines, hb, own, children_mk, values_mk]
      omega

theorem insert_fitted {n n' : Node T} (hn : n.WF) (hf : n.Fitted) {k : List UInt8} (hk : k ≠ []) {v : T} {prev : Option T}
    (h : n.insert k v = some (n', prev)) : n'.Fitted ∧ n'.arrays = n.arrays + n.insertLines k := by
  obtain ⟨m, h1, hm, -⟩ := insert_spec hn hk v
  rw [h] at h1
  obtain ⟨rfl, -⟩ := Prod.mk.inj (Option.some.inj h1)
  clear h1
  induction k generalizing n n' prev with
  | nil => exact absurd rfl hk
  | cons b k ih =>
    cases k with
    | nil =>
      have hn0 := hn
      obtain ⟨hc, hv, hch⟩ := hn
      obtain ⟨fc, fv, fch⟩ := hf
      obtain ⟨vs, he, hvs, hg⟩ := Content.upsert_spec hv b v
      obtain ⟨u1, u2⟩ := Content.upsert_fit hv fv he
      simp only [insert, he, Option.some.injEq, Prod.mk.injEq] at h
      obtain ⟨rfl, -⟩ := h
      refine ⟨⟨fc, u1, fch⟩, ?_⟩
      rw [arrays_eq hm, arrays_eq hn0]
      simp only [insertLines, own, children_mk, values_mk]
      omega
    | cons b' r =>
      obtain ⟨n1, c, he, hn1, hget, -⟩ := ensureChild_spec hn b
      obtain ⟨f1, a1⟩ := ensure_fitted hn hf he
      have hn1' := hn1
      obtain ⟨hc, hv, hch⟩ := hn1
      obtain ⟨fc, fv, fch⟩ := f1
      obtain ⟨c', hi, hc', -⟩ := insert_spec (hch b c hget) (k := b' :: r) (by simp) v
      obtain ⟨i1, i2⟩ := ih (hch b c hget) (fch b c hget) (by simp) hi hc'
      obtain ⟨hp1, hp2⟩ := Content.put_spec hc hget c'
      obtain ⟨q1, q2⟩ := Content.put_fit hc fc hget c'
      simp only [insert, he, hget, hi, Option.some.injEq, Prod.mk.injEq] at h
      obtain ⟨rfl, -⟩ := h
      refine ⟨⟨q1, fv, ?_⟩, ?_⟩
      · intro x d hx
        rw [children_mk, hp2] at hx
        split at hx
        · cases hx; exact i1
        · exact fch x d hx
      · have ht := Content.total_update hp2 arrays
        rw [hget] at ht
        simp only [Option.map_some, Option.getD_some] at ht
        have e1 := arrays_eq hn1'
        rw [arrays_eq hm]
        simp only [insertLines, he, hget, own, children_mk, values_mk] at e1 ⊢
        rw [q2]
        omega

/-- The arrays, told from the keys. -/
theorem arrays_counts {n : Node T} (hn : n.WF) (hf : n.Fitted) (ht : n.Tight) {keys : List (List UInt8)}
    (hk : ∀ k, (descend n k).isSome = true ↔ k ∈ keys) :
    ∃ a c, Counts (Wide (· ∈ keys)) a ∧ Counts (Wide (Inner keys)) c ∧ n.arrays = a + c := by
  obtain ⟨l, h1, h2, h3⟩ := Node.paths hn
  have wide : ∀ {S : Type} (c : Content S), c.WF → c.Fit → ∀ (P : List UInt8 → Prop) p,
      (∀ b, (c.get b).isSome = true ↔ P (p ++ [b])) → (c.isFull = true ↔ Wide P p) := by
    intro S c hc hfit P p hP
    refine hfit.trans ?_
    rw [← Content.bytes_length hc]
    constructor
    · intro h
      exact ⟨c.bytes, allBytes_nodup.filter _, h, fun b hb => (hP b).1 (List.mem_filter.1 hb).2⟩
    · rintro ⟨bs, b1, b2, b3⟩
      refine Nat.le_trans b2 (nodup_length_le b1 fun b hb => ?_)
      exact List.mem_filter.2 ⟨mem_allBytes b, (hP b).2 (b3 b hb)⟩
  have key : ∀ (g : Node T → Bool) (P : List UInt8 → Prop), (∀ p m, n.reach p = some m → (g m = true ↔ Wide P p)) →
      (∀ p b, P (p ++ [b]) → (n.reach p).isSome = true) →
      Counts (Wide P) ((dfs [n]).map fun m => (g m).toNat).sum := by
    intro g P hg hP
    refine ⟨(l.filter fun x => g x.2).map Prod.fst, h2.sublist (List.filter_sublist.map _), fun p => ?_, ?_⟩
    · rw [List.mem_map]
      constructor
      · rintro ⟨⟨q, m⟩, hx, rfl⟩
        obtain ⟨x1, x2⟩ := List.mem_filter.1 hx
        exact (hg q m ((h3 q m).1 x1)).1 x2
      · intro hw
        have hw' := hw
        obtain ⟨bs, b1, b2, b3⟩ := hw
        cases bs with
        | nil => simp at b2
        | cons b bs =>
          obtain ⟨m, hm⟩ := Option.isSome_iff_exists.1 (hP p b (b3 b (by simp)))
          exact ⟨(p, m), List.mem_filter.2 ⟨(h3 p m).2 hm, (hg p m hm).2 hw'⟩, rfl⟩
    · rw [← (h1.map _).sum_nat, List.length_map, List.map_map]
      generalize l = l
      induction l with
      | nil => rfl
      | cons x l ih =>
        rw [List.map_cons, List.sum_cons, ← ih, List.filter_cons]
        simp only [Function.comp]
        cases g x.2 <;> simp <;> omega
  refine ⟨_, _, key (fun m => m.values.isFull) (· ∈ keys) ?_ ?_, key (fun m => m.children.isFull) (Inner keys) ?_ ?_, ?_⟩
  · intro p m hm
    obtain ⟨-, hv, -⟩ := wf_reach hn hm
    obtain ⟨-, fv, -⟩ := fitted_reach hf hm
    refine wide _ hv fv _ p fun b => ?_
    rw [← hk, descend_append, hm]
    rfl
  · intro p b h
    exact reach_of_descend ((hk _).2 h) (List.prefix_append _ _) (by simp)
  · intro p m hm
    obtain ⟨hc, -, -⟩ := wf_reach hn hm
    obtain ⟨fc, -, -⟩ := fitted_reach hf hm
    refine wide _ hc fc _ p fun b => ?_
    rw [← ht.inner hk, reach_append, hm, Option.bind_some, reach_cons]
    cases m.children.get b <;> rfl
  · intro p b h
    have := (ht.inner hk _).2 h
    rw [reach_append] at this
    cases hr : n.reach p with
    | none => rw [hr] at this; cases this
    | some m => rfl
  · unfold arrays
    generalize dfs [n] = d
    induction d with
    | nil => rfl
    | cons m d ih => simp only [List.map_cons, List.sum_cons, ih, own]; omega

end Node

/-! ## The encoder -/

theorem createSymbol_fitted {e e' : DictEncoder} {seq : List UInt8} (hw : e.trie.WF) (hf : e.trie.Fitted) (hs : seq ≠ [])
    (h : e.createSymbol seq = some e') : e'.trie.Fitted ∧ e'.trie.arrays = e.trie.arrays + e.createLines seq := by
  unfold DictEncoder.createSymbol at h
  unfold DictEncoder.createLines
  generalize abbrevNext e.abbrev_ = r at h
  obtain ⟨code, counter⟩ := r
  cases code with
  | none => cases h; exact ⟨hf, rfl⟩
  | some code =>
    simp only at h
    obtain ⟨n', h1, h2, -⟩ := Node.insert_spec hw hs code
    rw [h1] at h
    cases h
    exact Node.insert_fitted hw hf hs h1

theorem createAll_fitted {bs : List UInt8} {e e' : DictEncoder} (hw : e.trie.WF) (ht : e.trie.Tight) (hf : e.trie.Fitted)
    (h : e.createAll bs = some e') : e'.trie.Fitted ∧ e'.trie.arrays = e.trie.arrays + e.createAllLines bs := by
  induction bs generalizing e with
  | nil => cases h; exact ⟨hf, rfl⟩
  | cons b bs ih =>
    rw [DictEncoder.createAll] at h
    rw [DictEncoder.createAllLines]
    cases h1 : e.createSymbol [b] with
    | none => rw [h1] at h; cases h
    | some e1 =>
      rw [h1] at h
      obtain ⟨h2, h3⟩ := createSymbol_tight hw ht (by simp) h1
      obtain ⟨h4, h5⟩ := createSymbol_fitted hw hf (by simp) h1
      obtain ⟨h6, h7⟩ := ih h3 h2 h4 h
      exact ⟨h6, by simp only; omega⟩

attribute [local irreducible] allBytes in
theorem new_fitted {input : List UInt8} {e : DictEncoder} (h : DictEncoder.new input = some e) :
    e.trie.Fitted ∧
      e.trie.arrays = DictEncoder.createAllLines { input := ⟨[], input⟩, trie := .new, abbrev_ := 0 } allBytes := by
  unfold DictEncoder.new at h
  cases h1 : DictEncoder.createAll { input := ⟨[], input⟩, trie := .new, abbrev_ := 0 } allBytes with
  | none => rw [h1] at h; cases h
  | some e1 =>
    rw [h1] at h
    simp only at h
    split at h
    · cases h
      obtain ⟨h2, h3⟩ := createAll_fitted Node.wf_new Node.tight_new Node.fitted_new h1
      exact ⟨h2, by rw [h3, Node.arrays_new, Nat.zero_add]⟩
    · cases h

theorem nextPair_fitted {e e' : DictEncoder} {r : Ret Unit (Symbol × Symbol)} (hw : e.trie.WF) (hf : e.trie.Fitted)
    (h : e.nextPair = (r, e')) (hr : r ≠ .panic) :
    e'.trie.Fitted ∧ e'.trie.arrays = e.trie.arrays + e.nextPairLines := by
  unfold DictEncoder.nextPair at h
  unfold DictEncoder.nextPairLines
  have t1 := findSymbol_trie e
  generalize e.findSymbol = q at h t1
  obtain ⟨⟨s1, x1⟩, e1⟩ := q
  simp only at t1
  cases s1 with
  | none =>
    simp only at h
    split at h <;> cases h <;> rw [t1] <;> exact ⟨hf, rfl⟩
  | some s1 =>
    simp only at h
    split at h
    · rename_i hx
      cases h; rw [t1]; simp only [if_pos hx]; exact ⟨hf, rfl⟩
    · rename_i hx
      simp only [if_neg hx]
      have t2 := findSymbol_trie e1
      generalize e1.findSymbol = q at h t2
      obtain ⟨⟨s2, x2⟩, e2⟩ := q
      simp only at t2
      have t3 : e2.trie = e.trie := t2.trans t1
      cases s2 with
      | none =>
        simp only at h
        split at h <;> cases h <;> rw [t3] <;> exact ⟨hf, rfl⟩
      | some s2 =>
        simp only at h
        split at h
        · rename_i hx2
          cases h; rw [t3]; simp only [if_pos hx2]; exact ⟨hf, rfl⟩
        · rename_i hx2
          simp only [if_neg hx2]
          split at h
          · cases h; exact absurd rfl hr
          · rename_i e3 he3
            cases h
            rw [← t3]
            refine createSymbol_fitted (by rw [t3]; exact hw) (by rw [t3]; exact hf) ?_ he3
            intro hnil
            rw [(List.append_eq_nil_iff.1 hnil).1] at hx
            exact hx rfl

theorem zipDictLines_spec (fuel : Nat) {e : DictEncoder} {known : List (List UInt8)}
    (h : EncInv e known) (h1 : HasOnes known) (ht : e.trie.Tight) (hf : e.trie.Fitted) (hl : e.input.rest.length < fuel) :
    ∃ k e' lines, After known e.input.rest k ∧ EncInv e' k ∧ e'.trie.Tight ∧ e'.trie.Fitted ∧
      zipDictLines fuel e = some (lines, e') ∧ e'.trie.arrays = e.trie.arrays + lines := by
  induction fuel generalizing e known with
  | zero => omega
  | succ fuel ih =>
    rcases nextPair_spec h h1 with ⟨hr, e', hn, hi⟩ | ⟨s, x, e', hx, hn, hi, hr⟩ |
      ⟨s1, x1, i', s2, x2, e', hl1, hl2, hn, hi⟩
    · obtain ⟨f1, f2⟩ := nextPair_fitted h.wf hf hn (by simp)
      exact ⟨known, e', _, by rw [hr]; exact .nil, hi, nextPair_tight h.wf ht hn, f1, by simp only [zipDictLines, hn], f2⟩
    · obtain ⟨f1, f2⟩ := nextPair_fitted h.wf hf hn (by simp)
      have hpos : 0 < fuel := by
        have h2 := hx.split
        have := List.length_pos_iff.2 hx.nonempty
        rw [h2] at hl
        simp at hl; omega
      obtain ⟨k, e'', lines, ha, hi', ht', hf', he, hs⟩ := ih hi h1 (nextPair_tight h.wf ht hn) f1 (by rw [hr]; exact hpos)
      rw [hr] at ha
      have hk : k = known := by
        cases ha with
        | nil => rfl
        | one hl' => rfl
        | two hl' =>
          have := hl'.split
          simp at this; exact absurd this.1 hl'.nonempty
      subst hk
      exact ⟨k, e'', e.nextPairLines + lines, .one hx, hi', ht', hf', by simp only [zipDictLines, hn, he], by omega⟩
    · obtain ⟨f1, f2⟩ := nextPair_fitted h.wf hf hn (by simp)
      have hlen : e'.input.rest.length < fuel := by
        have h2 := hl1.split
        have h3 := hl2.split
        have h4 := List.length_pos_iff.2 hl1.nonempty
        rw [h2, h3] at hl
        simp at hl; omega
      obtain ⟨k, e'', lines, ha, hi', ht', hf', he, hs⟩ := ih hi (h1.learn _) (nextPair_tight h.wf ht hn) f1 hlen
      exact ⟨k, e'', e.nextPairLines + lines, .two hl1 hl2 ha, hi', ht', hf', by simp only [zipDictLines, hn, he], by omega⟩

/-! ## Densities -/

theorem Node.fitted_dfs {n : Node T} (hn : n.WF) (hf : n.Fitted) : ∀ m ∈ dfs [n], m.Fitted := by
  obtain ⟨l, hl1, -, hl3⟩ := Node.paths hn
  intro m hm
  obtain ⟨x, hx, rfl⟩ := List.mem_map.1 (hl1.mem_iff.2 hm)
  exact fitted_reach hf ((hl3 _ _).1 hx)

theorem sum_density {α : Type} (f g : α → Nat) (l : List α) (h : ∀ a ∈ l, 65 * f a ≤ 256 * g a) :
    65 * (l.map f).sum ≤ 256 * (l.map g).sum := by
  induction l with
  | nil => simp
  | cons a l ih =>
    have := h a (by simp)
    have := ih fun m hm => h m (by simp [hm])
    simp only [List.map_cons, List.sum_cons]
    omega

theorem Node.density {n : Node T} (hn : n.WF) (hf : n.Fitted) {chk : Bool} {st : TrieStats} (h : trieStats chk n = some st) :
    65 * st.totChildren ≤ 256 * st.usedChildren ∧ 65 * st.totValues ≤ 256 * st.usedValues := by
  rw [trieStats_eq] at h
  split at h
  · cases h
  · cases h
    simp only [statsOf, Nat.zero_add]
    constructor
    · refine sum_density _ _ _ fun m hm => ?_
      obtain ⟨h, -, -⟩ := fitted_dfs hn hf m hm
      exact Content.fit_slots h
    · refine sum_density _ _ _ fun m hm => ?_
      obtain ⟨-, h, -⟩ := fitted_dfs hn hf m hm
      exact Content.fit_slots h

/-! ## Short inputs -/

/-- The sequences of two or more bytes. -/
def longs (k : List (List UInt8)) : List (List UInt8) := k.filter fun x => decide (2 ≤ x.length)

theorem Spec.After.longs {known i k} (h : After known i k) : 2 * (Cniic.longs k).length ≤ 2 * (Cniic.longs known).length + i.length := by
  induction h with
  | nil => simp
  | one _ => omega
  | @two known i s1 x1 i' s2 x2 i'' k h1 h2 _ ih =>
    have p1 := List.length_pos_iff.2 h1.nonempty
    have p2 := List.length_pos_iff.2 h2.nonempty
    have e1 := congrArg List.length h1.split
    have e2 := congrArg List.length h2.split
    rw [List.length_append] at e1 e2
    have : (Cniic.longs (learn known (x1 ++ x2))).length ≤ (Cniic.longs known).length + 1 := by
      unfold learn
      split
      · rw [Cniic.longs, List.filter_append, List.length_append]
        have := List.length_filter_le (fun x : List UInt8 => decide (2 ≤ x.length)) [x1 ++ x2]
        rw [List.length_singleton] at this
        exact Nat.add_le_add_left this _
      · omega
    omega

theorem longs_ones : longs oneByteSeqs = [] := by decide +kernel

/-- A place with 65 or more entries, other than the values of the root, needs 65 sequences of two or more bytes. -/
theorem wide_longs {k : List (List UInt8)} {p : List UInt8} (h : Wide (Inner k) p ∨ Wide (· ∈ k) p ∧ p ≠ []) :
    65 ≤ (longs k).length := by
  rcases h with ⟨bs, b1, b2, b3⟩ | ⟨⟨bs, b1, b2, b3⟩, hp⟩
  · have hex : ∀ b ∈ bs, ∃ x ∈ longs k, p ++ [b] <+: x := by
      intro b hb
      rcases b3 b hb with h | ⟨x, x1, x2, x3⟩
      · simp at h
      · refine ⟨x, List.mem_filter.2 ⟨x1, ?_⟩, x2⟩
        have := x2.length_le
        have : (p ++ [b]).length ≠ x.length := fun e => x3 (x2.eq_of_length e)
        rw [List.length_append, List.length_singleton] at *
        simp only [decide_eq_true_eq]
        omega
    have := nodup_length_le (l := bs) (l' := (longs k).filterMap fun x => x[p.length]?) b1 (by
      intro b hb
      obtain ⟨x, x1, y, rfl⟩ := hex b hb
      exact List.mem_filterMap.2 ⟨_, x1, by simp⟩)
    have := List.length_filterMap_le (fun x : List UInt8 => x[p.length]?) (longs k)
    omega
  · have := nodup_length_le (l := bs.map fun b => p ++ [b]) (l' := longs k) (by
      rw [List.nodup_iff_pairwise_ne, List.pairwise_map]
      refine (List.nodup_iff_pairwise_ne.1 b1).imp ?_
      intro a c hac e
      exact hac (by simpa using e)) (by
      intro x hx
      obtain ⟨b, hb, rfl⟩ := List.mem_map.1 hx
      refine List.mem_filter.2 ⟨b3 b hb, ?_⟩
      have := List.length_pos_iff.2 hp
      rw [List.length_append, List.length_singleton]
      simp only [decide_eq_true_eq]
      omega)
    rw [List.length_map] at this
    omega

end Cniic
