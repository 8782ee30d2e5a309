import Verif.Model.DictStats
import Verif.Spec.DictStats
import Verif.Proofs.ZipDict

/-! # Proofs: statistics on the trie -/

namespace Cniic
open Spec

variable {T : Type}

/-! ## The search visits every node once -/

/-- The nodes in the order of the visit. -/
def dfs : List (Node T) → List (Node T)
  | [] => []
  | n :: stack => n :: dfs (n.children.entries.reverse ++ stack)
termination_by stack => (stack.map Node.count).sum
decreasing_by
  simp only [List.map_append, List.map_reverse, List.sum_append_nat, List.sum_reverse, List.map_cons, List.sum_cons]
  rw [Node.count_eq n]
  omega

theorem dfs_nil : dfs ([] : List (Node T)) = [] := by rw [dfs]

theorem dfs_cons (n : Node T) (st : List (Node T)) : dfs (n :: st) = n :: dfs (n.children.entries.reverse ++ st) := by
  rw [dfs]

/-- Induction along the visit. -/
theorem dfs_induction {P : List (Node T) → Prop} (nil : P [])
    (cons : ∀ n st, P (n.children.entries.reverse ++ st) → P (n :: st)) (st : List (Node T)) : P st := by
  have : ∀ k (st : List (Node T)), (st.map Node.count).sum ≤ k → P st := by
    intro k
    induction k with
    | zero =>
      intro st h
      cases st with
      | nil => exact nil
      | cons n st =>
        rw [List.map_cons, List.sum_cons, Node.count_eq] at h
        omega
    | succ k ih =>
      intro st h
      cases st with
      | nil => exact nil
      | cons n st =>
        rw [List.map_cons, List.sum_cons, Node.count_eq] at h
        refine cons n st (ih _ ?_)
        simp only [List.map_append, List.map_reverse, List.sum_append_nat, List.sum_reverse]
        omega
  exact this _ st (Nat.le_refl _)

theorem dfs_append (a b : List (Node T)) : dfs (a ++ b) = dfs a ++ dfs b := by
  induction a using dfs_induction with
  | nil => simp [dfs_nil]
  | cons n st ih =>
    rw [List.cons_append, dfs_cons, dfs_cons, ← List.append_assoc, ih]
    rfl

theorem dfs_flatMap (l : List (Node T)) : dfs l = l.flatMap fun n => dfs [n] := by
  induction l with
  | nil => rw [dfs_nil]; rfl
  | cons n l ih =>
    rw [show n :: l = [n] ++ l from rfl, dfs_append, ih]
    rfl

theorem dfs_perm {a b : List (Node T)} (h : a.Perm b) : (dfs a).Perm (dfs b) := by
  rw [dfs_flatMap a, dfs_flatMap b]
  exact h.flatMap_right _

theorem dfs_length (st : List (Node T)) : (dfs st).length = (st.map Node.count).sum := by
  induction st using dfs_induction with
  | nil => rw [dfs_nil]; rfl
  | cons n st ih =>
    rw [dfs_cons, List.length_cons, ih, List.map_cons, List.sum_cons, Node.count_eq n]
    simp only [List.map_append, List.map_reverse, List.sum_append_nat, List.sum_reverse]
    omega

/-- All nodes but the first ones are children. -/
theorem dfs_children (st : List (Node T)) :
    ((dfs st).map fun n => n.children.entries.length).sum + st.length = (dfs st).length := by
  induction st using dfs_induction with
  | nil => rw [dfs_nil]; rfl
  | cons n st ih =>
    rw [dfs_cons, List.map_cons, List.sum_cons, List.length_cons, List.length_cons]
    rw [List.length_append, List.length_reverse] at ih
    omega

/-! ## The counters -/

/-- The counters after a visit that is not interrupted. -/
def statsOf (m : Nat) (st : TrieStats) (nodes : List (Node T)) : TrieStats where
  nodeCount := Int32.ofNat (m + nodes.length)
  usedChildren := st.usedChildren + (nodes.map fun n => n.children.entries.length).sum
  totChildren := st.totChildren + (nodes.map fun n => n.children.slots).sum
  usedValues := st.usedValues + (nodes.map fun n => n.values.entries.length).sum
  totValues := st.totValues + (nodes.map fun n => n.values.slots).sum

theorem statsLoop_eq (chk : Bool) (stack : List (Node T)) : ∀ (m : Nat) (st : TrieStats), st.nodeCount = Int32.ofNat m →
    m < 2 ^ 31 ∨ chk = false →
    statsLoop chk stack st =
      if chk = true ∧ 2 ^ 31 ≤ m + (dfs stack).length then none else some (statsOf m st (dfs stack)) := by
  induction stack using dfs_induction with
  | nil =>
    intro m st hm hc
    rw [statsLoop, dfs_nil, if_neg]
    · simp [statsOf, hm.symm]
    · simp only [List.length_nil, Nat.add_zero]
      rintro ⟨h1, h2⟩
      rcases hc with hc | hc
      · omega
      · rw [hc] at h1; cases h1
  | cons n stack ih =>
    intro m st hm hc
    rw [statsLoop, hm, dfs_cons]
    have hno : ¬ (chk = true ∧ m = 2 ^ 31 - 1) → i32Succ chk (Int32.ofNat m) = some (Int32.ofNat (m + 1)) := by
      intro hne
      unfold i32Succ
      rw [if_neg, i32_succ_ofNat]
      intro h
      rw [Bool.and_eq_true, beq_iff_eq] at h
      rcases hc with hc | hc
      · exact hne ⟨h.1, (i32_max hc).1 h.2⟩
      · rw [hc] at h; cases h.1
    by_cases hmax : chk = true ∧ m = 2 ^ 31 - 1
    · have : i32Succ chk (Int32.ofNat m) = none := by
        unfold i32Succ
        rw [if_pos]
        rw [Bool.and_eq_true, beq_iff_eq]
        exact ⟨hmax.1, (i32_max (by omega)).2 hmax.2⟩
      rw [this]
      dsimp only
      rw [if_pos]
      refine ⟨hmax.1, ?_⟩
      rw [List.length_cons]
      omega
    · rw [hno hmax]
      dsimp only
      rw [ih (m + 1) _ rfl (by
        rcases hc with hc | hc
        · by_cases h : m = 2 ^ 31 - 1
          · right
            cases chk with
            | false => rfl
            | true => exact absurd ⟨rfl, h⟩ hmax
          · left; omega
        · exact .inr hc)]
      rw [List.length_cons, show m + 1 + (dfs (n.children.entries.reverse ++ stack)).length =
        m + ((dfs (n.children.entries.reverse ++ stack)).length + 1) from by omega]
      congr 2
      simp only [statsOf, List.map_cons, List.sum_cons, List.length_cons, TrieStats.mk.injEq]
      refine ⟨?_, ?_, ?_, ?_, ?_⟩ <;> first | omega | (congr 1; omega)

theorem trieStats_eq (chk : Bool) (n : Node T) : trieStats chk n =
    if chk = true ∧ 2 ^ 31 ≤ n.count then none else some (statsOf 0 ⟨0, 0, 0, 0, 0⟩ (dfs [n])) := by
  unfold trieStats
  rw [statsLoop_eq chk [n] 0 _ rfl (by omega), dfs_length]
  simp

/-! ## Nodes and sequences -/

theorem filterMap_ext {α β : Type} {f g : α → Option β} {l : List α} (h : ∀ a ∈ l, f a = g a) :
    l.filterMap f = l.filterMap g := by
  induction l with
  | nil => rfl
  | cons a l ih => rw [List.filterMap_cons, List.filterMap_cons, h a (by simp), ih fun b hb => h b (by simp [hb])]

namespace Content

theorem filterMap_assoc {ks : List UInt8} {vs : List T} (hn : ks.Nodup) (hl : ks.length = vs.length) :
    ks.filterMap (assoc ks vs) = vs := by
  induction ks generalizing vs with
  | nil =>
    cases vs with
    | nil => rfl
    | cons v vs => simp at hl
  | cons k ks ih =>
    cases vs with
    | nil => simp at hl
    | cons v vs =>
      rw [List.nodup_cons] at hn
      rw [List.filterMap_cons]
      simp only [assoc, if_true]
      congr 1
      refine Eq.trans (filterMap_ext fun b hb => ?_) (ih hn.2 (by simpa using hl))
      rw [if_neg]
      rintro rfl
      exact hn.1 hb

/-- The entries are the values of the keys. -/
theorem entries_perm {c : Content T} (hc : c.WF) : c.entries.Perm (allBytes.filterMap c.get) := by
  cases c with
  | full d => exact .refl _
  | part ks vs =>
    have h1 : allBytes.filterMap (get (.part ks vs)) = (allBytes.filter (· ∈ ks)).filterMap (assoc ks vs) := by
      rw [List.filterMap_filter]
      apply filterMap_ext
      intro b _
      rw [get_part]
      split
      · rfl
      · next h => exact assoc_not_mem (by simpa using h)
    rw [h1]
    show vs.Perm _
    refine List.Perm.trans (.of_eq (filterMap_assoc hc.2 hc.1).symm) (List.Perm.filterMap _ ?_)
    rw [List.perm_ext_iff_of_nodup hc.2 (allBytes_nodup.filter _)]
    intro b
    simp [mem_allBytes]

end Content

/-- Following a byte string downwards. -/
def Node.reach : Node T → List UInt8 → Option (Node T)
  | n, [] => some n
  | n, b :: p =>
    match n.children.get b with
    | none => none
    | some c => c.reach p

theorem Node.reach_cons (n : Node T) (b : UInt8) (p : List UInt8) :
    n.reach (b :: p) = (n.children.get b).bind fun c => c.reach p := by
  rw [Node.reach]
  cases n.children.get b <;> rfl

/-- The nodes with the byte strings that lead to them. -/
theorem Node.paths {n : Node T} (hn : n.WF) :
    ∃ l : List (List UInt8 × Node T), (l.map Prod.snd).Perm (dfs [n]) ∧ (l.map Prod.fst).Nodup ∧
      ∀ p m, (p, m) ∈ l ↔ n.reach p = some m := by
  induction hn with
  | @mk n hc hv hch ih =>
    have below : ∀ bs : List UInt8, bs.Nodup → ∃ l : List (List UInt8 × Node T),
        (l.map Prod.snd).Perm (dfs (bs.filterMap n.children.get)) ∧ (l.map Prod.fst).Nodup ∧
        ∀ p m, (p, m) ∈ l ↔ ∃ b q, b ∈ bs ∧ p = b :: q ∧ n.reach p = some m := by
      intro bs
      induction bs with
      | nil => intro _; exact ⟨[], by rw [List.filterMap_nil, dfs_nil]; exact .refl _, by simp, by simp⟩
      | cons b bs ih' =>
        intro hnd
        rw [List.nodup_cons] at hnd
        obtain ⟨l, h1, h2, h3⟩ := ih' hnd.2
        cases hb : n.children.get b with
        | none =>
          refine ⟨l, ?_, h2, fun p m => ?_⟩
          · rw [List.filterMap_cons, hb]
            exact h1
          · rw [h3]
            constructor
            · rintro ⟨b', q, k1, k2⟩
              exact ⟨b', q, by simp [k1], k2⟩
            · rintro ⟨b', q, k1, rfl, k3⟩
              rcases List.mem_cons.1 k1 with rfl | k1
              · rw [Node.reach_cons, hb] at k3
                cases k3
              · exact ⟨b', q, k1, rfl, k3⟩
        | some c =>
          obtain ⟨lc, c1, c2, c3⟩ := ih b c hb
          refine ⟨lc.map (fun x => (b :: x.1, x.2)) ++ l, ?_, ?_, fun p m => ?_⟩
          · rw [List.filterMap_cons, hb, List.map_append, List.map_map]
            show List.Perm _ (dfs ([c] ++ bs.filterMap n.children.get))
            rw [dfs_append]
            exact List.Perm.append c1 h1
          · rw [List.map_append, List.map_map, List.nodup_append]
            refine ⟨?_, h2, ?_⟩
            · have : (lc.map (Prod.fst ∘ fun x : List UInt8 × Node T => (b :: x.1, x.2))) =
                  (lc.map Prod.fst).map (b :: ·) := by simp [List.map_map, Function.comp_def]
              rw [this]
              unfold List.Nodup
              rw [List.pairwise_map]
              exact List.Pairwise.imp (fun h e => h (List.cons.inj e).2) c2
            · intro a ha d hd e
              subst e
              simp only [List.mem_map, Function.comp_apply, Prod.exists] at ha hd
              obtain ⟨q, m, -, rfl⟩ := ha
              obtain ⟨q', m', hd, hq⟩ := hd
              obtain ⟨b', q'', k1, k2, -⟩ := (h3 q' m').1 hd
              rw [k2] at hq
              exact hnd.1 ((List.cons.inj hq).1 ▸ k1)
          · rw [List.mem_append, h3]
            constructor
            · rintro (h | ⟨b', q, k1, k2⟩)
              · simp only [List.mem_map, Prod.exists, Prod.mk.injEq] at h
                obtain ⟨q, m', h, rfl, rfl⟩ := h
                refine ⟨b, q, by simp, rfl, ?_⟩
                rw [Node.reach_cons, hb]
                exact (c3 q m').1 h
              · exact ⟨b', q, by simp [k1], k2⟩
            · rintro ⟨b', q, k1, rfl, k3⟩
              rcases List.mem_cons.1 k1 with rfl | k1
              · left
                rw [Node.reach_cons, hb] at k3
                exact List.mem_map.2 ⟨(q, m), (c3 q m).2 k3, rfl⟩
              · exact .inr ⟨b', q, k1, rfl, k3⟩
    obtain ⟨l, h1, h2, h3⟩ := below allBytes allBytes_nodup
    refine ⟨([], n) :: l, ?_, ?_, fun p m => ?_⟩
    · rw [dfs_cons, List.map_cons, List.append_nil]
      refine List.Perm.cons _ (h1.trans (dfs_perm ?_))
      exact (Content.entries_perm hc).symm.trans (List.reverse_perm _).symm
    · rw [List.map_cons, List.nodup_cons]
      refine ⟨fun h => ?_, h2⟩
      obtain ⟨⟨p, m⟩, hx, hp⟩ := List.mem_map.1 h
      obtain ⟨b, q, -, k, -⟩ := (h3 p m).1 hx
      rw [show p = [] from hp] at k
      cases k
    · rw [List.mem_cons, h3]
      cases p with
      | nil => simp [Node.reach, eq_comm]
      | cons b q =>
        constructor
        · rintro (h | ⟨_, _, _, _, h⟩)
          · cases h
          · exact h
        · intro h
          exact .inr ⟨b, q, mem_allBytes b, rfl, h⟩

/-- A sequence has a value if the node of all but its last byte has one for that byte. -/
theorem descend_append (n : Node T) (p : List UInt8) (b : UInt8) :
    descend n (p ++ [b]) = (n.reach p).bind fun m => m.values.get b := by
  induction p generalizing n with
  | nil => rfl
  | cons a p ih =>
    rw [Node.reach_cons]
    cases p with
    | nil =>
      show descend n [a, b] = _
      rw [Node.descend_cons]
      cases n.children.get a with
      | none => rfl
      | some c => exact ih c
    | cons a' p =>
      rw [List.cons_append, List.cons_append, Node.descend_cons]
      cases n.children.get a with
      | none => rfl
      | some c => exact ih c

theorem counts_unique {α : Type} {P : α → Prop} {a b : Nat} (ha : Counts P a) (hb : Counts P b) : a = b := by
  obtain ⟨l, h1, h2, rfl⟩ := ha
  obtain ⟨l', k1, k2, rfl⟩ := hb
  exact ((List.perm_ext_iff_of_nodup h1 k1).2 fun x => (h2 x).trans (k2 x).symm).length_eq

theorem Node.count_paths {n : Node T} (hn : n.WF) : Counts (fun p => (n.reach p).isSome = true) n.count := by
  obtain ⟨l, h1, h2, h3⟩ := Node.paths hn
  refine ⟨l.map Prod.fst, h2, fun p => ?_, ?_⟩
  · rw [List.mem_map]
    show _ ↔ (n.reach p).isSome = true
    rw [Option.isSome_iff_exists]
    constructor
    · rintro ⟨⟨q, m⟩, k1, rfl⟩
      exact ⟨m, (h3 q m).1 k1⟩
    · rintro ⟨m, hm⟩
      exact ⟨(p, m), (h3 p m).2 hm, rfl⟩
  · have := h1.length_eq
    rw [List.length_map, dfs_length] at this
    rw [List.length_map, this]
    simp

/-- The bytes that have a value. -/
def Content.bytes (c : Content T) : List UInt8 := allBytes.filter fun b => (c.get b).isSome

theorem Content.bytes_length {c : Content T} (hc : c.WF) : c.bytes.length = c.entries.length := by
  rw [(Content.entries_perm hc).length_eq, Content.bytes]
  generalize allBytes = l
  induction l with
  | nil => rfl
  | cons b l ih =>
    rw [List.filter_cons, List.filterMap_cons]
    cases c.get b <;> simp [ih]

theorem Node.wf_reach {n : Node T} (hn : n.WF) {p : List UInt8} {m : Node T} (h : n.reach p = some m) : m.WF := by
  induction p generalizing n with
  | nil => cases h; exact hn
  | cons b p ih =>
    rw [Node.reach_cons] at h
    cases hb : n.children.get b with
    | none => rw [hb] at h; cases h
    | some c =>
      rw [hb] at h
      obtain ⟨-, -, hch⟩ := hn
      exact ih (hch b c hb) h

/-- The entries for values are the sequences. -/
theorem Node.count_values {n : Node T} (hn : n.WF) : Counts (fun k => (descend n k).isSome = true)
    ((dfs [n]).map fun m => m.values.entries.length).sum := by
  obtain ⟨l, h1, h2, h3⟩ := Node.paths hn
  have hlen : ((dfs [n]).map fun m => m.values.entries.length).sum =
      (l.flatMap fun x => x.2.values.bytes.map fun b => x.1 ++ [b]).length := by
    rw [← (h1.map _).sum_nat, List.length_flatMap, List.map_map]
    congr 1
    apply List.map_congr_left
    rintro ⟨p, m⟩ hx
    have hm := Node.wf_reach hn ((h3 p m).1 hx)
    obtain ⟨-, hv, -⟩ := hm
    simp [Content.bytes_length hv]
  refine ⟨_, ?_, fun k => ?_, hlen.symm⟩
  · clear hlen h1
    have : ∀ x ∈ l, n.reach x.1 = some x.2 := fun x hx => (h3 x.1 x.2).1 hx
    clear h3
    induction l with
    | nil => simp
    | cons x l ih =>
      rw [List.map_cons, List.nodup_cons] at h2
      rw [List.flatMap_cons, List.nodup_append]
      refine ⟨?_, ih h2.2 fun y hy => this y (by simp [hy]), ?_⟩
      · unfold List.Nodup
        rw [List.pairwise_map]
        refine List.Pairwise.imp (fun h e => h ?_) (allBytes_nodup.filter _)
        simpa using e
      · intro a ha d hd e
        subst e
        obtain ⟨b, -, rfl⟩ := List.mem_map.1 ha
        obtain ⟨y, hy, hd⟩ := List.mem_flatMap.1 hd
        obtain ⟨b', -, hb'⟩ := List.mem_map.1 hd
        have := List.append_inj_left' hb' rfl
        exact h2.1 (List.mem_map.2 ⟨y, hy, this⟩)
  · rw [List.mem_flatMap]
    constructor
    · rintro ⟨⟨p, m⟩, hx, hk⟩
      obtain ⟨b, hb, rfl⟩ := List.mem_map.1 hk
      rw [descend_append, (h3 p m).1 hx]
      exact (List.mem_filter.1 hb).2
    · intro hk
      rcases List.eq_nil_or_concat k with rfl | ⟨p, b, rfl⟩
      · cases hk
      · rw [List.concat_eq_append] at hk ⊢
        rw [descend_append] at hk
        cases hr : n.reach p with
        | none => rw [hr] at hk; cases hk
        | some m =>
          rw [hr] at hk
          exact ⟨(p, m), (h3 p m).2 hr, List.mem_map.2 ⟨b, List.mem_filter.2 ⟨mem_allBytes b, hk⟩, rfl⟩⟩

/-! ## Insertion -/

theorem Node.reach_new (p : List UInt8) : ((new : Node T).reach p).isSome = true ↔ p = [] := by
  cases p with
  | nil => simp [reach]
  | cons b p => simp [reach_cons, new, children, Content.new, Content.get_part, assoc]

theorem Node.insert_reach {n : Node T} (hn : n.WF) {k : List UInt8} (hk : k ≠ []) (v : T) {n' : Node T} {prev : Option T}
    (h : n.insert k v = some (n', prev)) (p : List UInt8) :
    (n'.reach p).isSome = true ↔ (n.reach p).isSome = true ∨ (p <+: k ∧ p ≠ k) := by
  induction k generalizing n n' prev p with
  | nil => exact absurd rfl hk
  | cons b k ih =>
    cases k with
    | nil =>
      obtain ⟨hc, hv, hch⟩ := hn
      obtain ⟨vs, he, hvs, hg⟩ := Content.upsert_spec hv b v
      simp only [insert, he, Option.some.injEq, Prod.mk.injEq] at h
      obtain ⟨rfl, -⟩ := h
      cases p with
      | nil => simp [reach]
      | cons a p =>
        rw [reach_cons, reach_cons]
        constructor
        · exact .inl
        · rintro (h | ⟨h1, h2⟩)
          · exact h
          · rw [List.cons_prefix_cons] at h1
            obtain ⟨rfl, h1⟩ := h1
            exact absurd (by rw [List.prefix_nil.1 h1]) h2
    | cons b' r =>
      have hch0 := hn
      obtain ⟨n1, c, he, hn1, hget, -⟩ := ensureChild_spec hn b
      have hn1' := hn1
      obtain ⟨hc, hv, hch⟩ := hn1
      obtain ⟨c', hi, hc', hd⟩ := insert_spec (hch b c hget) (k := b' :: r) (by simp) v
      obtain ⟨hp1, hp2⟩ := Content.put_spec hc hget c'
      simp only [insert, he, hget, hi, Option.some.injEq, Prod.mk.injEq] at h
      obtain ⟨rfl, -⟩ := h
      -- the child before
      have hens : (∀ x, x ≠ b → n1.children.get x = n.children.get x) ∧
          (n.children.get b = some c ∨ n.children.get b = none ∧ c = new) := by
        unfold ensureChild at he
        cases hb : n.children.get b with
        | some d =>
          rw [hb] at he
          cases he
          rw [hb] at hget
          exact ⟨fun _ _ => rfl, .inl hget⟩
        | none =>
          obtain ⟨hc0, -, -⟩ := hch0
          obtain ⟨cc, h1, -, h3⟩ := Content.upsert_spec hc0 b (new : Node T)
          rw [hb] at he
          simp only [h1, hb, Option.isNone_none, if_true, Option.some.injEq] at he
          subst he
          rw [children_mk] at hget
          rw [h3, if_pos rfl] at hget
          refine ⟨fun x hx => ?_, .inr ⟨rfl, (Option.some.inj hget).symm⟩⟩
          rw [children_mk, h3, if_neg hx]
      cases p with
      | nil => simp [reach]
      | cons a p =>
        rw [reach_cons, reach_cons, children_mk, hp2]
        by_cases ha : a = b
        · subst ha
          rw [if_pos rfl, Option.bind_some, ih (hch a c hget) (by simp) hi p, List.cons_prefix_cons]
          have h1 : ((a :: p : List UInt8) ≠ a :: b' :: r) ↔ p ≠ b' :: r := by simp
          rw [h1]
          rcases hens.2 with h | ⟨h, rfl⟩
          · rw [h]
            simp
          · rw [h, reach_new]
            simp only [Option.bind_none, Option.isSome_none, true_and]
            constructor
            · rintro (rfl | h)
              · exact .inr ⟨List.nil_prefix, by simp⟩
              · exact .inr h
            · rintro (h | h)
              · cases h
              · exact .inr h
        · rw [if_neg ha, hens.1 a ha]
          constructor
          · exact .inl
          · rintro (h | ⟨h1, -⟩)
            · exact h
            · rw [List.cons_prefix_cons] at h1
              exact absurd h1.1 ha

end Cniic
