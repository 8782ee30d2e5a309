import Verif.Spec.Huf
import Verif.Proofs.Bit
import Verif.Proofs.Ser

/-!
# Code trees: enumeration, lookup, serialization
-/

namespace Cniic
open Spec

variable {T : Type}

theorem drain_of_yields {σ α : Type} {next : Rd σ α} {s : σ} {xs : List α} {fuel : Nat}
    (h : Yields next s xs) (hf : xs.length < fuel) : drain next fuel s = .ok xs := by
  induction xs generalizing s fuel with
  | nil =>
    obtain ⟨P, h0, hP⟩ := h
    cases fuel with
    | zero => omega
    | succ f =>
      have := (hP s h0).1
      unfold drain
      rcases hn : next s with ⟨a | a | _, s'⟩ <;> simp [hn] at this ⊢
  | cons x xs ih =>
    obtain ⟨s', h1, h2⟩ := h
    cases fuel with
    | zero => simp at hf
    | succ f => simp [drain, h1, ih h2 (by simpa using hf)]

/-! ## The explicit-stack iterator -/

namespace BinTrieIter

/-- The leaves still to come once the subtree below `stack` (reached by the directions `rep`) is
finished. -/
def after : List (BinTrie T) → List Bit → List (List Bool × T)
  | .branch _ r :: ps, false :: rep =>
    (leaves r).map (fun p => (rep.reverse ++ true :: p.1, p.2)) ++ after ps rep
  | _ :: ps, true :: rep => after ps rep
  | _, _ => []

/-- `stack` consists of branches and is as long as `rep`. -/
inductive Parents : List (BinTrie T) → List Bit → Prop
  | nil : Parents [] []
  | cons (l r : BinTrie T) (b : Bit) {ps rep} : Parents ps rep → Parents (.branch l r :: ps) (b :: rep)

theorem popLoop_spec {ps : List (BinTrie T)} {rep : List Bit} (h : Parents ps rep) :
    (popLoop ps rep = ⟨[], []⟩ ∧ after ps rep = []) ∨
    ∃ l r ps' rep', Parents ps' rep' ∧ popLoop ps rep = ⟨.branch l r :: ps', rep'⟩ ∧
      after ps rep =
        (leaves r).map (fun p => (rep'.reverse ++ true :: p.1, p.2)) ++ after ps' rep' := by
  induction h with
  | nil => exact .inl ⟨rfl, rfl⟩
  | cons l r b hp ih =>
    cases b with
    | false => exact .inr ⟨l, r, _, _, hp, rfl, rfl⟩
    | true => exact ih

theorem yields_from (n : Nat) (t : BinTrie T) (ps : List (BinTrie T)) (rep : List Bit)
    (hp : Parents ps rep)
    (hn : ((leaves t).map (fun p => (rep.reverse ++ p.1, p.2)) ++ after ps rep).length ≤ n) :
    Yields next (allTheWayLeft t (t :: ps) rep)
      ((leaves t).map (fun p => (rep.reverse ++ p.1, p.2)) ++ after ps rep) := by
  induction n generalizing t ps rep with
  | zero =>
    exfalso
    have : 0 < (leaves t).length := by
      clear hn
      induction t with
      | leaf v => simp [leaves]
      | branch l r ihl _ => simp [leaves]; omega
    simp at hn; simp [hn.1] at this
  | succ n ih =>
    induction t generalizing ps rep with
    | branch l r ihl ihr =>
      have h := ihl (.branch l r :: ps) (false :: rep) (.cons l r false hp)
        (by simpa [leaves, after] using hn)
      simpa [allTheWayLeft, leaves, after, Function.comp_def] using h
    | leaf v =>
      simp only [leaves, List.map_cons, List.map_nil, List.cons_append, List.nil_append,
        List.append_nil, allTheWayLeft] at hn ⊢
      rcases popLoop_spec hp with ⟨he, ha⟩ | ⟨l, r, ps', rep', hp', he, ha⟩
      · rw [ha]
        refine ⟨⟨[], []⟩, ?_, ?_⟩
        · simp [next, popParents, he]
        · refine ⟨fun s => s = ⟨[], []⟩, rfl, ?_⟩
          rintro s rfl; exact ⟨rfl, rfl⟩
      · rw [ha]
        refine ⟨allTheWayLeft r (r :: .branch l r :: ps') (true :: rep'), ?_, ?_⟩
        · simp [next, popParents, he]
        · have h := ih r (.branch l r :: ps') (true :: rep') (.cons l r true hp') (by
            rw [ha] at hn
            simp [after] at hn ⊢; omega)
          simpa [after] using h

theorem yields_new (t : BinTrie T) : Yields next (new t) (leaves t) := by
  have h := yields_from _ t [] [] .nil (Nat.le_refl _)
  simpa [after, new] using h

end BinTrieIter

theorem leaves_length (t : BinTrie T) : (leaves t).length = t.size := by
  induction t with
  | leaf v => rfl
  | branch l r ihl ihr => simp [leaves, BinTrie.size, ihl, ihr]

theorem leaves_ne_nil (t : BinTrie T) : leaves t ≠ [] := by
  induction t with
  | leaf v => simp [leaves]
  | branch l r ihl _ => simp [leaves, ihl]

/-- Paths of different leaves are not prefixes of each other. -/
theorem leaves_prefix {t : BinTrie T} {p q : List Bool} {x y : T}
    (hp : (p, x) ∈ leaves t) (hq : (q, y) ∈ leaves t) (h : p <+: q) : p = q ∧ x = y := by
  induction t generalizing p q with
  | leaf v => simp [leaves] at hp hq; obtain ⟨rfl, rfl⟩ := hp; obtain ⟨rfl, rfl⟩ := hq; simp
  | branch l r ihl ihr =>
    simp only [leaves, List.mem_append, List.mem_map, Prod.mk.injEq, Prod.exists] at hp hq
    rcases hp with ⟨p', x', hp', rfl, rfl⟩ | ⟨p', x', hp', rfl, rfl⟩ <;>
    rcases hq with ⟨q', y', hq', rfl, rfl⟩ | ⟨q', y', hq', rfl, rfl⟩
    · have := ihl hp' hq' (by simpa using h); simp [this]
    · simp at h
    · simp at h
    · have := ihr hp' hq' (by simpa using h); simp [this]

theorem leaves_kraft (t : BinTrie T) (L : Nat) (hL : ∀ p ∈ leaves t, p.1.length ≤ L) :
    kraft L ((leaves t).map fun p => p.1.length) = 2 ^ L := by
  induction t generalizing L with
  | leaf v => simp [leaves, kraft]
  | branch l r ihl ihr =>
    have hpos : 1 ≤ L := by
      obtain ⟨p, hp⟩ := List.exists_mem_of_ne_nil _ (leaves_ne_nil l)
      have := hL (false :: p.1, p.2) (by simp [leaves]; exact hp)
      simp at this; omega
    obtain ⟨K, rfl⟩ : ∃ K, L = K + 1 := ⟨L - 1, by omega⟩
    have hl := ihl K (fun p hp => by
      have := hL (false :: p.1, p.2) (by simp [leaves]; exact hp)
      simpa using this)
    have hr := ihr K (fun p hp => by
      have := hL (true :: p.1, p.2) (by simp [leaves]; exact hp)
      simpa using this)
    simp only [kraft, leaves, List.map_append, List.map_map, List.sum_append] at *
    have e : ∀ (b : Bool) (t' : BinTrie T),
        List.map ((fun l => 2 ^ (K + 1 - l)) ∘ (fun p : List Bool × T => p.1.length) ∘
          fun p => (b :: p.1, p.2)) (leaves t') =
        List.map ((fun l => 2 ^ (K - l)) ∘ fun p => p.1.length) (leaves t') := by
      intro b t'
      apply List.map_congr_left
      intro p _
      simp
    rw [e false, e true, hl, hr, Nat.pow_succ]; omega

/-! ## Lookup -/

theorem lookup_leaf {σ : Type} {next : Rd σ Bit} {s : σ} {t : BinTrie T} {p : List Bool} {x : T}
    {rest : List Bool} (hp : (p, x) ∈ leaves t) (h : Yields next s (p ++ rest)) :
    ∃ s', t.lookup next s = (.ok x, s') ∧ Yields next s' rest := by
  induction t generalizing p s with
  | leaf v =>
    simp [leaves] at hp; obtain ⟨rfl, rfl⟩ := hp
    exact ⟨s, rfl, h⟩
  | branch l r ihl ihr =>
    simp only [leaves, List.mem_append, List.mem_map, Prod.mk.injEq, Prod.exists] at hp
    rcases hp with ⟨p', x', hp', rfl, rfl⟩ | ⟨p', x', hp', rfl, rfl⟩
    · obtain ⟨s1, h1, h2⟩ := h
      obtain ⟨s2, h3, h4⟩ := ihl hp' h2
      exact ⟨s2, by rw [BinTrie.lookup, Proc.bind_ok h1]; simpa using h3, h4⟩
    · obtain ⟨s1, h1, h2⟩ := h
      obtain ⟨s2, h3, h4⟩ := ihr hp' h2
      exact ⟨s2, by rw [BinTrie.lookup, Proc.bind_ok h1]; simpa using h3, h4⟩

/-- Running out of bits inside a code gives `None`. -/
theorem lookup_short {σ : Type} {next : Rd σ Bit} {s : σ} {t : BinTrie T} {bits : List Bool}
    (hs : ∀ p ∈ leaves t, ¬ p.1 <+: bits) (h : Yields next s bits) :
    ∃ s', t.lookup next s = (.err (), s') ∧ Yields next s' [] := by
  induction t generalizing bits s with
  | leaf v => exact absurd (List.nil_prefix) (hs ([], v) (by simp [leaves]))
  | branch l r ihl ihr =>
    cases bits with
    | nil =>
      have h' := h
      obtain ⟨P, h0, hP⟩ := h
      rcases hn : next s with ⟨a | a | _, s'⟩
      · have := (hP s h0).1; simp [hn] at this
      · refine ⟨s', ?_, P, ?_, hP⟩
        · rw [BinTrie.lookup, Proc.bind_err hn]
        · have := (hP s h0).2; simpa [hn] using this
      · have := (hP s h0).1; simp [hn] at this
    | cons b bs =>
      obtain ⟨s1, h1, h2⟩ := h
      rw [BinTrie.lookup, Proc.bind_ok h1]
      cases b with
      | false =>
        exact ihl (fun p hp hpre => hs (false :: p.1, p.2)
          (by simp [leaves]; exact hp) (by simpa using hpre)) h2
      | true =>
        exact ihr (fun p hp hpre => hs (true :: p.1, p.2)
          (by simp [leaves]; exact hp) (by simpa using hpre)) h2

/-! ## Serialization of trees -/

section
variable [Ser T] [SerSpec T] [LawfulSer T]

/-- The serialized form of a tree: a tag byte for every node, in prefix order, and the leaves. -/
def treeBytes : BinTrie T → List UInt8
  | .leaf v => 0 :: SerSpec.bytes v
  | .branch l r => 1 :: (treeBytes l ++ treeBytes r)

/-- All leaves can be serialized. -/
def TreeValid (t : BinTrie T) : Prop := ∀ p ∈ leaves t, SerSpec.valid p.2

theorem treeValid_branch {l r : BinTrie T} : TreeValid (.branch l r) ↔ TreeValid l ∧ TreeValid r := by
  simp only [TreeValid, leaves, List.mem_append, List.mem_map]
  constructor
  · intro h
    exact ⟨fun p hp => h (false :: p.1, p.2) (.inl ⟨p, hp, rfl⟩),
      fun p hp => h (true :: p.1, p.2) (.inr ⟨p, hp, rfl⟩)⟩
  · rintro ⟨h1, h2⟩ _ (⟨p, hp, rfl⟩ | ⟨p, hp, rfl⟩)
    · exact h1 p hp
    · exact h2 p hp

theorem emits_tree (t : BinTrie T) (h : TreeValid t) :
    Emits Emits.errOnly t.ser (treeBytes t) () := by
  induction t with
  | leaf v =>
    exact Emits.bind (b1 := [0]) (LawfulSer.emits (0 : UInt8) trivial)
      (LawfulSer.emits v (h ([], v) (by simp [leaves])))
  | branch l r ihl ihr =>
    rw [treeValid_branch] at h
    exact Emits.bind (b1 := [1]) (LawfulSer.emits (1 : UInt8) trivial)
      (Emits.bind (ihl h.1) (ihr h.2))

theorem de_u8 (b : UInt8) (bs : List UInt8) :
    (de listNext : Rd (List UInt8) UInt8) (b :: bs) = (.ok b, bs) := rfl

theorem deFuel_bytes (t : BinTrie T) (h : TreeValid t) (fuel : Nat) (rest : List UInt8)
    (hf : (treeBytes t).length < fuel + 1) :
    BinTrie.deFuel listNext fuel (treeBytes t ++ rest) = (.ok t, rest) := by
  induction t generalizing fuel rest with
  | leaf v =>
    cases fuel with
    | zero => simp [treeBytes] at hf
    | succ f =>
      rw [BinTrie.deFuel, treeBytes, List.cons_append]
      rw [Proc.bind_ok (de_u8 0 (SerSpec.bytes v ++ rest))]
      simp only [if_pos]
      rw [Proc.bind_ok (LawfulSer.de_bytes v (h ([], v) (by simp [leaves])) rest)]; rfl
  | branch l r ihl ihr =>
    rw [treeValid_branch] at h
    cases fuel with
    | zero => simp [treeBytes] at hf
    | succ f =>
      rw [BinTrie.deFuel, treeBytes, List.cons_append]
      rw [Proc.bind_ok (de_u8 1 (treeBytes l ++ treeBytes r ++ rest))]
      have h10 : ¬ ((1 : UInt8) = 0) := by decide
      simp only [if_neg h10, if_pos]
      simp only [treeBytes, List.length_cons, List.length_append] at hf
      rw [List.append_assoc, Proc.bind_ok (ihl h.1 f _ (by omega)),
        Proc.bind_ok (ihr h.2 f _ (by omega))]; rfl

theorem de_tree (t : BinTrie T) (h : TreeValid t) (rest : List UInt8) :
    BinTrie.de (treeBytes t ++ rest) = (.ok t, rest) :=
  deFuel_bytes t h _ rest (by simp; omega)

/-- Whatever the input, with enough fuel the reader does not panic, and what it accepts is the
serialized form of the tree it returns. -/
theorem deFuel_canon (fuel : Nat) (l : List UInt8) (hf : l.length < fuel) :
    (BinTrie.deFuel listNext fuel l : Ret Unit (BinTrie T) × _).1 ≠ .panic ∧
    ∀ (t : BinTrie T) r, BinTrie.deFuel listNext fuel l = (.ok t, r) →
      TreeValid t ∧ l = treeBytes t ++ r := by
  induction fuel generalizing l with
  | zero => omega
  | succ f ih =>
    cases l with
    | nil => exact ⟨by simp [BinTrie.deFuel, Proc.bind_def, de], by
        intro t r h; simp [BinTrie.deFuel, Proc.bind_def, de] at h⟩
    | cons b bs =>
      simp only [List.length_cons] at hf
      have hstep : (BinTrie.deFuel listNext (f + 1) (b :: bs) : Ret Unit (BinTrie T) × _) =
          (if b = 0 then do
            let value ← Cniic.de listNext
            pure (.leaf value)
          else if b = 1 then do
            let left ← BinTrie.deFuel listNext f
            let right ← BinTrie.deFuel listNext f
            pure (.branch left right)
          else Rd.none : Rd (List UInt8) (BinTrie T)) bs := by
        rw [BinTrie.deFuel, Proc.bind_ok (de_u8 b bs)]
      rw [hstep]
      by_cases h0 : b = 0
      · subst h0
        simp only [if_pos]
        refine ⟨bind_no_panic (LawfulSer.no_panic _) fun _ _ _ => by simp, ?_⟩
        intro t r h
        obtain ⟨v, s1, h1, h⟩ := bind_ok_inv h
        cases h
        obtain ⟨hv, e⟩ := LawfulSer.canon _ _ _ h1
        exact ⟨by simpa [TreeValid, leaves] using hv, by rw [e]; rfl⟩
      · by_cases h1 : b = 1
        · subst h1
          simp only [if_neg h0, if_pos]
          have hih : ∀ (l : BinTrie T) s1, BinTrie.deFuel listNext f bs = (.ok l, s1) →
              s1.length < f := by
            intro l s1 hl
            have := ((ih bs (by omega)).2 l s1 hl).2
            have hlen := congrArg List.length this
            simp only [List.length_append] at hlen; omega
          constructor
          · refine bind_no_panic (ih bs (by omega)).1 fun l s1 hl => ?_
            exact bind_no_panic (ih s1 (hih l s1 hl)).1 fun _ _ _ => by simp
          · intro t r h
            obtain ⟨l, s1, hl, h⟩ := bind_ok_inv h
            obtain ⟨r', s2, hr, h⟩ := bind_ok_inv h
            cases h
            obtain ⟨vl, el⟩ := (ih bs (by omega)).2 l s1 hl
            obtain ⟨vr, er⟩ := (ih s1 (hih l s1 hl)).2 r' _ hr
            exact ⟨treeValid_branch.2 ⟨vl, vr⟩, by
              rw [el, er, treeBytes, List.cons_append, List.append_assoc]⟩
        · simp only [if_neg h0, if_neg h1]
          exact ⟨by simp, fun t r h => by simp at h⟩

/-- More fuel does not change the result: the recursion always terminates by itself. -/
theorem deFuel_mono {fuel fuel' : Nat} (l : List UInt8) (h : l.length < fuel) (h' : fuel ≤ fuel') :
    (BinTrie.deFuel listNext fuel' l : Ret Unit (BinTrie T) × _) = BinTrie.deFuel listNext fuel l := by
  induction fuel generalizing l fuel' with
  | zero => omega
  | succ f ih =>
    obtain ⟨f', rfl⟩ : ∃ f', fuel' = f' + 1 := ⟨fuel' - 1, by omega⟩
    cases l with
    | nil => rfl
    | cons b bs =>
      simp only [List.length_cons] at h
      simp only [BinTrie.deFuel]
      rw [Proc.bind_ok (de_u8 b bs), Proc.bind_ok (de_u8 b bs)]
      by_cases h0 : b = 0
      · simp only [if_pos h0]
      · by_cases h1 : b = 1
        · simp only [if_neg h0, if_pos h1]
          simp only [Proc.bind_def]
          rw [ih bs (by omega) (by omega)]
          rcases hl : (BinTrie.deFuel listNext f bs : Ret Unit (BinTrie T) × _) with ⟨a | a | _, s1⟩
          · have := ((deFuel_canon f bs (by omega)).2 a s1 hl).2
            have hlen := congrArg List.length this
            simp only [List.length_append] at hlen
            simp only []
            rw [ih s1 (by omega) (by omega)]
          · rfl
          · rfl
        · simp only [if_neg h0, if_neg h1]

end

end Cniic
