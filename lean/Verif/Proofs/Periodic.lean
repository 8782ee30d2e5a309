import Verif.Spec.Periodic
import Verif.Proofs.ZipDict

namespace Cniic
namespace Periodic
open Spec

/-! ## Pieces of a periodic sequence -/

variable {ω : Nat → UInt8} {p : Nat}

/-- `l` bytes of the sequence from `x` on. -/
def seg (ω : Nat → UInt8) (x l : Nat) : List UInt8 := (List.range l).map fun i => ω (x + i)

@[simp] theorem seg_length (x l : Nat) : (seg ω x l).length = l := by simp [seg]

theorem seg_append (x a b : Nat) : seg ω x (a + b) = seg ω x a ++ seg ω (x + a) b := by
  apply List.ext_getElem?
  intro i
  simp only [seg, List.getElem?_map, List.getElem?_append, List.length_map, List.length_range]
  by_cases h : i < a
  · rw [if_pos h, List.getElem?_range h, List.getElem?_range (by omega)]; 
  · rw [if_neg h]
    by_cases h2 : i < a + b
    · rw [List.getElem?_range h2, List.getElem?_range (by omega)]
      simp only [Option.map_some]
      congr 2
      omega
    · rw [List.getElem?_eq_none (by simpa using h2), List.getElem?_eq_none (by simp; omega)]; rfl

theorem seg_prefix {x R : Nat} {y : List UInt8} (h : y <+: seg ω x R) : y = seg ω x y.length ∧ y.length ≤ R := by
  have hl := h.length_le
  rw [seg_length] at hl
  refine ⟨?_, hl⟩
  obtain ⟨z, hz⟩ := h
  have e : seg ω x R = seg ω x y.length ++ seg ω (x + y.length) (R - y.length) := by rw [← seg_append]; congr 1; omega
  rw [e] at hz
  exact (List.append_inj hz (by simp)).1

theorem prefix_seg {x a R : Nat} (h : a ≤ R) : seg ω x a <+: seg ω x R :=
  ⟨seg ω (x + a) (R - a), by rw [← seg_append]; congr 1; omega⟩

/-- What is taken as known of the sequence: it has the period `p`, and no two of the `p` places look the same for `p` bytes. -/
structure Primitive (ω : Nat → UInt8) (p : Nat) : Prop where
  pos : 0 < p
  period : ∀ i, ω (i + p) = ω i
  unique : ∀ x y, seg ω x p = seg ω y p → x % p = y % p

theorem Primitive.mod (h : Primitive ω p) (i : Nat) : ω (i % p) = ω i := by
  have : ∀ k, ω (i % p + p * k) = ω (i % p) := by
    intro k
    induction k with
    | zero => rfl
    | succ k ih => rw [Nat.mul_succ, ← Nat.add_assoc, h.period, ih]
  rw [← this (i / p), Nat.mod_add_div]

theorem Primitive.seg_mod (h : Primitive ω p) {x y : Nat} (e : x % p = y % p) (l : Nat) : seg ω x l = seg ω y l := by
  unfold seg
  apply List.map_congr_left
  intro i _
  rw [← h.mod (x + i), ← h.mod (y + i), Nat.add_mod, e, ← Nat.add_mod]

theorem Primitive.seg_inj (h : Primitive ω p) {x y l : Nat} (hl : p ≤ l) (e : seg ω x l = seg ω y l) : x % p = y % p := by
  apply h.unique
  have hx : seg ω x l = seg ω x p ++ seg ω (x + p) (l - p) := by rw [← seg_append]; congr 1; omega
  have hy : seg ω y l = seg ω y p ++ seg ω (y + p) (l - p) := by rw [← seg_append]; congr 1; omega
  rw [hx, hy] at e
  exact (List.append_inj e (by simp)).1

/-! ## One pair -/

/-- What a pair of symbols at `x` with `R` bytes left stands for: `a` and `b` bytes. -/
structure Greedy (ω : Nat → UInt8) (known : List (List UInt8)) (x R a b : Nat) : Prop where
  apos : 0 < a
  bpos : 0 < b
  le : a + b ≤ R
  a_mem : seg ω x a ∈ known
  a_max : ∀ l, l ≤ R → seg ω x l ∈ known → l ≤ a
  b_mem : seg ω (x + a) b ∈ known
  b_max : ∀ l, l ≤ R - a → seg ω (x + a) l ∈ known → l ≤ b

theorem longest_seg {known : List (List UInt8)} {x R : Nat} {s : UInt16} {y r : List UInt8}
    (h : Longest known (seg ω x R) s y r) : 0 < y.length ∧ y.length ≤ R ∧ y = seg ω x y.length ∧
      r = seg ω (x + y.length) (R - y.length) ∧ y ∈ known ∧ ∀ l, l ≤ R → seg ω x l ∈ known → l ≤ y.length := by
  obtain ⟨h1, h2⟩ := seg_prefix (ω := ω) (x := x) (R := R) (y := y) ⟨r, h.split.symm⟩
  refine ⟨List.length_pos_iff.2 h.nonempty, h2, h1, ?_, List.mem_of_getElem? h.isKnown, ?_⟩
  · have e : seg ω x R = seg ω x y.length ++ seg ω (x + y.length) (R - y.length) := by rw [← seg_append]; congr 1; omega
    have := h.split
    rw [e] at this
    exact (List.append_inj this (by simp)).2.symm
  · intro l hl hm
    have := h.longest _ hm (prefix_seg hl)
    simpa using this

/-- With the dictionary `known`, at most `B` pairs are written for `i`, if there is room for as many new entries. -/
def Within (known : List (List UInt8)) (i : List UInt8) (B : Nat) : Prop :=
  ∀ syms, Parse known i syms → known.length + B ≤ 65535 → syms.length ≤ 2 * B

theorem Within.mono {known : List (List UInt8)} {i : List UInt8} {B B' : Nat} (h : Within known i B) (hb : B ≤ B') :
    Within known i B' := fun syms hp hr => by have := h syms hp (by omega); omega

theorem within_step {known : List (List UInt8)} {x R B : Nat}
    (h : ∀ a b, Greedy ω known x R a b → Within (known ++ [seg ω x (a + b)]) (seg ω (x + a + b) (R - a - b)) B) :
    Within known (seg ω x R) (B + 1) := by
  intro syms hp hr
  generalize hi : seg ω x R = i at hp
  cases hp with
  | nil => simp
  | one _ => simp; omega
  | two h1 h2 hp =>
    rename_i s1 x1 i' s2 x2 i'' syms'
    subst hi
    obtain ⟨a1, a2, a3, a4, a5, a6⟩ := longest_seg h1
    subst a4
    obtain ⟨b1, b2, b3, b4, b5, b6⟩ := longest_seg h2
    subst b4
    rw [learn, if_pos (by omega)] at hp
    have e : x1 ++ x2 = seg ω x (x1.length + x2.length) := by rw [seg_append, ← a3, ← b3]
    rw [e] at hp
    have := h x1.length x2.length ⟨a1, b1, by omega, a3 ▸ a5, a6, b3 ▸ b5, b6⟩ syms' hp (by simp; omega)
    simp only [List.length_cons]
    omega

/-- At most one pair for each byte. -/
theorem within_length (R : Nat) : ∀ known x, Within known (seg ω x R) R := by
  induction R using Nat.strongRecOn with
  | ind R ih =>
    intro known x
    cases R with
    | zero =>
      intro syms hp _
      generalize hi : seg ω x 0 = i at hp
      cases hp with
      | nil => simp
      | one h => subst hi; have := longest_seg h; omega
      | two h _ _ => subst hi; have := longest_seg h; omega
    | succ R =>
      apply within_step
      intro a b hg
      have := hg.apos
      exact (ih (R + 1 - a - b) (by omega) _ _).mono (by omega)

/-! ## Short pieces -/

/-- The places and lengths of short pieces. -/
def shortPieces (p : Nat) : List (Nat × Nat) := (List.range p).flatMap fun x => (List.range (p - 2)).map fun l => (x, l + 2)

theorem mem_shortPieces {x l : Nat} : (x, l) ∈ shortPieces p ↔ x < p ∧ 2 ≤ l ∧ l < p := by
  simp only [shortPieces, List.mem_flatMap, List.mem_range, List.mem_map, Prod.mk.injEq]
  constructor
  · rintro ⟨x', h1, l', h2, rfl, rfl⟩; omega
  · intro h; exact ⟨x, h.1, l - 2, by omega, rfl, by omega⟩

theorem shortPieces_length (p : Nat) : (shortPieces p).length = p * (p - 2) := by
  simp only [shortPieces, List.length_flatMap, List.length_map, List.length_range]
  rw [List.map_const', List.sum_replicate_nat, List.length_range]

/-- How many of them have no symbol. -/
def missing (ω : Nat → UInt8) (p : Nat) (known : List (List UInt8)) : Nat :=
  (shortPieces p).countP fun e => decide (seg ω e.1 e.2 ∉ known)

theorem missing_le (known : List (List UInt8)) : missing ω p known ≤ p * (p - 2) := by
  rw [← shortPieces_length]
  exact List.countP_le_length

theorem missing_mono (known : List (List UInt8)) (y : List UInt8) : missing ω p (known ++ [y]) ≤ missing ω p known := by
  apply List.countP_mono_left
  intro e _ h
  simp only [decide_eq_true_eq, List.mem_append, not_or] at h ⊢
  exact h.1

theorem countP_lt {α : Type} {l : List α} {P Q : α → Bool} (h : ∀ a ∈ l, P a = true → Q a = true) {a : α} (ha : a ∈ l)
    (hP : P a = false) (hQ : Q a = true) : l.countP P < l.countP Q := by
  induction l with
  | nil => cases ha
  | cons b l ih =>
    rw [List.countP_cons, List.countP_cons]
    have hb := h b List.mem_cons_self
    have hl : l.countP P ≤ l.countP Q := List.countP_mono_left fun c hc => h c (List.mem_cons_of_mem _ hc)
    rcases List.mem_cons.1 ha with rfl | ha
    · rw [hP, hQ]; simp; omega
    · have := ih (fun c hc => h c (List.mem_cons_of_mem _ hc)) ha
      cases hPb : P b with
      | false => simp; omega
      | true => rw [hb hPb]; simp; omega

theorem Primitive.missing_lt (hω : Primitive ω p) {known : List (List UInt8)} {x R a b : Nat} (hg : Greedy ω known x R a b)
    (hs : a + b < p) : missing ω p (known ++ [seg ω x (a + b)]) < missing ω p known := by
  have h1 := hg.apos
  have h2 := hg.bpos
  have e : seg ω (x % p) (a + b) = seg ω x (a + b) := hω.seg_mod (Nat.mod_mod _ _) _
  refine countP_lt (a := (x % p, a + b)) ?_ (mem_shortPieces.2 ⟨Nat.mod_lt _ hω.pos, by omega, hs⟩) ?_ ?_
  · intro e _ h
    simp only [decide_eq_true_eq, List.mem_append, not_or] at h ⊢
    exact h.1
  · simp [e]
  · simp only [e, decide_eq_true_eq]
    intro hm
    have := hg.a_max _ hg.le hm
    omega

/-! ## Chains of pieces -/

/-- The longest known piece at `v` with at most `R` bytes, if `l ≤ R`, has `l` bytes. -/
structure Exact (ω : Nat → UInt8) (p : Nat) (known : List (List UInt8)) (R : Nat) (e : Nat × Nat) : Prop where
  long : p ≤ e.2
  mem : seg ω e.1 e.2 ∈ known
  max : ∀ l, l ≤ R → seg ω e.1 l ∈ known → l ≤ e.2

theorem Exact.shrink {known : List (List UInt8)} {R R' : Nat} {e : Nat × Nat} (h : Exact ω p known R e) (hr : R' ≤ R) :
    Exact ω p known R' e := ⟨h.long, h.mem, fun l hl => h.max l (by omega)⟩

theorem Exact.learn (hω : Primitive ω p) {known : List (List UInt8)} {R x L : Nat} {e : Nat × Nat} (h : Exact ω p known R e)
    (hL : p ≤ L) (hx : x % p ≠ e.1 % p) : Exact ω p (known ++ [seg ω x L]) R e := by
  refine ⟨h.long, List.mem_append_left _ h.mem, fun l hl hm => ?_⟩
  rcases List.mem_append.1 hm with hm | hm
  · exact h.max l hl hm
  · rw [List.mem_singleton] at hm
    have : l = L := by have := congrArg List.length hm; simpa using this
    subst this
    exact absurd (hω.seg_inj hL hm).symm hx

theorem Greedy.exact {known : List (List UInt8)} {x R a b : Nat} (hg : Greedy ω known x R a b) (hl : p ≤ a + b) :
    Exact ω p (known ++ [seg ω x (a + b)]) (R - a - b) (x, a + b) := by
  refine ⟨hl, by simp, fun l hl hm => ?_⟩
  rcases List.mem_append.1 hm with hm | hm
  · have := hg.a_max l (by omega) hm
    omega
  · rw [List.mem_singleton] at hm
    have := congrArg List.length hm
    simp at this
    omega

/-- Each piece ends where the next one begins, the last one at `x`. -/
def Linked (p : Nat) : List (Nat × Nat) → Nat → Prop
  | [], _ => True
  | [e], x => (e.1 + e.2) % p = x % p
  | e :: f :: c, x => (e.1 + e.2) % p = f.1 % p ∧ Linked p (f :: c) x

theorem Linked.tail {e : Nat × Nat} {c : List (Nat × Nat)} {x : Nat} (h : Linked p (e :: c) x) : Linked p c x := by
  cases c with
  | nil => trivial
  | cons f c => exact h.2

theorem Linked.snoc {c : List (Nat × Nat)} {x L : Nat} (h : Linked p c x) : Linked p (c ++ [(x, L)]) (x + L) := by
  induction c with
  | nil => rfl
  | cons e c ih =>
    cases c with
    | nil => exact ⟨h, rfl⟩
    | cons f c => exact ⟨h.1, ih h.2⟩

theorem Linked.congr {c : List (Nat × Nat)} {x y : Nat} (h : Linked p c x) (e : x % p = y % p) : Linked p c y := by
  induction c with
  | nil => trivial
  | cons f c ih =>
    cases c with
    | nil => exact Eq.trans h e
    | cons g c => exact ⟨h.1, ih h.2⟩

/-- A chain of pieces at different places up to `x`, where `R` bytes are left. -/
structure Chain (ω : Nat → UInt8) (p : Nat) (known : List (List UInt8)) (x R k : Nat) (c : List (Nat × Nat)) : Prop where
  exact : ∀ e ∈ c, Exact ω p known R e
  small : ∀ e ∈ c, e.2 + R < 2 ^ k
  linked : Linked p c x
  distinct : (c.map fun e => e.1 % p).Nodup
  left : R < 2 ^ k

theorem Chain.nil {known : List (List UInt8)} {x R k : Nat} (h : R < 2 ^ k) : Chain ω p known x R k [] :=
  ⟨by simp, by simp, trivial, by simp, h⟩

theorem Chain.tail {known : List (List UInt8)} {x R k : Nat} {e : Nat × Nat} {c : List (Nat × Nat)}
    (h : Chain ω p known x R k (e :: c)) : Chain ω p known x R k c :=
  ⟨fun f hf => h.exact f (List.mem_cons_of_mem _ hf), fun f hf => h.small f (List.mem_cons_of_mem _ hf), h.linked.tail,
    (List.nodup_cons.1 h.distinct).2, h.left⟩

private theorem nodup_lt_length {l : List Nat} {n : Nat} (hd : l.Nodup) (h : ∀ a ∈ l, a < n) : l.length ≤ n := by
  induction n generalizing l with
  | zero =>
    cases l with
    | nil => simp
    | cons a l => exact absurd (h a (by simp)) (by omega)
  | succ n ih =>
    have := ih (l := l.erase n) (hd.erase n) (by
      intro a ha
      have h1 := h a (List.mem_of_mem_erase ha)
      have h2 : a ≠ n := by
        rintro rfl
        exact (List.Nodup.not_mem_erase hd) ha
      omega)
    have := List.length_erase (a := n) (l := l)
    split at this <;> omega

theorem Chain.length_le (hω : Primitive ω p) {known : List (List UInt8)} {x R k : Nat} {c : List (Nat × Nat)}
    (h : Chain ω p known x R k c) : c.length ≤ p := by
  have := nodup_lt_length h.distinct (n := p) (by
    intro a ha
    obtain ⟨e, -, rfl⟩ := List.mem_map.1 ha
    exact Nat.mod_lt _ hω.pos)
  simpa using this

/-- A pair at a place that is not in the chain, of at least `p` bytes, makes the chain longer. -/
theorem Chain.extend (hω : Primitive ω p) {known : List (List UInt8)} {x R k a b : Nat} {c : List (Nat × Nat)}
    (h : Chain ω p known x R k c) (hx : x % p ∉ c.map fun e => e.1 % p) (hg : Greedy ω known x R a b) (hl : p ≤ a + b) :
    Chain ω p (known ++ [seg ω x (a + b)]) (x + a + b) (R - a - b) k (c ++ [(x, a + b)]) := by
  have hle := hg.le
  have hleft := h.left
  refine ⟨?_, ?_, ?_, ?_, by omega⟩
  · intro e he
    rcases List.mem_append.1 he with he | he
    · refine Exact.learn hω ((h.exact e he).shrink (by omega)) hl fun heq => hx ?_
      rw [heq]
      exact List.mem_map.2 ⟨e, he, rfl⟩
    · rw [List.mem_singleton] at he
      subst he
      exact hg.exact hl
  · intro e he
    rcases List.mem_append.1 he with he | he
    · have := h.small e he
      omega
    · rw [List.mem_singleton] at he
      subst he
      dsimp only
      omega
  · rw [Nat.add_assoc]
    exact h.linked.snoc
  · rw [List.map_append, List.nodup_append]
    refine ⟨h.distinct, by simp, ?_⟩
    intro u hu v hv
    simp only [List.map_cons, List.map_nil, List.mem_singleton] at hv
    subst hv
    exact fun e => hx (e ▸ hu)

/-- The part of a chain from a given place on. -/
theorem Chain.from {known : List (List UInt8)} {x R k : Nat} {c : List (Nat × Nat)}
    (h : Chain ω p known x R k c) (hx : x % p ∈ c.map fun e => e.1 % p) :
    ∃ e c', Chain ω p known x R k (e :: c') ∧ e.1 % p = x % p ∧ c'.length + 1 ≤ c.length := by
  induction c with
  | nil => cases hx
  | cons e c ih =>
    by_cases he : e.1 % p = x % p
    · exact ⟨e, c, h, he, by simp⟩
    · rw [List.map_cons, List.mem_cons] at hx
      rcases hx with hx | hx
      · exact absurd hx.symm he
      · obtain ⟨e', c', h1, h2, h3⟩ := ih h.tail hx
        exact ⟨e', c', h1, h2, by simp; omega⟩

/-- The first piece of a pair is the one of the chain, if it fits. -/
theorem Exact.first (hω : Primitive ω p) {known : List (List UInt8)} {x R a b : Nat} {e : Nat × Nat} (h : Exact ω p known R e)
    (hx : e.1 % p = x % p) (hf : e.2 ≤ R) (hg : Greedy ω known x R a b) : a = e.2 := by
  apply Nat.le_antisymm
  · have := hg.le
    exact h.max a (by omega) (hω.seg_mod hx a ▸ hg.a_mem)
  · exact hg.a_max _ hf (hω.seg_mod hx e.2 ▸ h.mem)

/-- Likewise the second one. -/
theorem Exact.second (hω : Primitive ω p) {known : List (List UInt8)} {x R a b : Nat} {e : Nat × Nat} (h : Exact ω p known R e)
    (hx : e.1 % p = (x + a) % p) (hf : e.2 ≤ R - a) (hg : Greedy ω known x R a b) : b = e.2 := by
  apply Nat.le_antisymm
  · have := hg.le
    exact h.max b (by omega) (hω.seg_mod hx b ▸ hg.b_mem)
  · exact hg.b_max _ hf (hω.seg_mod hx e.2 ▸ h.mem)

/-- The next piece does not fit: less than half is left afterwards. -/
theorem Exact.half {R R' k l : Nat} (h : l + R < 2 ^ k) (hr : R' < l) (hr' : R' ≤ R) : R' < 2 ^ (k - 1) := by
  cases k with
  | zero => simp at h; omega
  | succ k => rw [Nat.pow_succ] at h; simp; omega

theorem add_mod_congr {a b c : Nat} (h : a % p = b % p) : (a + c) % p = (b + c) % p := by
  rw [Nat.add_mod, h, ← Nat.add_mod]

/-! ## The bound -/

/-- What is shown by induction over the number `R` of bytes left. -/
structure Bounds (ω : Nat → UInt8) (p R : Nat) : Prop where
  path : ∀ known x k c, Chain ω p known x R k c →
    Within known (seg ω x R) ((p + 1) * missing ω p known + (2 * p - c.length + k + 2) + levels p (k - 1) + p)
  cycle : ∀ known x k e f c, Chain ω p known x R k (e :: f :: c) → e.1 % p = x % p →
    Within known (seg ω x R) ((p + 1) * missing ω p known + (c.length + 2 + k + 1) + levels p (k - 1) + p)
  double : ∀ known x k e i, Chain ω p known x R k [e] → e.1 % p = x % p → 2 ^ i ≤ e.2 →
    Within known (seg ω x R) ((p + 1) * missing ω p known + (k - i + 1) + levels p (k - 1) + p)

theorem path_new (hω : Primitive ω p) {R : Nat} (ih : ∀ R', R' < R → Bounds ω p R') {known : List (List UInt8)} {x k : Nat}
    {c : List (Nat × Nat)} (hc : Chain ω p known x R k c) (hx : x % p ∉ c.map fun e => e.1 % p) :
    Within known (seg ω x R) ((p + 1) * missing ω p known + (2 * p - c.length + k + 2) + levels p (k - 1) + p) := by
  have hcl := hc.length_le hω
  have hm := fun y => Nat.mul_le_mul_left (p + 1) (missing_mono (ω := ω) (p := p) known y)
  refine Within.mono (B := ((p + 1) * missing ω p known + (2 * p - c.length + k + 1) + levels p (k - 1) + p) + 1) ?_ (by omega)
  apply within_step
  intro a b hg
  have h1 := hg.apos
  have h2 := hg.bpos
  have h3 := hg.le
  by_cases hl : p ≤ a + b
  · have hc' := hc.extend hω hx hg hl
    have hcl' := hc'.length_le hω
    have := (ih (R - a - b) (by omega)).path _ _ _ _ hc'
    refine this.mono ?_
    have := hm (seg ω x (a + b))
    rw [List.length_append, List.length_singleton] at hcl' ⊢
    omega
  · have hleft := hc.left
    have := (ih (R - a - b) (by omega)).path (known ++ [seg ω x (a + b)]) (x + a + b) k [] (.nil (by omega))
    refine this.mono ?_
    have := Nat.mul_le_mul_left (p + 1) (hω.missing_lt hg (by omega))
    rw [Nat.mul_succ] at this
    simp only [List.length_nil]
    omega

/-- Half of it, from the beginning. -/
theorem fresh (hω : Primitive ω p) {R : Nat} (ih : ∀ R', R' < R → Bounds ω p R') {known : List (List UInt8)} {x k : Nat}
    (h : R < 2 ^ k) : Within known (seg ω x R) ((p + 1) * missing ω p known + levels p k + p) := by
  cases k with
  | zero =>
    have : R = 0 := by simpa using h
    subst this
    exact (within_length 0 known x).mono (by omega)
  | succ k =>
    refine (path_new hω ih (.nil (x := x) h) (by simp)).mono ?_
    simp only [List.length_nil, levels, Nat.add_sub_cancel]
    omega

theorem bounds (hω : Primitive ω p) (R : Nat) : Bounds ω p R := by
  induction R using Nat.strongRecOn with
  | ind R ih =>
    have hfresh : ∀ R' k known x, R' ≤ R → R' < 2 ^ (k - 1) →
        Within known (seg ω x R') ((p + 1) * missing ω p known + levels p (k - 1) + p) :=
      fun R' k known x hr h => fresh hω (fun R'' hr' => ih R'' (by omega)) h
    have hm := fun known y => Nat.mul_le_mul_left (p + 1) (missing_mono (ω := ω) (p := p) known y)
    have hdouble : ∀ known x k e i, Chain ω p known x R k [e] → e.1 % p = x % p → 2 ^ i ≤ e.2 →
        Within known (seg ω x R) ((p + 1) * missing ω p known + (k - i + 1) + levels p (k - 1) + p) := by
      intro known x k e i hc hx hi
      have he := hc.exact e (by simp)
      have hs := hc.small e (by simp)
      by_cases hf : e.2 ≤ R
      · refine Within.mono (B := ((p + 1) * missing ω p known + (k - i) + levels p (k - 1) + p) + 1) ?_ (by omega)
        apply within_step
        intro a b hg
        have ha := he.first hω hx hf hg
        have h1 := hg.apos
        have h3 := hg.le
        have hlk : (e.1 + e.2) % p = x % p := hc.linked
        have hxa : e.1 % p = (x + a) % p := by
          rw [hx, ← hlk, ha]; exact add_mod_congr hx
        by_cases hf2 : e.2 ≤ R - a
        · have hb := he.second hω hxa hf2 hg
          have hc' : Chain ω p (known ++ [seg ω x (a + b)]) (x + a + b) (R - a - b) k [(x, a + b)] := by
            refine ⟨?_, ?_, ?_, by simp, by omega⟩
            · intro f hf; rw [List.mem_singleton] at hf; subst hf
              exact hg.exact (by have := he.long; omega)
            · intro f hf; rw [List.mem_singleton] at hf; subst hf
              dsimp only; have := hc.left; omega
            · show (x + (a + b)) % p = _
              rw [Nat.add_assoc]
          have hxx : x % p = (x + a + b) % p := by
            rw [← hx, hxa, hb, ← ha, add_mod_congr (hx.symm.trans hxa)]
          have hik : 2 ^ (i + 1) ≤ a + b := by rw [Nat.pow_succ]; omega
          have := (ih (R - a - b) (by omega)).double _ _ _ _ (i + 1) hc' hxx hik
          refine this.mono ?_
          have := hm known (seg ω x (a + b))
          have hlt : i + 1 < k := (Nat.pow_lt_pow_iff_right (a := 2) (by omega)).1 (by omega)
          omega
        · have := hfresh (R - a - b) k (known ++ [seg ω x (a + b)]) (x + a + b) (by omega)
            (Exact.half hs (by omega) (by omega))
          refine this.mono ?_
          have := hm known (seg ω x (a + b))
          omega
      · exact (hfresh R k known x (by omega) (Exact.half hs (by omega) (by omega))).mono (by omega)
    have hcycle : ∀ known x k e f c, Chain ω p known x R k (e :: f :: c) → e.1 % p = x % p →
        Within known (seg ω x R) ((p + 1) * missing ω p known + (c.length + 2 + k + 1) + levels p (k - 1) + p) := by
      intro known x k e f c hc hx
      have he := hc.exact e (by simp)
      have hs := hc.small e (by simp)
      have hfe := hc.exact f (by simp)
      have hfs := hc.small f (by simp)
      by_cases hf : e.2 ≤ R
      · refine Within.mono (B := ((p + 1) * missing ω p known + (c.length + 2 + k) + levels p (k - 1) + p) + 1) ?_ (by omega)
        apply within_step
        intro a b hg
        have ha := he.first hω hx hf hg
        have h1 := hg.apos
        have h3 := hg.le
        have hxa : f.1 % p = (x + a) % p := by
          rw [← hc.linked.1, ha]; exact add_mod_congr hx
        by_cases hf2 : f.2 ≤ R - a
        · have hb := hfe.second hω hxa hf2 hg
          have hnd := hc.distinct
          rw [List.map_cons, List.map_cons, List.nodup_cons, List.nodup_cons] at hnd
          have hxc : x % p ∉ c.map fun e => e.1 % p := by
            rw [← hx]; exact fun h => hnd.1 (List.mem_cons_of_mem _ h)
          have hlk : Linked p (f :: c) x := hc.linked.2
          cases c with
          | nil =>
            have hc' : Chain ω p (known ++ [seg ω x (a + b)]) (x + a + b) (R - a - b) k [(x, a + b)] := by
              refine ⟨?_, ?_, ?_, by simp, by have := hc.left; omega⟩
              · intro g hg'; rw [List.mem_singleton] at hg'; subst hg'
                exact hg.exact (by have := he.long; omega)
              · intro g hg'; rw [List.mem_singleton] at hg'; subst hg'
                dsimp only; have := hc.left; omega
              · show (x + (a + b)) % p = _
                rw [Nat.add_assoc]
            have hxx : x % p = (x + a + b) % p := by
              have h : (f.1 + f.2) % p = x % p := hlk
              rw [← h, hb]; exact add_mod_congr hxa
            have := (ih (R - a - b) (by omega)).double _ _ _ _ 0 hc' hxx (by simp; omega)
            refine this.mono ?_
            have := hm known (seg ω x (a + b))
            simp only [List.length_nil]
            omega
          | cons g c =>
            have hcc := hc.tail.tail
            have hc' := Chain.extend (ω := ω) (known := known) (x := x) (R := R) (k := k) (a := a) (b := b) (c := g :: c) hω
              hcc hxc hg (by have := he.long; omega)
            have hgx : g.1 % p = (x + a + b) % p := by
              rw [← hlk.1, hb]; exact add_mod_congr hxa
            cases c with
            | nil =>
              have := (ih (R - a - b) (by omega)).cycle _ _ _ _ _ [] hc' hgx
              refine this.mono ?_
              have := hm known (seg ω x (a + b))
              simp only [List.length_nil, List.length_cons]
              omega
            | cons g' c =>
              have := (ih (R - a - b) (by omega)).cycle _ _ _ _ _ (c ++ [(x, a + b)]) hc' hgx
              refine this.mono ?_
              have := hm known (seg ω x (a + b))
              simp only [List.length_append, List.length_cons, List.length_nil]
              omega
        · have := hfresh (R - a - b) k (known ++ [seg ω x (a + b)]) (x + a + b) (by omega)
            (Exact.half hfs (by omega) (by omega))
          refine this.mono ?_
          have := hm known (seg ω x (a + b))
          omega
      · exact (hfresh R k known x (by omega) (Exact.half hs (by omega) (by omega))).mono (by omega)
    refine ⟨fun known x k c hc => ?_, hcycle, hdouble⟩
    by_cases hx : x % p ∈ c.map fun e => e.1 % p
    · have hcl := hc.length_le hω
      obtain ⟨e, c', h1, h2, h3⟩ := hc.from hx
      cases c' with
      | nil =>
        have hpos : 2 ^ 0 ≤ e.2 := by have := (h1.exact e (by simp)).long; have := hω.pos; simp; omega
        exact (hdouble known x k e 0 h1 h2 hpos).mono (by omega)
      | cons f c' =>
        refine (hcycle known x k e f c' h1 h2).mono ?_
        rw [List.length_cons] at h3
        omega
    · exact path_new hω ih hc hx

theorem within_seg (hω : Primitive ω p) (known : List (List UInt8)) {x R k : Nat} (h : R < 2 ^ k) :
    Within known (seg ω x R) (periodicPairs p k) := by
  refine (fresh hω (fun R' _ => bounds hω R') (x := x) h).mono ?_
  have := Nat.mul_le_mul_left (p + 1) (missing_le (ω := ω) (p := p) known)
  unfold periodicPairs
  omega

/-! ## What comes before -/

theorem within_drop {i : List UInt8} {B : Nat} {known : List (List UInt8)}
    (h : ∀ known j, 0 < j → Within known (i.drop j) B) : Within known i (B + 1) := by
  intro syms hp hr
  cases hp with
  | nil => simp
  | one _ => simp; omega
  | two h1 h2 hp =>
    rename_i s1 x1 i' s2 x2 i'' syms'
    have hx := List.length_pos_iff.2 h1.nonempty
    have e : i.drop (x1.length + x2.length) = i'' := by
      rw [h1.split, h2.split, ← List.append_assoc, ← List.length_append, List.drop_left]
    rw [← e] at hp
    have := h _ _ (by omega) syms' hp (by
      unfold learn
      split
      · simp; omega
      · omega)
    simp only [List.length_cons]
    omega

theorem seg_drop (x R j : Nat) : (seg ω x R).drop j = seg ω (x + j) (R - j) := by
  by_cases h : j ≤ R
  · have e : seg ω x R = seg ω x j ++ seg ω (x + j) (R - j) := by rw [← seg_append]; congr 1; omega
    conv => lhs; rw [e]
    rw [List.drop_left' (by simp)]
  · rw [List.drop_eq_nil_of_le (by simp; omega), show R - j = 0 by omega]
    rfl

theorem within_prefix (hω : Primitive ω p) {k : Nat} (n : Nat) : ∀ (pre : List UInt8), pre.length ≤ n → ∀ known x R, R < 2 ^ k →
    Within known (pre ++ seg ω x R) (n + periodicPairs p k) := by
  induction n with
  | zero =>
    intro pre hl known x R h
    have : pre = [] := List.length_eq_zero_iff.1 (by omega)
    subst this
    exact (within_seg hω known h).mono (by omega)
  | succ n ih =>
    intro pre hl known x R h
    rw [show n + 1 + periodicPairs p k = n + periodicPairs p k + 1 by omega]
    apply within_drop
    intro known j hj
    rw [List.drop_append, seg_drop]
    exact ih _ (by simp; omega) _ _ _ (by omega)

/-! ## The least period -/

theorem least_period (ω : Nat → UInt8) (n : Nat) (h : 0 < n ∧ ∀ i, ω (i + n) = ω i) :
    ∃ q, q ≤ n ∧ (0 < q ∧ ∀ i, ω (i + q) = ω i) ∧ ∀ d, 0 < d → d < q → ¬ ∀ i, ω (i + d) = ω i := by
  induction n using Nat.strongRecOn with
  | ind n ih =>
    by_cases hm : ∃ d, 0 < d ∧ d < n ∧ ∀ i, ω (i + d) = ω i
    · obtain ⟨d, h1, h2, h3⟩ := hm
      obtain ⟨q, h4, h5⟩ := ih d h2 ⟨h1, h3⟩
      exact ⟨q, by omega, h5⟩
    · exact ⟨n, Nat.le_refl _, h, fun d h1 h2 h3 => hm ⟨d, h1, h2, h3⟩⟩

theorem period_mul {q : Nat} (h : ∀ i, ω (i + q) = ω i) (i k : Nat) : ω (i + q * k) = ω i := by
  induction k with
  | zero => rfl
  | succ k ih => rw [Nat.mul_succ, ← Nat.add_assoc, h, ih]

theorem period_mod {q : Nat} (h : ∀ i, ω (i + q) = ω i) {i j : Nat} (e : i % q = j % q) : ω i = ω j := by
  rw [← Nat.mod_add_div i q, ← Nat.mod_add_div j q, period_mul h, period_mul h, e]

theorem primitive_exists {n : Nat} (hn : 0 < n) (h : ∀ i, ω (i + n) = ω i) : ∃ q, q ≤ n ∧ Primitive ω q := by
  obtain ⟨q, hq, ⟨hpos, hper⟩, hmin⟩ := least_period ω n ⟨hn, h⟩
  refine ⟨q, hq, hpos, hper, fun x y hxy => ?_⟩
  have heq : ∀ i, ω (x + i) = ω (y + i) := by
    intro i
    have h1 : i % q < q := Nat.mod_lt _ hpos
    have h2 := congrArg (fun l => l[i % q]?) hxy
    simp only [seg, List.getElem?_map, List.getElem?_range h1, Option.map_some, Option.some.injEq] at h2
    rw [period_mod hper (show (x + i) % q = (x + i % q) % q by simp),
      period_mod hper (show (y + i) % q = (y + i % q) % q by simp), h2]
  have hy : y % q < q := Nat.mod_lt _ hpos
  have hx : x % q < q := Nat.mod_lt _ hpos
  have hd : ∀ j, ω (j + (x + (q - y % q)) % q) = ω j := by
    intro j
    rw [period_mod hper (show (j + (x + (q - y % q)) % q) % q = (x + (j + (q - y % q))) % q by
      rw [Nat.add_mod_mod]; congr 1; omega), heq]
    apply period_mod hper
    have : y + (j + (q - y % q)) = j + q * (y / q + 1) := by
      have := Nat.mod_add_div y q
      rw [Nat.mul_add]
      omega
    rw [this, Nat.add_mul_mod_self_left]
  have hz : (x + (q - y % q)) % q = 0 := by
    rcases Nat.eq_zero_or_pos ((x + (q - y % q)) % q) with h0 | h0
    · exact h0
    · exact absurd hd (hmin _ h0 (Nat.mod_lt _ hpos))
  rw [← Nat.mod_add_mod] at hz
  by_cases hlt : x % q + (q - y % q) < q
  · rw [Nat.mod_eq_of_lt hlt] at hz
    omega
  · rw [Nat.mod_eq_sub_mod (by omega), Nat.mod_eq_of_lt (by omega)] at hz
    omega

theorem levels_mono {q n : Nat} (h : q ≤ n) (k : Nat) : levels q k ≤ levels n k := by
  induction k with
  | zero => exact Nat.le_refl _
  | succ k ih => simp only [levels]; omega

theorem periodicPairs_mono {q n : Nat} (h : q ≤ n) (k : Nat) : periodicPairs q k ≤ periodicPairs n k := by
  have h1 := levels_mono h k
  have h2 : (q + 1) * (q * (q - 2)) ≤ (n + 1) * (n * (n - 2)) :=
    Nat.mul_le_mul (by omega) (Nat.mul_le_mul h (by omega))
  unfold periodicPairs
  omega

/-- A list with a period is a piece of a periodic sequence. -/
theorem HasPeriod.eq_seg {l : List UInt8} (h : HasPeriod p l) :
    l = seg (fun i => l[i % p]?.getD 0) 0 l.length := by
  have hm : ∀ k i, i + p * k < l.length → l[i + p * k]? = l[i]? := by
    intro k
    induction k with
    | zero => intro i _; rfl
    | succ k ih =>
      intro i hi
      rw [Nat.mul_succ, ← Nat.add_assoc] at hi ⊢
      rw [h _ hi, ih i (by omega)]
  apply List.ext_getElem?
  intro i
  by_cases hi : i < l.length
  · simp only [seg, List.getElem?_map, List.getElem?_range hi, Option.map_some, Nat.zero_add]
    have h1 := hm (i / p) (i % p) (by rw [Nat.mod_add_div]; exact hi)
    rw [Nat.mod_add_div] at h1
    rw [← h1, List.getElem?_eq_getElem hi]
    rfl
  · rw [List.getElem?_eq_none (by omega), List.getElem?_eq_none (by simp; omega)]

theorem within_periodic {pre l : List UInt8} {k : Nat} (hp : 0 < p) (h : HasPeriod p l) (hl : l.length < 2 ^ k)
    (known : List (List UInt8)) : Within known (pre ++ l) (pre.length + periodicPairs p k) := by
  obtain ⟨q, hq, hω⟩ := primitive_exists (ω := fun i => l[i % p]?.getD 0) hp (fun i => by simp)
  have := within_prefix hω (k := k) pre.length pre (Nat.le_refl _) known 0 l.length hl
  rw [← HasPeriod.eq_seg h] at this
  exact this.mono (by have := periodicPairs_mono hq k; omega)

end Periodic
end Cniic
