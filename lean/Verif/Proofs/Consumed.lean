import Verif.Proofs.Position
import Verif.Proofs.Trailing

/-!
# Proofs: the bytes that a decoder consumes

A decoder works through several iterators, each of which holds the rest of the reader's bytes somewhere in its state.
`Tame` compares a run of such an iterator with a run of the same iterator that has more bytes at the end.
-/

namespace Cniic
open Spec SerSpec

/-- The state of an iterator that ends in a list of bytes. -/
class Tape (σ : Type) where
  /-- the bytes that have not been taken -/
  left : σ → List UInt8
  /-- the same state with more bytes at the end -/
  more : σ → List UInt8 → σ

instance : Tape (List UInt8) := ⟨id, fun l x => l ++ x⟩
instance : Tape BitReader := ⟨fun r => r.bytes, fun r x => { r with bytes := r.bytes ++ x }⟩
instance {T : Type} : Tape (DecStream T) := ⟨fun s => s.bits.bytes, DecStream.more⟩
instance {σ : Type} [Tape σ] : Tape (FromDiff σ) :=
  ⟨fun s => Tape.left s.diffStream, fun s x => { s with diffStream := Tape.more s.diffStream x }⟩
instance : Tape RleDecoder := ⟨fun s => s.bytes, fun s x => { s with bytes := s.bytes ++ x }⟩
instance : Tape DictDecoder := ⟨fun s => s.encoded, fun s x => { s with encoded := s.encoded ++ x }⟩
instance : Tape Back.Decoder := ⟨fun s => s.iter, fun s x => { s with iter := s.iter ++ x }⟩

open Tape

/-- The iterator does not notice the additional bytes. -/
def Agrees {σ α : Type} [Tape σ] (m : Rd σ α) (s : σ) (x : List UInt8) : Prop :=
  m (more s x) = ((m s).1, more (m s).2 x)

/-- The iterator wanted more bytes than there were (and then, if `k`, did not succeed), and takes some of the additional
ones. -/
def Starved {σ α : Type} [Tape σ] (k : Prop) (m : Rd σ α) (s : σ) (x : List UInt8) : Prop :=
  ((m s).1 = .panic ∨ ((k → ∀ a, (m s).1 ≠ .ok a) ∧ left (m s).2 = [])) ∧
  ((m (more s x)).1 = .panic ∨ (left (m (more s x)).2).length < x.length)

/-- The iterator takes bytes from the front, and notices additional bytes only if it wanted more than there were. -/
structure Tame {σ α : Type} [Tape σ] (k : Prop) (m : Rd σ α) : Prop where
  suffix : ∀ s, (m s).1 ≠ .panic → left (m s).2 <:+ left s
  cases : ∀ s, (∀ x, Agrees m s x) ∨ ∀ x, x ≠ [] → Starved k m s x

namespace Tame

variable {σ : Type} [Tape σ]

theorem of_const {α : Type} {k : Prop} {m : Rd σ α} (r : Ret Unit α) (h : ∀ s, m s = (r, s)) : Tame k m where
  suffix s _ := by rw [h]; exact List.suffix_refl _
  cases s := by left; intro x; unfold Agrees; rw [h, h]

theorem pure {α : Type} {k : Prop} (a : α) : Tame k (Pure.pure a : Rd σ α) := of_const (.ok a) fun _ => rfl

theorem none {α : Type} {k : Prop} : Tame k (Rd.none : Rd σ α) := of_const (.err ()) fun _ => rfl

theorem panic {α : Type} {k : Prop} : Tame k (Proc.panic : Rd σ α) := of_const .panic fun _ => rfl

theorem orPanic {α : Type} {k : Prop} (o : Option α) : Tame k (Cniic.orPanic o : Rd σ α) := by
  cases o with
  | none => exact panic
  | some a => exact pure a

theorem bind {α β : Type} {k : Prop} {m : Rd σ α} {f : α → Rd σ β} (h : Tame True m) (hf : ∀ a, Tame k (f a)) :
    Tame k (m >>= f) where
  suffix s hp := by
    have h1 := h.suffix s
    rcases hm : m s with ⟨a | _ | _, s1⟩
    · rw [Proc.bind_ok hm] at hp ⊢
      rw [hm] at h1
      exact ((hf a).suffix s1 hp).trans (h1 (by simp))
    · rw [Proc.bind_err hm]
      rw [hm] at h1
      exact h1 (by simp)
    · rw [Proc.bind_panic hm] at hp
      exact absurd rfl hp
  cases s := by
    rcases h.cases s with ha | hs
    · unfold Agrees at ha
      rcases hm : m s with ⟨a | _ | _, s1⟩ <;> simp only [hm] at ha
      · have e1 : (m >>= f) s = f a s1 := Proc.bind_ok hm
        have e2 : ∀ x, (m >>= f) (more s x) = f a (more s1 x) := fun x => Proc.bind_ok (ha x)
        rcases (hf a).cases s1 with hb | hb
        · left
          intro x
          have hb := hb x
          unfold Agrees at hb ⊢
          rw [e1, e2]
          exact hb
        · right
          intro x hx
          have hb := hb x hx
          unfold Starved at hb ⊢
          rw [e1, e2]
          exact hb
      · left
        intro x
        unfold Agrees
        rw [Proc.bind_err hm, Proc.bind_err (ha x)]
      · left
        intro x
        unfold Agrees
        rw [Proc.bind_panic hm, Proc.bind_panic (ha x)]
    · right
      intro x hx
      obtain ⟨h1, h2⟩ := hs x hx
      refine ⟨?_, ?_⟩
      · rcases hm : m s with ⟨a | _ | _, s1⟩ <;> rw [hm] at h1
        · rcases h1 with h1 | ⟨h1, -⟩
          · cases h1
          · exact absurd rfl (h1 trivial a)
        · rw [Proc.bind_err hm]
          rcases h1 with h1 | ⟨-, h1⟩
          · cases h1
          · exact .inr ⟨fun _ _ e => (by cases e), h1⟩
        · rw [Proc.bind_panic hm]
          exact .inl rfl
      · rcases hm : m (more s x) with ⟨a | _ | _, t⟩ <;> rw [hm] at h2
        · rw [Proc.bind_ok hm]
          rcases h2 with h2 | h2
          · cases h2
          · by_cases hp : (f a t).1 = .panic
            · exact .inl hp
            · exact .inr (Nat.lt_of_le_of_lt ((hf a).suffix t hp).length_le h2)
        · rw [Proc.bind_err hm]
          rcases h2 with h2 | h2
          · cases h2
          · exact .inr h2
        · rw [Proc.bind_panic hm]
          exact .inl rfl

theorem readBytes {next : Rd σ UInt8} (h : Tame True next) : ∀ n, Tame True (Cniic.readBytes next n)
  | 0 => pure _
  | n + 1 => bind h fun _ => bind (readBytes h n) fun _ => pure _

/-- The iterator called until it has given `n` items. -/
def takeAll {α : Type} (next : Rd σ α) : Nat → Rd σ (List α)
  | 0 => Pure.pure []
  | n + 1 => do
    let a ← next
    let as ← takeAll next n
    Pure.pure (a :: as)

theorem all {α : Type} {next : Rd σ α} (h : Tame True next) : ∀ n, Tame True (takeAll next n)
  | 0 => pure _
  | n + 1 => bind h fun _ => bind (all h n) fun _ => pure _

end Tame

/-- Values of the type are read by a program that calls `next` and does nothing else with the bytes. -/
class TameSer (α : Type) [Ser α] : Prop where
  de {σ : Type} [Tape σ] {next : Rd σ UInt8} : Tame True next → Tame True (Cniic.de next : Rd σ α)

instance : TameSer UInt8 := ⟨fun h => h⟩
instance : TameSer UInt16 := ⟨fun h => .bind (.readBytes h 2) fun _ => .pure _⟩
instance : TameSer UInt32 := ⟨fun h => .bind (.readBytes h 4) fun _ => .pure _⟩
instance : TameSer UInt64 := ⟨fun h => .bind (.readBytes h 8) fun _ => .pure _⟩
instance : TameSer Usize := ⟨fun h => .bind (TameSer.de (α := UInt64) h) fun _ => .pure _⟩
instance {α β : Type} [Ser α] [Ser β] [TameSer α] [TameSer β] : TameSer (α × β) :=
  ⟨fun h => .bind (TameSer.de (α := α) h) fun _ => .bind (TameSer.de (α := β) h) fun _ => .pure _⟩

theorem Tame.readN {α σ : Type} [Tape σ] [Ser α] [TameSer α] {next : Rd σ UInt8} (h : Tame True next) :
    ∀ n, Tame True (Cniic.readN next n : Rd σ (List α))
  | 0 => .pure _
  | n + 1 => .bind (TameSer.de (α := α) h) fun _ => .bind (Tame.readN h n) fun _ => .pure _

instance {α : Type} [Ser α] [TameSer α] : TameSer (List α) :=
  ⟨fun h => .bind (TameSer.de (α := Usize) h) fun _ => .readN h _⟩

instance {T : Type} [Ser T] [TameSer T] : TameSer (Rgb T) :=
  ⟨fun h => .bind (TameSer.de (α := List T) h) fun vec => by
    match vec with
    | [r, g, b] => exact .pure _
    | [] => exact .none
    | [_] => exact .none
    | [_, _] => exact .none
    | _ :: _ :: _ :: _ :: _ => exact .none⟩

/-! ## The iterators of the decoders -/

theorem listNext_tame : Tame True (listNext : Rd (List UInt8) UInt8) where
  suffix s _ := by
    cases s with
    | nil => exact List.suffix_refl _
    | cons a l => exact List.suffix_cons a l
  cases s := by
    cases s with
    | nil =>
      right
      intro x hx
      obtain ⟨b, x, rfl⟩ := List.exists_cons_of_ne_nil hx
      exact ⟨.inr ⟨fun _ _ e => (by cases e), rfl⟩, .inr (Nat.lt_succ_self _)⟩
    | cons a l => exact .inl fun _ => rfl

theorem bits_tame : Tame True (BitReader.next .msbFirst) where
  suffix s hp := by
    obtain ⟨front, bytes⟩ := s
    cases front with
    | cons b bs => exact List.suffix_refl _
    | nil =>
      cases bytes with
      | nil => exact List.suffix_refl _
      | cons n ns =>
        unfold BitReader.next
        simp only
        split <;> exact List.suffix_cons n ns
  cases s := by
    obtain ⟨front, bytes⟩ := s
    cases front with
    | cons b bs => exact .inl fun _ => rfl
    | nil =>
      cases bytes with
      | nil =>
        right
        intro x hx
        obtain ⟨b, x, rfl⟩ := List.exists_cons_of_ne_nil hx
        refine ⟨.inr ⟨fun _ _ e => (by cases e), rfl⟩, .inr ?_⟩
        simp only [more, BitReader.next, List.nil_append]
        split <;> exact Nat.lt_succ_self _
      | cons n ns =>
        left
        intro x
        simp only [Agrees, more, BitReader.next, List.cons_append]
        split <;> rfl

theorem lookup_tame {T : Type} : ∀ t : BinTrie T, Tame True (t.lookup (BitReader.next .msbFirst))
  | .leaf _ => .pure _
  | .branch l r => .bind bits_tame fun b => by
    cases b
    · exact lookup_tame l
    · exact lookup_tame r

theorem decStream_tame {T : Type} : Tame True (DecStream.next : Rd (DecStream T) T) where
  suffix s hp := (lookup_tame s.dec).suffix s.bits hp
  cases s := by
    rcases (lookup_tame s.dec).cases s.bits with h | h
    · left
      intro x
      have h := h x
      unfold Agrees at h
      show (_, _) = (_, _)
      simp only [more, DecStream.more] at h ⊢
      rw [h]
      rfl
    · exact .inr h

theorem fromDiff_tame {σ : Type} [Tape σ] (chk : Bool) {next : Rd σ SignedColor} (h : Tame True next) :
    Tame True (FromDiff.next chk next) where
  suffix s hp := by
    have h1 := h.suffix s.diffStream
    unfold FromDiff.next at hp ⊢
    rcases hn : next s.diffStream with ⟨a | _ | _, d⟩ <;> rw [hn] at h1 <;> simp only [hn] at hp ⊢
    · have h2 := h1 (by simp)
      split
      · exact h2
      · split <;> exact h2
    · exact h1 (by simp)
    · exact absurd rfl hp
  cases s := by
    rcases h.cases s.diffStream with ha | hs
    · left
      intro x
      have ha := ha x
      unfold Agrees at ha ⊢
      unfold FromDiff.next
      simp only [more] at ha ⊢
      rw [ha]
      rcases next s.diffStream with ⟨a | _ | _, d⟩
      · simp only
        split
        · rfl
        · split <;> rfl
      · rfl
      · rfl
    · right
      intro x hx
      obtain ⟨h1, h2⟩ := hs x hx
      refine ⟨?_, ?_⟩
      · unfold FromDiff.next
        rcases hn : next s.diffStream with ⟨a | _ | _, d⟩ <;> rw [hn] at h1
        · rcases h1 with h1 | ⟨h1, -⟩
          · cases h1
          · exact absurd rfl (h1 trivial a)
        · rcases h1 with h1 | ⟨-, h1⟩
          · cases h1
          · exact .inr ⟨fun _ _ e => (by cases e), h1⟩
        · exact .inl rfl
      · unfold FromDiff.next
        simp only [more] at h2 ⊢
        rcases hn : next (Tape.more s.diffStream x) with ⟨a | _ | _, d⟩ <;> rw [hn] at h2
        · rcases h2 with h2 | h2
          · cases h2
          · simp only
            split
            · exact .inl rfl
            · split
              · exact .inr h2
              · exact .inl rfl
        · rcases h2 with h2 | h2
          · cases h2
          · exact .inr h2
        · exact .inl rfl

theorem rle_tame : Tame True RleDecoder.next where
  suffix s hp := by
    unfold RleDecoder.next at hp ⊢
    split at hp
    · rename_i h0
      rw [if_pos h0]
      have h1 := (TameSer.de (α := UInt8) listNext_tame).suffix s.bytes
      rcases hn : (de listNext s.bytes : Ret Unit UInt8 × List UInt8) with ⟨n | _ | _, l1⟩ <;> rw [hn] at h1 <;>
        simp only [hn] at hp ⊢
      · have h2 := h1 (by simp)
        split
        · have h3 := (TameSer.de (α := Rgb UInt8) listNext_tame).suffix l1
          rcases hc : (de listNext l1 : Ret Unit (Rgb UInt8) × List UInt8) with ⟨c | _ | _, l2⟩ <;> rw [hc] at h3
          · exact (h3 (by simp)).trans h2
          · exact (h3 (by simp)).trans h2
          · rename_i hg
            rw [if_pos hg] at hp
            simp only [hc] at hp
            exact absurd rfl hp
        · exact h2
      · exact h1 (by simp)
      · exact absurd rfl hp
    · rename_i h0
      rw [if_neg h0]
      exact List.suffix_refl _
  cases s := by
    obtain ⟨bytes, color, count⟩ := s
    by_cases h0 : count = 0
    · subst h0
      cases bytes with
      | nil =>
        right
        intro x hx
        obtain ⟨b, x, rfl⟩ := List.exists_cons_of_ne_nil hx
        refine ⟨.inr ⟨fun _ _ e => (by cases e), rfl⟩, ?_⟩
        show (RleDecoder.next ⟨b :: x, color, 0⟩).1 = .panic ∨ _ < _
        simp only [more, List.nil_append]
        unfold RleDecoder.next
        simp only [if_true]
        have hn : (de listNext (b :: x) : Ret Unit UInt8 × List UInt8) = (.ok b, x) := rfl
        simp only [hn]
        split
        · have h3 := (TameSer.de (α := Rgb UInt8) listNext_tame).suffix x
          rcases hc : (de listNext x : Ret Unit (Rgb UInt8) × List UInt8) with ⟨c | _ | _, l2⟩ <;> rw [hc] at h3
          · exact .inr (Nat.lt_succ_of_le (h3 (by simp)).length_le)
          · exact .inl rfl
          · exact .inl rfl
        · exact .inl rfl
      | cons b bytes =>
        have hn : ∀ l, (de listNext (b :: l) : Ret Unit UInt8 × List UInt8) = (.ok b, l) := fun _ => rfl
        by_cases hb : b > 0
        · rcases (TameSer.de (α := Rgb UInt8) listNext_tame).cases bytes with ha | hs
          · left
            intro x
            have ha := ha x
            unfold Agrees at ha ⊢
            simp only [more, RleDecoder.next, if_true, List.cons_append, hn, if_pos hb] at ha ⊢
            rw [ha]
            rcases (de listNext bytes : Ret Unit (Rgb UInt8) × List UInt8) with ⟨c | _ | _, l2⟩ <;> rfl
          · right
            intro x hx
            obtain ⟨h1, h2⟩ := hs x hx
            unfold Starved
            simp only [more, RleDecoder.next, if_true, List.cons_append, hn, if_pos hb] at h1 h2 ⊢
            refine ⟨?_, ?_⟩
            · rcases hc : (de listNext bytes : Ret Unit (Rgb UInt8) × List UInt8) with ⟨c | _ | _, l2⟩ <;> rw [hc] at h1
              · rcases h1 with h1 | ⟨h1, -⟩
                · cases h1
                · exact absurd rfl (h1 trivial c)
              · exact .inl rfl
              · exact .inl rfl
            · rcases hc : (de listNext (bytes ++ x) : Ret Unit (Rgb UInt8) × List UInt8) with ⟨c | _ | _, l2⟩ <;>
                rw [hc] at h2
              · rcases h2 with h2 | h2
                · cases h2
                · exact .inr h2
              · exact .inl rfl
              · exact .inl rfl
        · left
          intro x
          unfold Agrees
          simp only [more, RleDecoder.next, if_true, List.cons_append, hn, if_neg hb]
    · left
      intro x
      unfold Agrees
      simp only [more, RleDecoder.next, if_neg h0]

theorem nextSymbol_tame : Tame True nextSymbol := TameSer.de (α := UInt16) listNext_tame

/-- The decoder on four bytes that it has not looked at. -/
theorem dict_four (a b c d : UInt8) (mp : Symbol → Option (List UInt8)) (ab : Symbol) :
    (∀ rest, DictDecoder.next ⟨a :: b :: c :: d :: rest, [], mp, ab⟩ = (.panic, ⟨rest, [], mp, ab⟩)) ∨
    ∃ pd mp' ab', ∀ rest, DictDecoder.next ⟨a :: b :: c :: d :: rest, [], mp, ab⟩ =
      DictDecoder.next ⟨rest, pd, mp', ab'⟩ := by
  have hnext : ∀ rest, DictDecoder.next ⟨a :: b :: c :: d :: rest, [], mp, ab⟩ =
      match mp (UInt16.ofNat (a.toNat + 256 * (b.toNat + 256 * 0))),
        mp (UInt16.ofNat (c.toNat + 256 * (d.toNat + 256 * 0))) with
      | some seq1, some seq2 =>
        match abbrevNext ab with
        | (some code, counter) =>
          DictDecoder.next { encoded := rest, prevDecoded := seq1 ++ seq2,
                             mapping := newMapping mp code (seq1 ++ seq2), abbrev_ := counter }
        | (none, counter) =>
          DictDecoder.next { encoded := rest, prevDecoded := seq1 ++ seq2,
                             mapping := mp, abbrev_ := counter }
      | _, _ => (.panic, ⟨rest, [], mp, ab⟩) := by
    intro rest
    rw [DictDecoder.next]; rfl
  generalize mp (UInt16.ofNat (a.toNat + 256 * (b.toNat + 256 * 0))) = o1 at hnext
  generalize mp (UInt16.ofNat (c.toNat + 256 * (d.toNat + 256 * 0))) = o2 at hnext
  generalize abbrevNext ab = o3 at hnext
  rcases o1 with _ | seq1
  · exact .inl hnext
  · rcases o2 with _ | seq2
    · exact .inl hnext
    · rcases o3 with ⟨_ | code, counter⟩
      · exact .inr ⟨_, _, _, hnext⟩
      · exact .inr ⟨_, _, _, hnext⟩

/-- The decoder on fewer bytes than it needs. -/
theorem dict_short {e : List UInt8} (he : e.length < 4) (mp : Symbol → Option (List UInt8)) (ab : Symbol) :
    (DictDecoder.next ⟨e, [], mp, ab⟩).1 = .panic ∨
    (DictDecoder.next ⟨e, [], mp, ab⟩).1 = .err () ∧ (DictDecoder.next ⟨e, [], mp, ab⟩).2.encoded = [] := by
  match e, he with
  | [], _ => right; rw [DictDecoder.next]; exact ⟨rfl, rfl⟩
  | [a], _ => right; rw [DictDecoder.next]; exact ⟨rfl, rfl⟩
  | [a, b], _ => left; rw [DictDecoder.next]; rfl
  | [a, b, c], _ => left; rw [DictDecoder.next]; rfl

theorem dict_suffix (n : Nat) : ∀ d : DictDecoder, d.encoded.length ≤ n → d.next.1 ≠ .panic →
    d.next.2.encoded <:+ d.encoded := by
  induction n using Nat.strongRecOn with
  | _ n ih =>
    rintro ⟨e, pd, mp, ab⟩ hn hp
    cases pd with
    | cons x xs =>
      rw [DictDecoder.next]
      exact List.suffix_refl _
    | nil =>
      by_cases he : e.length < 4
      · rcases dict_short he mp ab with h | ⟨-, h⟩
        · exact absurd h hp
        · rw [h]
          exact List.nil_suffix
      · match e, he with
        | a :: b :: c :: d :: rest, _ =>
          rcases dict_four a b c d mp ab with h | ⟨pd, mp', ab', h⟩ <;> rw [h] at hp ⊢
          · exact absurd rfl hp
          · simp only [List.length_cons] at hn
            have h1 := ih (n - 4) (by omega) ⟨rest, pd, mp', ab'⟩ (by simp only; omega) hp
            exact h1.trans ⟨[a, b, c, d], rfl⟩
        | [], h => simp at h
        | [_], h => simp at h
        | [_, _], h => simp at h
        | [_, _, _], h => simp at h

theorem dict_tame : Tame True DictDecoder.next where
  suffix d hp := dict_suffix _ d (Nat.le_refl _) hp
  cases d := by
    obtain ⟨e, pd, mp, ab⟩ := d
    generalize hn : e.length = n
    induction n using Nat.strongRecOn generalizing e pd mp ab with
    | _ n ih =>
      cases pd with
      | cons y ys =>
        left
        intro x
        unfold Agrees
        simp only [more]
        rw [DictDecoder.next, DictDecoder.next]
      | nil =>
        by_cases he : e.length < 4
        · right
          intro x hx
          refine ⟨?_, ?_⟩
          · rcases dict_short he mp ab with h | ⟨h, h'⟩
            · exact .inl h
            · exact .inr ⟨fun _ a ha => (by rw [h] at ha; cases ha), h'⟩
          · simp only [more]
            have hpos : 0 < x.length := List.length_pos_iff.2 hx
            by_cases hy : (e ++ x).length < 4
            · rcases dict_short hy mp ab with h | ⟨-, h⟩
              · exact .inl h
              · right
                show (DictDecoder.encoded _).length < _
                rw [h]
                exact hpos
            · generalize hz : e ++ x = z at hy
              have hl : z.length = e.length + x.length := by rw [← hz, List.length_append]
              match z, hy with
              | a :: b :: c :: d :: rest, _ =>
                rcases dict_four a b c d mp ab with h | ⟨pd, mp', ab', h⟩ <;> rw [h]
                · exact .inl rfl
                · by_cases hp : (DictDecoder.next ⟨rest, pd, mp', ab'⟩).1 = .panic
                  · exact .inl hp
                  · right
                    have h1 := (dict_suffix _ ⟨rest, pd, mp', ab'⟩ (Nat.le_refl _) hp).length_le
                    simp only [List.length_cons] at hl
                    show (DictDecoder.encoded _).length < _
                    simp only at h1
                    omega
              | [], h => simp at h
              | [_], h => simp at h
              | [_, _], h => simp at h
              | [_, _, _], h => simp at h
        · match e, he with
          | a :: b :: c :: d :: rest, _ =>
            rcases dict_four a b c d mp ab with h | ⟨pd, mp', ab', h⟩
            · left
              intro x
              unfold Agrees
              simp only [more, List.cons_append, h]
            · simp only [List.length_cons] at hn
              rcases ih rest.length (by omega) rest pd mp' ab' rfl with h1 | h1
              · left
                intro x
                have h1 := h1 x
                unfold Agrees at h1 ⊢
                simp only [more, List.cons_append, h] at h1 ⊢
                exact h1
              · right
                intro x hx
                have h1 := h1 x hx
                unfold Starved at h1 ⊢
                simp only [more, List.cons_append, h] at h1 ⊢
                exact h1
          | [], h => simp at h
          | [_], h => simp at h
          | [_, _], h => simp at h
          | [_, _, _], h => simp at h

/-! ## Lookback -/

theorem takeCollect_all {n : Nat} {l : List UInt8} :
    (n ≤ l.length → Back.takeCollect listNext n l = (.ok (l.take n), l.drop n)) ∧
    (l.length < n → Back.takeCollect listNext n l = (.ok l, [])) := by
  induction n generalizing l with
  | zero => exact ⟨fun _ => rfl, fun h => by omega⟩
  | succ n ih =>
    cases l with
    | nil => exact ⟨fun h => by simp at h, fun _ => rfl⟩
    | cons a l =>
      refine ⟨fun h => ?_, fun h => ?_⟩
      · have := (ih (l := l)).1 (by simpa using h)
        simp only [Back.takeCollect, listNext_cons, this, List.take_succ_cons, List.drop_succ_cons]
      · have := (ih (l := l)).2 (by simpa using h)
        simp only [Back.takeCollect, listNext_cons, this]

theorem symbol_tame : Tame True (Back.Symbol.de listNext) := by
  refine .bind (TameSer.de (α := UInt16) listNext_tame) fun c => ?_
  rcases Back.decompressLen c with ⟨k, len⟩
  simp only
  split
  · have hfull : ∀ l : List UInt8, len ≤ l.length → (do
        let data ← Back.takeCollect listNext len
        Proc.assert (data.length == len)
        pure (.explicit data) : Rd (List UInt8) Back.Symbol) l = (.ok (.explicit (l.take len)), l.drop len) := by
      intro l hl
      rw [Proc.bind_ok (takeCollect_all.1 hl)]
      have : ((l.take len).length == len) = true := by simpa using Nat.min_eq_left hl
      rw [this]
      rfl
    have hpart : ∀ l : List UInt8, l.length < len → ((do
        let data ← Back.takeCollect listNext len
        Proc.assert (data.length == len)
        pure (.explicit data) : Rd (List UInt8) Back.Symbol) l).1 = .panic := by
      intro l hl
      rw [Proc.bind_ok (takeCollect_all.2 hl)]
      have : (l.length == len) = false := by simpa using Nat.ne_of_lt hl
      rw [this]
      rfl
    refine ⟨fun l hp => ?_, fun l => ?_⟩
    · by_cases hl : len ≤ l.length
      · rw [hfull l hl]
        exact List.drop_suffix _ _
      · exact absurd (hpart l (by omega)) hp
    · by_cases hl : len ≤ l.length
      · left
        intro x
        unfold Agrees
        simp only [more]
        rw [hfull l hl, hfull (l ++ x) (by rw [List.length_append]; omega), List.take_append_of_le_length hl,
          List.drop_append_of_le_length hl]
      · right
        intro x hx
        refine ⟨.inl (hpart l (by omega)), ?_⟩
        simp only [more]
        by_cases hy : len ≤ (l ++ x).length
        · right
          rw [hfull _ hy]
          simp only [left, id, List.length_drop, List.length_append] at hy ⊢
          omega
        · exact .inl (hpart _ (by omega))
  · split
    · exact .bind (TameSer.de (α := UInt16) listNext_tame) fun _ => .pure _
    · exact .panic

/-- What the decoder does with what it has read. -/
theorem back_read (h : Back.RingBuffer UInt8) (l l' : List UInt8) (r : Ret Unit Back.Symbol)
    (hr : Back.Symbol.de listNext l = (r, l')) :
    (Back.Decoder.next ⟨l, h, []⟩).1 = .panic ∨ (Back.Decoder.next ⟨l, h, []⟩).2.iter = l' := by
  unfold Back.Decoder.next Back.Decoder.decodeNext
  rcases r with (data | ⟨len, back⟩) | _ | _ <;> simp only [hr]
  · right
    split <;> rfl
  · split
    · exact .inl rfl
    · rename_i hd
      split at hd
      · cases hd
      · cases hd
        right
        split <;> rfl
  · exact .inr trivial
  · exact .inl trivial

theorem back_tame : Tame True Back.Decoder.next where
  suffix d hp := by
    obtain ⟨l, h, dec⟩ := d
    cases dec with
    | cons b bs => exact List.suffix_refl _
    | nil =>
      have h1 := symbol_tame.suffix l
      rcases hr : Back.Symbol.de listNext l with ⟨r, l'⟩
      rcases back_read h l l' r hr with h2 | h2
      · exact absurd h2 hp
      · show Back.Decoder.iter _ <:+ _
        rw [h2]
        rw [hr] at h1
        refine h1 ?_
        rintro rfl
        unfold Back.Decoder.next Back.Decoder.decodeNext at hp
        simp only [hr] at hp
        exact hp rfl
  cases d := by
    obtain ⟨l, h, dec⟩ := d
    cases dec with
    | cons b bs => exact .inl fun _ => rfl
    | nil =>
      rcases symbol_tame.cases l with ha | hs
      · rcases hr : Back.Symbol.de listNext l with ⟨r, l'⟩
        unfold Agrees at ha
        simp only [hr, more] at ha
        by_cases hp : r = .panic
        · right
          intro x hx
          subst hp
          refine ⟨.inl ?_, .inl ?_⟩
          · unfold Back.Decoder.next Back.Decoder.decodeNext
            simp only [hr]
          · unfold Back.Decoder.next Back.Decoder.decodeNext
            simp only [more, ha]
        · by_cases hlb : ∃ len back, r = .ok (.lookBack len back) ∧ h.lookbackSequence len back = none
          · obtain ⟨len, back, rfl, e⟩ := hlb
            right
            intro x hx
            refine ⟨.inl ?_, .inl ?_⟩
            · unfold Back.Decoder.next Back.Decoder.decodeNext
              simp only [hr, e]
            · unfold Back.Decoder.next Back.Decoder.decodeNext
              simp only [more, ha, e]
          · left
            intro x
            unfold Agrees Back.Decoder.next Back.Decoder.decodeNext
            rcases r with (data | ⟨len, back⟩) | _ | _ <;> simp only [more, hr, ha, List.nil_append]
            · cases data <;> rfl
            · rcases e : h.lookbackSequence len back with _ | bytes
              · exact absurd ⟨len, back, rfl, e⟩ hlb
              · cases bytes <;> rfl
      · right
        intro x hx
        obtain ⟨h1, h2⟩ := hs x hx
        refine ⟨?_, ?_⟩
        · rcases hr : Back.Symbol.de listNext l with ⟨r, l'⟩
          rw [hr] at h1
          rcases h1 with h1 | ⟨h1, h3⟩
          · left
            simp only at h1
            subst h1
            unfold Back.Decoder.next Back.Decoder.decodeNext
            simp only [hr]
          · rcases r with a | _ | _
            · exact absurd rfl (h1 trivial a)
            · right
              have e : Back.Decoder.next ⟨l, h, []⟩ = (.err (), ⟨l', h, []⟩) := by
                unfold Back.Decoder.next Back.Decoder.decodeNext
                simp only [hr]
              rw [e]
              exact ⟨fun _ _ e => (by cases e), h3⟩
            · left
              unfold Back.Decoder.next Back.Decoder.decodeNext
              simp only [hr]
        · simp only [more] at h2 ⊢
          rcases hr : Back.Symbol.de listNext (l ++ x) with ⟨r, l'⟩
          rw [hr] at h2
          rcases back_read h _ l' r hr with h3 | h3
          · exact .inl h3
          · rcases h2 with h2 | h2
            · left
              simp only at h2
              subst h2
              unfold Back.Decoder.next Back.Decoder.decodeNext
              simp only [hr]
            · right
              show (Back.Decoder.iter _).length < _
              rw [h3]
              exact h2

/-! ## Painting -/

theorem paint_tame {σ : Type} [Tape σ] {next : Rd σ (Rgb UInt8)} (h : Tame True next) :
    ∀ (cs : List (Nat × Nat)) (img : RgbImage), Tame False (paint next cs img)
  | [], img => .pure img
  | (x, y) :: cs, img =>
    { suffix := fun s hp => by
        have h1 := h.suffix s
        rw [paint] at hp ⊢
        rcases hn : next s with ⟨c | _ | _, s'⟩ <;> rw [hn] at h1 <;> simp only [hn] at hp ⊢
        · rcases hi : img.put x y c with _ | img' <;> simp only [hi] at hp ⊢
          · exact absurd rfl hp
          · exact ((paint_tame h cs img').suffix s' hp).trans (h1 (by simp))
        · exact h1 (by simp)
        · exact absurd rfl hp
      cases := fun s => by
        have go : ∀ s, paint next ((x, y) :: cs) img s =
            match next s with
            | (.ok color, s) =>
              match img.put x y color with
              | some img => paint next cs img s
              | none => (.panic, s)
            | (.err _, s) => (.ok img, s)
            | (.panic, s) => (.panic, s) := fun s => by rw [paint]; rfl
        rcases h.cases s with ha | hs
        · unfold Agrees at ha
          rcases hn : next s with ⟨c | _ | _, s'⟩ <;> simp only [hn] at ha
          · rcases hi : img.put x y c with _ | img'
            · left
              intro z
              unfold Agrees
              simp only [go, hn, ha, hi]
            · rcases (paint_tame h cs img').cases s' with hb | hb
              · left
                intro z
                have hb := hb z
                unfold Agrees at hb ⊢
                simp only [go, hn, ha, hi]
                exact hb
              · right
                intro z hz
                have hb := hb z hz
                unfold Starved at hb ⊢
                simp only [go, hn, ha, hi]
                exact hb
          · left
            intro z
            unfold Agrees
            simp only [go, hn, ha]
          · left
            intro z
            unfold Agrees
            simp only [go, hn, ha]
        · right
          intro z hz
          obtain ⟨h1, h2⟩ := hs z hz
          refine ⟨?_, ?_⟩
          · rcases hn : next s with ⟨c | _ | _, s'⟩ <;> rw [hn] at h1
            · rcases h1 with h1 | ⟨h1, -⟩
              · cases h1
              · exact absurd rfl (h1 trivial c)
            · right
              simp only [go, hn]
              rcases h1 with h1 | ⟨-, h1⟩
              · cases h1
              · exact ⟨False.elim, h1⟩
            · left
              simp only [go, hn]
          · rcases hn : next (more s z) with ⟨c | _ | _, t⟩ <;> rw [hn] at h2
            · rcases h2 with h2 | h2
              · cases h2
              · rcases hi : img.put x y c with _ | img'
                · left
                  simp only [go, hn, hi]
                · simp only [go, hn, hi]
                  by_cases hp : (paint next cs img' t).1 = .panic
                  · exact .inl hp
                  · exact .inr (Nat.lt_of_le_of_lt ((paint_tame h cs img').suffix t hp).length_le h2)
            · right
              simp only [go, hn]
              rcases h2 with h2 | h2
              · cases h2
              · exact h2
            · left
              simp only [go, hn] }

theorem decodeAny_tame {σ : Type} [Tape σ] {next : Rd σ (Rgb UInt8)} (h : Tame True next) (scan : Scan)
    (d : UInt32 × UInt32) : Tame False (decodeAny scan next d) :=
  .bind (.orPanic _) fun _ => paint_tame h _ _

theorem rebuildImage_tame {σ : Type} [Tape σ] {next : Rd σ UInt8} (h : Tame True next) :
    Tame True (rebuildImage next) :=
  .bind (TameSer.de (α := UInt32 × UInt32) h) fun _ => .bind (.orPanic _) fun _ => .bind (.readN h _) fun _ => .pure _

/-! ## Whole decoders -/

/-- A reader whose successes depend on the bytes that it consumes; if not `k`, it may have wanted more than there were. -/
structure Settled {α : Type} (k : Prop) (m : Rd (List UInt8) α) : Prop where
  suffix : ∀ {l a r}, m l = (.ok a, r) → r <:+ l
  extend : ∀ {l a r}, m l = (.ok a, r) → k → ∀ x, m (l ++ x) = (.ok a, r ++ x)
  cut : ∀ {l a r x}, m (l ++ x) = (.ok a, r) → x.length ≤ r.length → ∃ r', r = r' ++ x ∧ m l = (.ok a, r')
  other : ∀ {l a r x}, m (l ++ x) = (.ok a, r ++ x) → x ≠ [] → ∀ y, m (l ++ y) = (.ok a, r ++ y)

namespace Settled

theorem pure {α : Type} {k : Prop} (a : α) : Settled k (Pure.pure a : Rd (List UInt8) α) where
  suffix h := by cases h; exact List.suffix_refl _
  extend h _ _ := by cases h; rfl
  cut h _ := by cases h; exact ⟨_, rfl, rfl⟩
  other {l b r x} h _ y := by
    obtain ⟨h1, h2⟩ := Prod.mk.inj h
    cases h1
    rw [List.append_cancel_right h2]
    rfl

theorem panic {α : Type} {k : Prop} : Settled k (Proc.panic : Rd (List UInt8) α) where
  suffix h := by cases h
  extend h _ _ := by cases h
  cut h _ := by cases h
  other h _ _ := by cases h

theorem orPanic {α : Type} {k : Prop} (o : Option α) : Settled k (Cniic.orPanic o : Rd (List UInt8) α) := by
  cases o with
  | none => exact panic
  | some a => exact pure a

theorem bind {α β : Type} {k : Prop} {m : Rd (List UInt8) α} {f : α → Rd (List UInt8) β} (h : Settled True m)
    (hf : ∀ a, Settled k (f a)) : Settled k (m >>= f) where
  suffix hb := by
    obtain ⟨a, s, h1, h2⟩ := bind_ok_inv hb
    exact ((hf a).suffix h2).trans (h.suffix h1)
  extend hb hk x := by
    obtain ⟨a, s, h1, h2⟩ := bind_ok_inv hb
    exact (Proc.bind_ok (h.extend h1 trivial x)).trans ((hf a).extend h2 hk x)
  cut hb hx := by
    obtain ⟨a, s, h1, h2⟩ := bind_ok_inv hb
    obtain ⟨s', rfl, h3⟩ := h.cut h1 (Nat.le_trans hx ((hf a).suffix h2).length_le)
    obtain ⟨r', rfl, h4⟩ := (hf a).cut h2 hx
    exact ⟨r', rfl, (Proc.bind_ok h3).trans h4⟩
  other {l b r x} hb hx y := by
    obtain ⟨a, s, h1, h2⟩ := bind_ok_inv hb
    have hle := ((hf a).suffix h2).length_le
    rw [List.length_append] at hle
    obtain ⟨s', rfl, h3⟩ := h.cut h1 (by omega)
    exact (Proc.bind_ok (h.extend h3 trivial y)).trans ((hf a).other h2 hx y)

/-- A reader with a single way to write each value. -/
theorem of_bytes {α : Type} {m : Rd (List UInt8) α} (b : α → List UInt8) (V : α → Prop)
    (h1 : ∀ a, V a → ∀ r, m (b a ++ r) = (.ok a, r)) (h2 : ∀ l a r, m l = (.ok a, r) → V a ∧ l = b a ++ r) :
    Settled True m where
  suffix h := ⟨_, ((h2 _ _ _ h).2).symm⟩
  extend h _ x := by
    obtain ⟨hv, rfl⟩ := h2 _ _ _ h
    rw [List.append_assoc]
    exact h1 _ hv _
  cut {l a r x} h hx := by
    obtain ⟨hv, e⟩ := h2 _ _ _ h
    have e2 : l ++ x = (b a ++ r.take (r.length - x.length)) ++ r.drop (r.length - x.length) := by
      rw [List.append_assoc, List.take_append_drop, e]
    have hd : (r.drop (r.length - x.length)).length = x.length := by rw [List.length_drop]; omega
    obtain ⟨e3, e4⟩ := List.append_inj' e2 hd.symm
    refine ⟨r.take (r.length - x.length), ?_, ?_⟩
    · have h5 := List.take_append_drop (r.length - x.length) r
      rw [← e4] at h5
      exact h5.symm
    · rw [e3]
      exact h1 _ hv _
  other {l a r x} h hx y := by
    obtain ⟨hv, e⟩ := h2 _ _ _ h
    rw [← List.append_assoc] at e
    rw [List.append_cancel_right e, List.append_assoc]
    exact h1 _ hv _

theorem de {α : Type} [Ser α] [SerSpec α] [LawfulSer α] : Settled True (Cniic.de listNext : Rd (List UInt8) α) :=
  of_bytes SerSpec.bytes SerSpec.valid (fun a hv r => LawfulSer.de_bytes a hv r) LawfulSer.canon

theorem readN {α : Type} [Ser α] [SerSpec α] [LawfulSer α] :
    ∀ n, Settled True (Cniic.readN listNext n : Rd (List UInt8) (List α))
  | 0 => pure _
  | n + 1 => bind de fun _ => bind (readN n) fun _ => pure _

theorem tree {T : Type} [Ser T] [SerSpec T] [LawfulSer T] :
    Settled True (BinTrie.de : Rd (List UInt8) (BinTrie T)) :=
  of_bytes treeBytes TreeValid (fun t hv r => de_tree t hv r)
    fun l t r h => (deFuel_canon _ l (Nat.lt_succ_self _)).2 t r h

theorem congr {α : Type} {k : Prop} {m m' : Rd (List UInt8) α} (h : Settled k m)
    (e : ∀ {l a r}, m' l = (.ok a, r) ↔ m l = (.ok a, r)) : Settled k m' :=
  ⟨fun h1 => h.suffix (e.1 h1), fun h1 hk x => e.2 (h.extend (e.1 h1) hk x),
    fun h1 hx => (h.cut (e.1 h1) hx).imp fun _ h2 => ⟨h2.1, e.2 h2.2⟩,
    fun h1 hx y => e.2 (h.other (e.1 h1) hx y)⟩

theorem unwrap {α : Type} {k : Prop} {m : Rd (List UInt8) α} (h : Settled k m) :
    Settled k (Proc.unwrap m : Rd (List UInt8) α) := by
  have e : ∀ {l a r}, (Proc.unwrap m : Rd (List UInt8) α) l = (.ok a, r) ↔ m l = (.ok a, r) := by
    intro l a r
    unfold Proc.unwrap
    rcases m l with ⟨b | _ | _, s⟩ <;> simp
  exact h.congr e

theorem borrow {σ α : Type} [Tape σ] {k : Prop} {m : Rd σ α} (h : Tame k m) {start : List UInt8 → σ}
    {lef : σ → List UInt8} (hl : ∀ s, lef s = left s) (h1 : ∀ l, left (start l) = l)
    (h2 : ∀ l x, start (l ++ x) = more (start l) x) (h3 : ∀ (s : σ) x, left (more s x) = left s ++ x) :
    Settled k (borrowing start lef m) := by
  obtain rfl : lef = left := funext hl
  refine ⟨fun {l a r} hb => ?_, fun {l a r} hb hk x => ?_, fun {l a r x} hb hx => ?_, fun {l a r x} hb hx y => ?_⟩
  · unfold borrowing at hb
    obtain ⟨e1, e2⟩ := Prod.mk.inj hb
    have := h.suffix (start l) (by rw [e1]; simp)
    rwa [e2, h1] at this
  · by_cases hx : x = []
    · subst hx
      simpa using hb
    unfold borrowing at hb ⊢
    obtain ⟨e1, e2⟩ := Prod.mk.inj hb
    rw [h2]
    rcases h.cases (start l) with ha | hs
    · have ha := ha x
      unfold Agrees at ha
      rw [ha, h3, e1, e2]
    · obtain ⟨hs, -⟩ := hs x hx
      rw [e1, e2] at hs
      rcases hs with hs | ⟨hs, hr⟩
      · cases hs
      · exact absurd rfl (hs hk a)
  · by_cases hx0 : x = []
    · subst hx0
      exact ⟨r, (List.append_nil r).symm, by simpa using hb⟩
    unfold borrowing at hb ⊢
    rw [h2] at hb
    obtain ⟨e1, e2⟩ := Prod.mk.inj hb
    rcases h.cases (start l) with ha | hs
    · have ha := ha x
      unfold Agrees at ha
      rw [ha] at e1 e2
      rw [h3] at e2
      exact ⟨_, e2.symm, by rw [e1]⟩
    · obtain ⟨-, hs⟩ := hs x hx0
      rw [e1, e2] at hs
      rcases hs with hs | hs
      · cases hs
      · omega
  · unfold borrowing at hb ⊢
    rw [h2] at hb
    obtain ⟨e1, e2⟩ := Prod.mk.inj hb
    rcases h.cases (start l) with ha | hs
    · have hy := ha y
      have hx := ha x
      unfold Agrees at hx hy
      rw [hx] at e1 e2
      rw [h3] at e2
      rw [h2, hy, h3, e1, List.append_cancel_right e2]
    · obtain ⟨-, hs⟩ := hs x hx
      rw [e1, e2] at hs
      rcases hs with hs | hs
      · cases hs
      · rw [List.length_append] at hs
        omega

end Settled

end Cniic
