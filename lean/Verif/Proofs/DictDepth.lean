import Verif.Proofs.Depth
import Verif.Proofs.Checks
import Verif.Proofs.Decode

/-!
# The nesting of the calls of the dictionary decoder
-/

namespace Cniic
open Spec SerSpec

theorem nextDepth_or (n : Nat) : Proc.PanicOr (DictDecoder.nextDepth n) DictDecoder.next := by
  induction n with
  | zero => exact fun _ => .inl rfl
  | succ n ih =>
    intro d
    rw [DictDecoder.next, DictDecoder.nextDepth]
    rcases d with ⟨enc, prev, mp, ab⟩
    cases prev with
    | cons b bs => exact .inr rfl
    | nil =>
      simp only
      rcases h1 : nextSymbol enc with ⟨s1 | _ | _, l1⟩
      · simp only
        rcases h2 : nextSymbol l1 with ⟨s2 | _ | _, l2⟩
        · simp only
          cases mp s1 with
          | none => exact .inl rfl
          | some x =>
          cases mp s2 with
          | none => exact .inl rfl
          | some y =>
          simp only
          rcases abbrevNext ab with ⟨_ | code, counter⟩
          · exact ih _
          · exact ih _
        · exact .inl rfl
        · exact .inl rfl
      · exact .inr rfl
      · exact .inl rfl

/-- A pair of known symbols. -/
theorem dec_step {a b c d : UInt8} {rest : List UInt8} {mp ab known x y}
    (hd : DecInv ⟨a :: b :: c :: d :: rest, [], mp, ab⟩ known) (hx : expand known (a.toNat + 256 * b.toNat) = some x)
    (hy : expand known (c.toNat + 256 * d.toNat) = some y) :
    ∃ d1 : DictDecoder, d1.encoded = rest ∧ d1.prevDecoded = x ++ y ∧ DecInv d1 (learn known (x ++ y)) ∧
      DictDecoder.next ⟨a :: b :: c :: d :: rest, [], mp, ab⟩ = DictDecoder.next d1 ∧
      ∀ n, DictDecoder.nextDepth (n + 1) ⟨a :: b :: c :: d :: rest, [], mp, ab⟩ = DictDecoder.nextDepth n d1 := by
  have e1 := hd.map (UInt16.ofNat (a.toNat + 256 * (b.toNat + 256 * 0)))
  have e2 := hd.map (UInt16.ofNat (c.toNat + 256 * (d.toNat + 256 * 0)))
  have hlen := hd.len
  simp only at e1 e2 hlen
  have hnext : DictDecoder.next ⟨a :: b :: c :: d :: rest, [], mp, ab⟩ =
      match mp (UInt16.ofNat (a.toNat + 256 * (b.toNat + 256 * 0))),
        mp (UInt16.ofNat (c.toNat + 256 * (d.toNat + 256 * 0))) with
      | some seq1, some seq2 =>
        match abbrevNext ab with
        | (some code, counter) =>
          DictDecoder.next { encoded := rest, prevDecoded := seq1 ++ seq2,
                             mapping := newMapping mp code (seq1 ++ seq2), abbrev_ := counter }
        | (none, counter) =>
          DictDecoder.next { encoded := rest, prevDecoded := seq1 ++ seq2,
                             mapping := mp, abbrev_ := counter }
      | _, _ => (.panic, ⟨rest, [], mp, ab⟩) := by
    rw [DictDecoder.next]; rfl
  have hdepth : ∀ n, DictDecoder.nextDepth (n + 1) ⟨a :: b :: c :: d :: rest, [], mp, ab⟩ =
      match mp (UInt16.ofNat (a.toNat + 256 * (b.toNat + 256 * 0))),
        mp (UInt16.ofNat (c.toNat + 256 * (d.toNat + 256 * 0))) with
      | some seq1, some seq2 =>
        match abbrevNext ab with
        | (some code, counter) =>
          DictDecoder.nextDepth n ⟨rest, seq1 ++ seq2, newMapping mp code (seq1 ++ seq2), counter⟩
        | (none, counter) =>
          DictDecoder.nextDepth n ⟨rest, seq1 ++ seq2, mp, counter⟩
      | _, _ => (.panic, ⟨rest, [], mp, ab⟩) := fun n => by
    rw [DictDecoder.nextDepth]; rfl
  rw [e1, e2] at hnext hdepth
  simp only [Nat.mul_zero, Nat.add_zero, sym_toNat, hx, hy] at hnext hdepth
  by_cases hc : ab = zipEof
  · rw [abbrevNext, if_pos hc] at hnext hdepth
    have hl : learn known (x ++ y) = known := by
      rw [learn, if_neg]; rw [hlen, hc]; decide
    rw [hl]
    exact ⟨⟨rest, x ++ y, mp, ab⟩, rfl, rfl, ⟨hd.map, hd.len⟩, hnext, hdepth⟩
  · rw [abbrevNext, if_neg hc] at hnext hdepth
    have hlt : ab.toNat < 65535 := by
      have h1 : ab.toNat ≠ 65535 := fun h => hc (UInt16.toNat_inj.1 h)
      have := ab.toNat_lt
      omega
    have hl : learn known (x ++ y) = known ++ [x ++ y] := by
      rw [learn, if_pos (by omega)]
    rw [hl]
    refine ⟨⟨rest, x ++ y, newMapping mp ab (x ++ y), ab + 1⟩, rfl, rfl, ⟨?_, ?_⟩, hnext, hdepth⟩
    · intro s
      have hs := hd.map s
      simp only at hs
      simp only [newMapping, expand] at hs ⊢
      rw [hs]
      by_cases h1 : s = ab
      · subst h1
        rw [if_pos rfl, if_neg (by omega), ← hlen]
        simp
      · rw [if_neg h1]
        have h2 : s.toNat ≠ ab.toNat := fun h => h1 (UInt16.toNat_inj.1 h)
        split
        · rfl
        · rw [List.getElem?_append]
          split
          · rfl
          · rw [List.getElem?_eq_none (by omega), List.getElem?_eq_none (by simp; omega)]
    · simp only [List.length_append, List.length_singleton]
      rw [UInt16.toNat_add]
      simp; omega

/-- A pair of symbols of which one is not known. -/
theorem dec_unknown {a b c d : UInt8} {rest : List UInt8} {mp ab known}
    (hd : DecInv ⟨a :: b :: c :: d :: rest, [], mp, ab⟩ known)
    (hxy : expand known (a.toNat + 256 * b.toNat) = none ∨ expand known (c.toNat + 256 * d.toNat) = none) :
    (DictDecoder.next ⟨a :: b :: c :: d :: rest, [], mp, ab⟩).1 = .panic ∧
      ∀ n, DictDecoder.nextDepth (n + 1) ⟨a :: b :: c :: d :: rest, [], mp, ab⟩ =
        DictDecoder.next ⟨a :: b :: c :: d :: rest, [], mp, ab⟩ := by
  have e1 := hd.map (UInt16.ofNat (a.toNat + 256 * (b.toNat + 256 * 0)))
  have e2 := hd.map (UInt16.ofNat (c.toNat + 256 * (d.toNat + 256 * 0)))
  have hnext : DictDecoder.next ⟨a :: b :: c :: d :: rest, [], mp, ab⟩ =
      match mp (UInt16.ofNat (a.toNat + 256 * (b.toNat + 256 * 0))),
        mp (UInt16.ofNat (c.toNat + 256 * (d.toNat + 256 * 0))) with
      | some seq1, some seq2 =>
        match abbrevNext ab with
        | (some code, counter) =>
          DictDecoder.next ⟨rest, seq1 ++ seq2, newMapping mp code (seq1 ++ seq2), counter⟩
        | (none, counter) =>
          DictDecoder.next ⟨rest, seq1 ++ seq2, mp, counter⟩
      | _, _ => (.panic, ⟨rest, [], mp, ab⟩) := by
    rw [DictDecoder.next]; rfl
  have hdepth : ∀ n, DictDecoder.nextDepth (n + 1) ⟨a :: b :: c :: d :: rest, [], mp, ab⟩ =
      match mp (UInt16.ofNat (a.toNat + 256 * (b.toNat + 256 * 0))),
        mp (UInt16.ofNat (c.toNat + 256 * (d.toNat + 256 * 0))) with
      | some seq1, some seq2 =>
        match abbrevNext ab with
        | (some code, counter) =>
          DictDecoder.nextDepth n ⟨rest, seq1 ++ seq2, newMapping mp code (seq1 ++ seq2), counter⟩
        | (none, counter) =>
          DictDecoder.nextDepth n ⟨rest, seq1 ++ seq2, mp, counter⟩
      | _, _ => (.panic, ⟨rest, [], mp, ab⟩) := fun n => by
    rw [DictDecoder.nextDepth]; rfl
  simp only at e1 e2
  rw [e1, e2] at hnext hdepth
  simp only [Nat.mul_zero, Nat.add_zero, sym_toNat] at hnext hdepth
  rcases hxy with h | h
  · simp only [h] at hnext hdepth
    exact ⟨by rw [hnext], fun n => by rw [hnext, hdepth]⟩
  · simp only [h] at hnext hdepth
    cases h' : expand known (a.toNat + 256 * b.toNat) <;> simp only [h'] at hnext hdepth <;>
      exact ⟨by rw [hnext], fun n => by rw [hnext, hdepth]⟩

/-- The nested calls of one `next`. -/
def calls (known : List (List UInt8)) (d : DictDecoder) : Nat :=
  if d.prevDecoded = [] then nesting known d.encoded else 1

theorem nextDepth_calls (n : Nat) : ∀ (d : DictDecoder) (known : List (List UInt8)), DecInv d known →
    (calls known d ≤ n → DictDecoder.nextDepth n d = DictDecoder.next d) ∧
    (n < calls known d → (DictDecoder.nextDepth n d).1 = .panic) := by
  induction n with
  | zero =>
    intro d known _
    refine ⟨fun h => ?_, fun _ => rfl⟩
    exfalso
    unfold calls at h
    split at h
    · generalize d.encoded = l at h
      fun_cases nesting known l <;> simp_all [nesting]
      all_goals split at h <;> omega
    · omega
  | succ n ih =>
    rintro ⟨enc, prev, mp, ab⟩ known hd
    cases prev with
    | cons b bs =>
      refine ⟨fun _ => ?_, fun h => ?_⟩
      · rw [DictDecoder.next, DictDecoder.nextDepth]
      · simp [calls] at h
    | nil =>
      simp only [calls, if_true]
      match enc, hd with
      | [], hd => exact ⟨fun _ => by rw [DictDecoder.next, DictDecoder.nextDepth]; rfl, fun h => by simp [nesting] at h⟩
      | [a], hd => exact ⟨fun _ => by rw [DictDecoder.next, DictDecoder.nextDepth]; rfl, fun h => by simp [nesting] at h⟩
      | [a, b], hd => exact ⟨fun _ => by rw [DictDecoder.next, DictDecoder.nextDepth]; rfl, fun h => by simp [nesting] at h⟩
      | [a, b, c], hd => exact ⟨fun _ => by rw [DictDecoder.next, DictDecoder.nextDepth]; rfl, fun h => by simp [nesting] at h⟩
      | a :: b :: c :: d :: rest, hd =>
        by_cases hxy : expand known (a.toNat + 256 * b.toNat) = none ∨ expand known (c.toNat + 256 * d.toNat) = none
        · have hn : nesting known (a :: b :: c :: d :: rest) = 1 := by
            unfold nesting
            rcases hxy with h | h
            · rw [h]
            · rw [h]; cases expand known (a.toNat + 256 * b.toNat) <;> rfl
          exact ⟨fun _ => (dec_unknown hd hxy).2 n, fun h => by omega⟩
        · have h1 : expand known (a.toNat + 256 * b.toNat) ≠ none := fun h => hxy (.inl h)
          have h2 : expand known (c.toNat + 256 * d.toNat) ≠ none := fun h => hxy (.inr h)
          obtain ⟨x, hx⟩ := Option.ne_none_iff_exists'.1 h1
          obtain ⟨y, hy⟩ := Option.ne_none_iff_exists'.1 h2
          obtain ⟨d1, he, hp, hi, hn, hnd⟩ := dec_step hd hx hy
          rw [hn, hnd]
          obtain ⟨i1, i2⟩ := ih d1 _ hi
          have hc : calls (learn known (x ++ y)) d1 + 1 = nesting known (a :: b :: c :: d :: rest) := by
            have hne : nesting known (a :: b :: c :: d :: rest) =
                if x ++ y = [] then nesting (learn known []) rest + 1 else 2 := by
              rw [nesting, hx, hy]
            rw [hne, calls, hp, he]
            by_cases h0 : x ++ y = []
            · simp only [h0, if_true]
            · rw [if_neg h0, if_neg h0]
          exact ⟨fun h => i1 (by omega), fun h => i2 (by omega)⟩

theorem nesting_pos (known : List (List UInt8)) (l : List UInt8) : 1 ≤ nesting known l := by
  fun_cases nesting known l <;> simp_all [nesting]
  all_goals try (split <;> omega)

theorem deepest_four {known a b c d rest x y} (hx : expand known (UInt8.toNat a + 256 * UInt8.toNat b) = some x)
    (hy : expand known (UInt8.toNat c + 256 * UInt8.toNat d) = some y) :
    deepest known (a :: b :: c :: d :: rest) =
      max (nesting known (a :: b :: c :: d :: rest)) (deepest (learn known (x ++ y)) rest) := by
  rw [deepest, hx, hy]

theorem nesting_le_deepest (known : List (List UInt8)) (l : List UInt8) : nesting known l ≤ deepest known l := by
  unfold deepest
  split
  · split
    · omega
    · next h =>
      unfold nesting
      split
      · next h1 h2 => exact absurd h2 (h _ _ h1)
      · omega
  · next h =>
    unfold nesting
    split
    · next => exact absurd rfl (h _ _ _ _ _)
    · omega

/-- The state after a call, as far as the nesting is concerned. -/
theorem next_inv (n : Nat) : ∀ (d : DictDecoder) (known : List (List UInt8)), d.encoded.length ≤ n → DecInv d known →
    (DictDecoder.next d).1 ≠ .panic →
    ∃ known', DecInv (DictDecoder.next d).2 known' ∧
      deepest known' (DictDecoder.next d).2.encoded ≤ deepest known d.encoded := by
  induction n using Nat.strongRecOn with
  | _ n ih =>
  rintro ⟨enc, prev, mp, ab⟩ known hn hd hp
  cases prev with
  | cons b bs =>
    refine ⟨known, ?_⟩
    rw [DictDecoder.next]
    exact ⟨⟨hd.map, hd.len⟩, Nat.le_refl _⟩
  | nil =>
    match enc, hd with
    | [], hd =>
      refine ⟨known, ?_⟩
      rw [DictDecoder.next]
      exact ⟨⟨hd.map, hd.len⟩, Nat.le_refl _⟩
    | [a], hd =>
      refine ⟨known, ?_⟩
      rw [DictDecoder.next]
      exact ⟨⟨hd.map, hd.len⟩, Nat.le_refl _⟩
    | [a, b], hd => exact absurd (by rw [DictDecoder.next]; rfl) hp
    | [a, b, c], hd => exact absurd (by rw [DictDecoder.next]; rfl) hp
    | a :: b :: c :: d :: rest, hd =>
      by_cases hxy : expand known (a.toNat + 256 * b.toNat) = none ∨ expand known (c.toNat + 256 * d.toNat) = none
      · exact absurd (dec_unknown hd hxy).1 hp
      · have h1 : expand known (a.toNat + 256 * b.toNat) ≠ none := fun h => hxy (.inl h)
        have h2 : expand known (c.toNat + 256 * d.toNat) ≠ none := fun h => hxy (.inr h)
        obtain ⟨x, hx⟩ := Option.ne_none_iff_exists'.1 h1
        obtain ⟨y, hy⟩ := Option.ne_none_iff_exists'.1 h2
        obtain ⟨d1, he, hpd, hi, hnx, _⟩ := dec_step hd hx hy
        rw [hnx] at hp ⊢
        simp only [List.length_cons] at hn
        obtain ⟨k, h3, h4⟩ := ih rest.length (by omega) d1 _ (by rw [he]; exact Nat.le_refl _) hi hp
        refine ⟨k, h3, ?_⟩
        simp only
        rw [deepest_four hx hy]
        rw [he] at h4
        omega

/-- States whose stream nests at most `n` calls. -/
def Shallow (n : Nat) (d : DictDecoder) : Prop :=
  ∃ known, DecInv d known ∧ deepest known d.encoded ≤ n

theorem Shallow.eq {n : Nat} {d : DictDecoder} (h : Shallow n d) : DictDecoder.nextDepth n d = DictDecoder.next d := by
  obtain ⟨known, hi, hd⟩ := h
  apply (nextDepth_calls n d known hi).1
  have h1 := nesting_le_deepest known d.encoded
  have h2 := nesting_pos known d.encoded
  unfold calls
  split <;> omega

theorem Shallow.next {n : Nat} {d : DictDecoder} (h : Shallow n d) (hp : (DictDecoder.next d).1 ≠ .panic) :
    Shallow n (DictDecoder.next d).2 := by
  obtain ⟨known, hi, hd⟩ := h
  obtain ⟨k, h1, h2⟩ := next_inv _ d known (Nat.le_refl _) hi hp
  exact ⟨k, h1, Nat.le_trans h2 hd⟩

theorem Shallow.yields {n : Nat} {d : DictDecoder} (h : Shallow n d) {xs : List UInt8} (hy : Yields DictDecoder.next d xs) :
    Yields (DictDecoder.nextDepth n) d xs := by
  induction xs generalizing d with
  | nil =>
    obtain ⟨P, hs, hP⟩ := hy
    refine ⟨fun t => P t ∧ Shallow n t, ⟨hs, h⟩, ?_⟩
    rintro t ⟨h1, h2⟩
    rw [h2.eq]
    exact ⟨(hP t h1).1, (hP t h1).2, h2.next (by rw [(hP t h1).1]; simp)⟩
  | cons x xs ih =>
    obtain ⟨s', h1, h2⟩ := hy
    have := h.next (by rw [h1]; simp)
    rw [h1] at this
    exact ⟨s', by rw [h.eq, h1], ih this h2⟩

theorem Shallow.panics {n : Nat} {d : DictDecoder} (h : Shallow n d) {xs : List UInt8}
    (hy : PanicsAfter DictDecoder.next d xs) : PanicsAfter (DictDecoder.nextDepth n) d xs := by
  induction xs generalizing d with
  | nil =>
    show (DictDecoder.nextDepth n d).1 = .panic
    rw [h.eq]; exact hy
  | cons x xs ih =>
    obtain ⟨s', h1, h2⟩ := hy
    have := h.next (by rw [h1]; simp)
    rw [h1] at this
    exact ⟨s', by rw [h.eq, h1], ih this h2⟩

theorem deep_panics (n m : Nat) : ∀ (d : DictDecoder) (known : List (List UInt8)), d.encoded.length ≤ m →
    DecInv d known → n < deepest known d.encoded →
    ∃ out, out <+: d.prevDecoded ++ (meaning known d.encoded).1 ∧ PanicsAfter (DictDecoder.nextDepth n) d out := by
  induction m using Nat.strongRecOn with
  | _ m ih =>
  rintro ⟨enc, prev, mp, ab⟩ known hm hd hn
  cases n with
  | zero => exact ⟨[], List.nil_prefix, rfl⟩
  | succ n =>
  simp only at hm
  induction prev with
  | cons b prev ihp =>
    obtain ⟨out, h1, h2⟩ := ihp ⟨hd.map, hd.len⟩ hn
    exact ⟨b :: out, List.cons_prefix_cons.2 ⟨rfl, h1⟩, _, rfl, h2⟩
  | nil =>
    by_cases hc : n + 1 < nesting known enc
    · exact ⟨[], List.nil_prefix, (nextDepth_calls (n + 1) ⟨enc, [], mp, ab⟩ known hd).2 (by simpa [calls] using hc)⟩
    · match enc, hd, hn, hc with
      | [], hd, hn, hc => simp [deepest] at hn
      | [a], hd, hn, hc => simp [deepest] at hn
      | [a, b], hd, hn, hc => simp [deepest] at hn
      | [a, b, c], hd, hn, hc => simp [deepest] at hn
      | a :: b :: c :: d :: rest, hd, hn, hc =>
        simp only at hn
        by_cases hxy : expand known (a.toNat + 256 * b.toNat) = none ∨ expand known (c.toNat + 256 * d.toNat) = none
        · exfalso
          unfold deepest at hn
          rcases hxy with h | h
          · rw [h] at hn; simp at hn
          · rw [h] at hn; cases h' : expand known (a.toNat + 256 * b.toNat) <;> rw [h'] at hn <;> simp at hn
        · have h1 : expand known (a.toNat + 256 * b.toNat) ≠ none := fun h => hxy (.inl h)
          have h2 : expand known (c.toNat + 256 * d.toNat) ≠ none := fun h => hxy (.inr h)
          obtain ⟨x, hx⟩ := Option.ne_none_iff_exists'.1 h1
          obtain ⟨y, hy⟩ := Option.ne_none_iff_exists'.1 h2
          obtain ⟨d1, he, hpd, hi, hnx, hnd⟩ := dec_step hd hx hy
          rw [deepest_four hx hy] at hn
          simp only [List.length_cons] at hm
          obtain ⟨out, h3, h4⟩ := ih rest.length (by omega) d1 _ (by rw [he]; exact Nat.le_refl _) hi
            (by rw [he]; omega)
          refine ⟨out, ?_, PanicsAfter.of_next_eq ?_ h4⟩
          · rw [hpd, he] at h3
            simp only [meaning, hx, hy, List.nil_append]
            exact h3
          · rw [(nextDepth_calls (n + 1) _ known hd).1 (by simp only [calls, if_true]; omega), hnx]
            refine ((nextDepth_calls (n + 1) d1 _ hi).1 ?_).symm
            unfold calls
            split
            · next h0 =>
              rw [hpd] at h0
              have : nesting known (a :: b :: c :: d :: rest) = nesting (learn known (x ++ y)) rest + 1 := by
                rw [nesting, hx, hy]
                simp only
                rw [if_pos h0, h0]
              rw [he]; omega
            · omega

/-! ## Files -/

theorem shallow_new {n : Nat} {l : List UInt8} (h : deepest oneByteSeqs l ≤ n) : Shallow n (zipDictDecode l) :=
  ⟨oneByteSeqs, decInv_new l, h⟩

theorem Spec.Parse.deepest {known i syms} (h : Parse known i syms) (hl : known.length ≤ 65535) :
    deepest known (symBytes syms) = if i = [] then 1 else 2 := by
  induction h with
  | nil => rfl
  | @one known i s x h =>
    have e := h.expand hl
    have hi : i ≠ [] := by rw [h.split]; simp [h.nonempty]
    rw [if_neg hi]
    simp only [symBytes, List.flatMap_cons, List.flatMap_nil, List.cons_append, List.nil_append,
      Spec.deepest, nesting]
    rw [sym_split, sym_split, e]
    have e2 : Spec.expand known (UInt16.toNat 65535) = some [] := rfl
    rw [e2]
    simp [h.nonempty]
  | @two known i s1 x1 i' s2 x2 i'' syms h1 h2 _ ih =>
    have e1 := h1.expand hl
    have e2 := h2.expand hl
    have := ih (learn_le hl _)
    have hi : i ≠ [] := by rw [h1.split]; simp [h1.nonempty]
    rw [if_neg hi]
    simp only [symBytes, List.flatMap_cons, List.cons_append, List.nil_append,
      Spec.deepest, nesting] at this ⊢
    rw [sym_split, sym_split, e1, e2]
    simp only
    rw [this, if_neg (by simp [h1.nonempty])]
    split <;> rfl

/-- Two readers that agree on states with a property, which their steps preserve. -/
theorem sim_shallow (n : Nat) :
    Sim (fun s t => s = t ∧ Shallow n s) (fun p q _ _ => p = q ∧ True) (DictDecoder.nextDepth n) DictDecoder.next := by
  rintro s _ ⟨rfl, h⟩
  rw [h.eq]
  have := h.next
  rcases hr : DictDecoder.next s with ⟨_ | _ | _, t⟩
  · rw [hr] at this
    exact ⟨rfl, rfl, this (by simp)⟩
  · exact ⟨rfl, trivial⟩
  · exact ⟨rfl, trivial⟩

theorem paint_sim {σ τ : Type} {R : σ → τ → Prop} {next : Rd σ (Rgb UInt8)} {next' : Rd τ (Rgb UInt8)}
    (h : Sim R (fun p q _ _ => p = q ∧ True) next next') (cells : List (Nat × Nat)) (img : RgbImage) {s : σ} {t : τ}
    (hst : R s t) : (paint next cells img s).1 = (paint next' cells img t).1 := by
  induction cells generalizing img s t with
  | nil => rfl
  | cons c cells ih =>
    have h1 := h s t hst
    simp only [paint]
    rcases hx : next s with ⟨_ | _ | _, s'⟩ <;> rcases hy : next' t with ⟨_ | _ | _, t'⟩ <;> rw [hx, hy] at h1 <;>
      simp only at h1 ⊢
    · obtain ⟨rfl, h2⟩ := h1
      split
      · exact ih _ h2
      · rfl
    · exact absurd h1.1 (by simp)
    · exact absurd h1.1 (by simp)

theorem zipDictDepth_eq {n : Nat} {l : List UInt8} (h : deepest oneByteSeqs l ≤ n) :
    zipDecodeDepth n .dict l = zipDecode .dict l :=
  Sim.eq (rebuildImage_sim (fun _ _ _ => ⟨rfl, trivial⟩) (fun _ _ _ => ⟨rfl, trivial⟩) (sim_shallow n))
    ⟨rfl, shallow_new h⟩

theorem hilbertZipDepth_ok (n : Nat) (scan : Scan) {l r : List UInt8} {d : UInt32 × UInt32}
    (hr : (de listNext l : Ret Unit (UInt32 × UInt32) × _) = (.ok d, r)) :
    hilbertDecodeDepth n scan .zip l =
      (decodeAny scan (deserStream (DictDecoder.nextDepth n)) d (zipDictDecode r)).1 := by
  unfold hilbertDecodeDepth Proc.run
  refine (congrArg Prod.fst (Proc.bind_ok hr)).trans ?_
  simp only [onStream]

theorem hilbertZip_ok (scan : Scan) {l r : List UInt8} {d : UInt32 × UInt32}
    (hr : (de listNext l : Ret Unit (UInt32 × UInt32) × _) = (.ok d, r)) :
    hilbertDecode scan .zip l = (decodeAny scan (deserStream DictDecoder.next) d (zipDictDecode r)).1 := by
  unfold hilbertDecode Proc.run
  refine (congrArg Prod.fst (Proc.bind_ok hr)).trans ?_
  simp only [onStream]

theorem decodeAny_sim {σ : Type} {R : σ → σ → Prop} (scan : Scan) {d : UInt32 × UInt32} {f g : Rd σ (Rgb UInt8)}
    (hs : Sim R (fun p q _ _ => p = q ∧ True) f g) {z : σ} (h : R z z) :
    (decodeAny scan f d z).1 = (decodeAny scan g d z).1 := by
  unfold decodeAny
  cases RgbImage.new d.1 d.2 with
  | none => rfl
  | some img =>
    simp only [orPanic, pure_bind]
    exact paint_sim hs _ _ h

theorem deserStream_sim {σ : Type} {R : σ → σ → Prop} {f g : Rd σ UInt8} (hs : Sim R (fun p q _ _ => p = q ∧ True) f g) :
    Sim R (fun p q _ _ => p = q ∧ True) (deserStream f : Rd σ (Rgb UInt8)) (deserStream g) :=
  LawfulSer.sim _ _ _ _ (fun _ _ _ => ⟨rfl, trivial⟩) hs

theorem decodeAny_shallow {n : Nat} (scan : Scan) {d : UInt32 × UInt32} {z : DictDecoder} (h : Shallow n z) :
    (decodeAny scan (deserStream (DictDecoder.nextDepth n)) d z).1 =
      (decodeAny scan (deserStream DictDecoder.next) d z).1 :=
  decodeAny_sim scan (deserStream_sim (sim_shallow n)) ⟨rfl, h⟩

theorem dims_rest {l r : List UInt8} {d : UInt32 × UInt32}
    (hr : (de listNext l : Ret Unit (UInt32 × UInt32) × _) = (.ok d, r)) : r = l.drop 8 := by
  obtain ⟨hv, he⟩ := LawfulSer.canon l d r hr
  rw [he, List.drop_left' (by simp [bytes, le])]

theorem hilbertZipDepth_eq {n : Nat} (scan : Scan) {l : List UInt8} (h : deepest oneByteSeqs (l.drop 8) ≤ n) :
    hilbertDecodeDepth n scan .zip l = hilbertDecode scan .zip l := by
  rcases hr : (de listNext l : Ret Unit (UInt32 × UInt32) × _) with ⟨d | _ | _, r⟩
  · rw [hilbertZipDepth_ok n scan hr, hilbertZip_ok scan hr]
    apply decodeAny_shallow
    rw [dims_rest hr]
    exact shallow_new h
  · unfold hilbertDecodeDepth hilbertDecode Proc.run
    exact (congrArg Prod.fst (Proc.bind_err hr)).trans (congrArg Prod.fst (Proc.bind_err hr)).symm
  · unfold hilbertDecodeDepth hilbertDecode Proc.run
    exact (congrArg Prod.fst (Proc.bind_panic hr)).trans (congrArg Prod.fst (Proc.bind_panic hr)).symm

theorem deepest_le_two {i syms} (h : Parse oneByteSeqs i syms) : deepest oneByteSeqs (symBytes syms) ≤ 2 := by
  rw [h.deepest (by decide +kernel)]
  split <;> omega

theorem zipDict_depth (cap : Back.Caps) {img : Img} {file : List UInt8} (hf : bytesOf (zipEncode cap .dict img) = .ok file)
    {depth : Nat} (h2 : 2 ≤ depth) : zipDecodeDepth depth .dict file = zipDecode .dict file := by
  obtain ⟨syms, hp, he⟩ := zipDictEncode_spec (zipData img)
  rw [zipEncode_dict, he.bytesOf] at hf
  cases hf
  exact zipDictDepth_eq (Nat.le_trans (deepest_le_two hp) h2)

theorem hilbertZip_depth (fl : FloatOps) {scan : Scan} {img : Img} (hs : VisitsOnce scan img.width.toNat img.height.toNat)
    {file : List UInt8} (hf : bytesOf (hilbertEncode scan fl .zip img) = .ok file) {depth : Nat} (h2 : 2 ≤ depth) :
    hilbertDecodeDepth depth scan .zip file = hilbertDecode scan .zip file := by
  obtain ⟨syms, hp, he⟩ := hilbertEncode_zip fl hs
  rw [he.bytesOf] at hf
  cases hf
  apply hilbertZipDepth_eq
  rw [List.drop_left' (by simp [bytes, le])]
  exact Nat.le_trans (deepest_le_two hp) h2

/-! ## Any files -/

theorem readBytes_or {σ : Type} {f g : Rd σ UInt8} (h : Proc.PanicOr f g) (n : Nat) :
    Proc.PanicOr (readBytes f n) (readBytes g n) := by
  induction n with
  | zero => exact .refl _
  | succ n ih => exact .bind h fun _ => .bind ih fun _ => .refl _

theorem readN_or {σ T : Type} [Ser T] {f g : Rd σ UInt8} (h : Proc.PanicOr (de f : Rd σ T) (de g)) (n : Nat) :
    Proc.PanicOr (readN f n : Rd σ (List T)) (readN g n) := by
  induction n with
  | zero => exact .refl _
  | succ n ih => exact .bind h fun _ => .bind ih fun _ => .refl _

theorem de_dims_or {σ : Type} {f g : Rd σ UInt8} (h : Proc.PanicOr f g) :
    Proc.PanicOr (de f : Rd σ (UInt32 × UInt32)) (de g) :=
  have h4 : Proc.PanicOr (de f : Rd σ UInt32) (de g) := .bind (readBytes_or h 4) fun _ => .refl _
  .bind h4 fun _ => .bind h4 fun _ => .refl _

theorem de_rgb_or {σ : Type} {f g : Rd σ UInt8} (h : Proc.PanicOr f g) :
    Proc.PanicOr (de f : Rd σ (Rgb UInt8)) (de g) :=
  have h8 : Proc.PanicOr (de f : Rd σ UInt64) (de g) := .bind (readBytes_or h 8) fun _ => .refl _
  have hu : Proc.PanicOr (de f : Rd σ Usize) (de g) := .bind h8 fun _ => .refl _
  have hl : Proc.PanicOr (de f : Rd σ (List UInt8)) (de g) := .bind hu fun _ => readN_or h _
  .bind hl fun _ => .refl _

theorem rebuildImage_or {σ : Type} {f g : Rd σ UInt8} (h : Proc.PanicOr f g) :
    Proc.PanicOr (rebuildImage f) (rebuildImage g) :=
  .bind (de_dims_or h) fun _ => .bind (.refl _) fun _ => .bind (readN_or (de_rgb_or h) _) fun _ => .refl _

theorem decodeAny_or {σ : Type} (scan : Scan) {f g : Rd σ (Rgb UInt8)} (h : Proc.PanicOr f g) (d : UInt32 × UInt32) :
    Proc.PanicOr (decodeAny scan f d) (decodeAny scan g d) :=
  .bind (.refl _) fun _ => paint_checks h _ _

theorem zipDictDepth_or (depth : Nat) (l : List UInt8) :
    zipDecodeDepth depth .dict l = zipDecode .dict l ∨ zipDecodeDepth depth .dict l = .panic := by
  rcases rebuildImage_or (nextDepth_or depth) (zipDictDecode l) with h | h
  · exact .inr h
  · exact .inl (congrArg Prod.fst h)

theorem hilbertZipDepth_or (depth : Nat) (scan : Scan) (l : List UInt8) :
    hilbertDecodeDepth depth scan .zip l = hilbertDecode scan .zip l ∨ hilbertDecodeDepth depth scan .zip l = .panic := by
  rcases hr : (de listNext l : Ret Unit (UInt32 × UInt32) × _) with ⟨d | _ | _, r⟩
  · rw [hilbertZipDepth_ok depth scan hr, hilbertZip_ok scan hr]
    rcases decodeAny_or scan (f := deserStream (DictDecoder.nextDepth depth)) (g := deserStream DictDecoder.next)
      (de_rgb_or (nextDepth_or depth)) d (zipDictDecode r) with h | h
    · exact .inr h
    · exact .inl (congrArg Prod.fst h)
  · left
    unfold hilbertDecodeDepth hilbertDecode Proc.run
    exact (congrArg Prod.fst (Proc.bind_err hr)).trans (congrArg Prod.fst (Proc.bind_err hr)).symm
  · left
    unfold hilbertDecodeDepth hilbertDecode Proc.run
    exact (congrArg Prod.fst (Proc.bind_panic hr)).trans (congrArg Prod.fst (Proc.bind_panic hr)).symm

/-! ## Files with pairs that mean nothing -/

theorem silent_bytes (n : Nat) (l : List UInt8) :
    List.replicate (4 * (n + 1)) 255 ++ l = 255 :: 255 :: 255 :: 255 :: (List.replicate (4 * n) (255 : UInt8) ++ l) := by
  rw [show 4 * (n + 1) = 4 * n + 1 + 1 + 1 + 1 by omega]
  simp only [List.replicate_succ, List.cons_append]

theorem meaning_silent (n : Nat) (known : List (List UInt8)) (l : List UInt8) :
    ∃ known', known <+: known' ∧
      meaning known (List.replicate (4 * n) 255 ++ l) = meaning known' l ∧
      nesting known (List.replicate (4 * n) 255 ++ l) = nesting known' l + n := by
  induction n generalizing known with
  | zero => exact ⟨known, List.prefix_rfl, by simp, by simp⟩
  | succ n ih =>
    obtain ⟨k, h1, h2, h3⟩ := ih (learn known [])
    have he : expand known ((255 : UInt8).toNat + 256 * (255 : UInt8).toNat) = some [] := rfl
    refine ⟨k, ?_, ?_, ?_⟩
    · refine List.IsPrefix.trans ?_ h1
      unfold learn; split
      · exact List.prefix_append _ _
      · exact List.prefix_rfl
    · rw [silent_bytes, meaning, he]
      simp only [List.append_nil, List.nil_append]
      rw [h2]
    · rw [silent_bytes, nesting, he]
      simp only [List.append_nil, if_true]
      rw [h3]; omega

theorem meaning_plain {known : List (List UInt8)} (h : HasOnes known) (data : List UInt8) :
    meaning known (data.flatMap fun b => [b, 0, 255, 255]) = (data, true) := by
  induction data generalizing known with
  | nil => rfl
  | cons b data ih =>
    have he : expand known (b.toNat + 256 * (0 : UInt8).toNat) = some [b] := by
      have hb : b.toNat + 256 * (0 : UInt8).toNat = b.toNat := by simp
      have hl := b.toNat_lt
      rw [hb, expand, if_neg (by omega)]
      obtain ⟨t, rfl⟩ := h
      have hl : b.toNat < oneByteSeqs.length := by
        unfold oneByteSeqs; rw [List.length_map, List.length_range]; exact b.toNat_lt
      rw [List.getElem?_append_left hl]
      unfold oneByteSeqs
      rw [List.getElem?_map, List.getElem?_range b.toNat_lt]
      simp
    have h2 : expand known ((255 : UInt8).toNat + 256 * (255 : UInt8).toNat) = some [] := rfl
    simp only [List.flatMap_cons, List.cons_append, List.nil_append]
    rw [meaning, he, h2]
    simp only [List.append_nil]
    rw [ih (h.learn _)]
    rfl

end Cniic
