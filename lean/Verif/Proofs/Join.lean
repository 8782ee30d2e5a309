import Verif.Props.Codecs
import Verif.Props.Decode
import Verif.Proofs.Trailing
import Verif.Proofs.WrongCodec

/-!
# Proofs: joining compressed data
-/

namespace Cniic
open Spec SerSpec

theorem yields_unique {σ α : Type} {next : Rd σ α} {s : σ} {xs ys : List α} (h : Yields next s xs) (h' : Yields next s ys) :
    xs = ys := by
  induction xs generalizing s ys with
  | nil =>
    cases ys with
    | nil => rfl
    | cons y ys =>
      obtain ⟨P, hP, hn⟩ := h
      obtain ⟨t, ht, -⟩ := h'
      have := (hn s hP).1
      rw [ht] at this
      cases this
  | cons x xs ih =>
    obtain ⟨t, ht, h⟩ := h
    cases ys with
    | nil =>
      obtain ⟨P, hP, hn⟩ := h'
      have := (hn s hP).1
      rw [ht] at this
      cases this
    | cons y ys =>
      obtain ⟨u, hu, h'⟩ := h'
      rw [ht] at hu
      cases hu
      rw [ih h h']

/-! ## zip-back -/

/-- `data` is a sequence of symbols for `input` as encoders write them. -/
def Codes (input data : List UInt8) : Prop :=
  ∃ syms, (∀ s ∈ syms, Fits s) ∧
    (∀ s ∈ syms, s ≠ .explicit [] ∧ ∀ len back, s = .lookBack len back → 0 < len ∧ 0 < back) ∧
    meaningFrom Back.ringSize [] syms = some input ∧ data = syms.flatMap symbolBytes

theorem symbolMeaning_later {N : Nat} {hist : List UInt8} {s : Back.Symbol} {x : List UInt8} (pre : List UInt8)
    (h : symbolMeaning N hist s = some x) : symbolMeaning N (pre ++ hist) s = some x := by
  cases s with
  | explicit data => exact h
  | lookBack len back =>
    simp only [symbolMeaning] at h ⊢
    split at h
    · next hb =>
      rw [if_pos ⟨by rw [List.length_append]; omega, hb.2⟩, ← h, List.length_append, List.drop_append,
        List.drop_eq_nil_of_le (by omega), List.nil_append]
      congr 3; omega
    · cases h

theorem meaningFrom_later {N : Nat} {hist : List UInt8} {syms : List Back.Symbol} {x : List UInt8} (pre : List UInt8)
    (h : meaningFrom N hist syms = some x) : meaningFrom N (pre ++ hist) syms = some x := by
  induction syms generalizing hist x with
  | nil => exact h
  | cons s syms ih =>
    simp only [meaningFrom] at h ⊢
    cases hx : symbolMeaning N hist s with
    | none => rw [hx] at h; cases h
    | some y =>
      rw [hx] at h
      rw [symbolMeaning_later pre hx]
      dsimp only at h ⊢
      cases hy : meaningFrom N (hist ++ y) syms with
      | none => rw [hy] at h; cases h
      | some z =>
        rw [hy] at h
        rw [List.append_assoc, ih hy]
        exact h

theorem Codes.nil : Codes [] [] := ⟨[], by simp, by simp, rfl, rfl⟩

theorem Codes.append {a b ea eb : List UInt8} (ha : Codes a ea) (hb : Codes b eb) : Codes (a ++ b) (ea ++ eb) := by
  obtain ⟨s, f1, n1, m1, rfl⟩ := ha
  obtain ⟨t, f2, n2, m2, rfl⟩ := hb
  refine ⟨s ++ t, fun x hx => (List.mem_append.1 hx).elim (f1 x) (f2 x), fun x hx => (List.mem_append.1 hx).elim (n1 x) (n2 x),
    ?_, by rw [List.flatMap_append]⟩
  rw [Back.meaningFrom_append, m1]
  have := meaningFrom_later a m2
  rw [List.append_nil] at this
  simp [this]

theorem Codes.yields {input data : List UInt8} (h : Codes input data) :
    Yields Back.Decoder.next (Back.zipBackDecode Back.ringSize data) input := by
  obtain ⟨s, f, n, m, rfl⟩ := h
  have := Back.yields_meaning (show 0 < Back.ringSize by decide) s f m n (Back.DecInv.new Back.ringSize _)
  simpa using this

theorem codes_encoded {cap : Back.Caps} (hcap : ∀ i, Back.repBufInit ≤ cap i) {input data : List UInt8}
    (h : bytesOf (Back.zipBackEncode Back.ringSize cap input) = .ok data) : Codes input data := by
  obtain ⟨syms, hf, he⟩ := Back.zipBackEncode_spec (show 0 < Back.ringSize by decide) hcap input
  rw [he] at h
  obtain ⟨hfit, rfl⟩ := Back.bytesOf_syms h
  exact ⟨syms, hfit, Factor.nonempty hf, Factor.meaning hf [] rfl, rfl⟩

/-- Bytes that are read to the end after a short history are read alike after a longer one. -/
theorem reads_later {N : Nat} {hist data out : List UInt8} {e : Ending} (h : Reads N hist data out e) (he : e = .none)
    (pre : List UInt8) : Reads N (pre ++ hist) data out .none := by
  induction h with
  | stop h => exact .stop h
  | shortCopy h1 h2 => exact .shortCopy h1 h2
  | shortLiteral => cases he
  | dangling => cases he
  | empty h1 h2 => exact .empty h1 (symbolMeaning_later pre h2)
  | symbol h1 h2 h3 _ ih => exact .symbol h1 (symbolMeaning_later pre h2) h3 (by rw [List.append_assoc]; exact ih he)

theorem reads_syms {N : Nat} {hist input data out : List UInt8} {e : Ending} {syms : List Back.Symbol}
    (hf : ∀ s ∈ syms, Fits s)
    (hn : ∀ s ∈ syms, s ≠ .explicit [] ∧ ∀ len back, s = .lookBack len back → 0 < len ∧ 0 < back)
    (hm : meaningFrom N hist syms = some input) (h : Reads N (hist ++ input) data out e) :
    Reads N hist (syms.flatMap symbolBytes ++ data) (input ++ out) e := by
  induction syms generalizing hist input with
  | nil => cases hm; simpa using h
  | cons s syms ih =>
    simp only [meaningFrom] at hm
    cases hx : symbolMeaning N hist s with
    | none => rw [hx] at hm; cases hm
    | some x =>
      rw [hx] at hm
      dsimp only at hm
      cases hy : meaningFrom N (hist ++ x) syms with
      | none => rw [hy] at hm; cases hm
      | some y =>
        rw [hy] at hm
        cases hm
        rw [List.flatMap_cons, List.append_assoc, List.append_assoc]
        exact .symbol (hf s (by simp)) hx (symbolMeaning_nonempty (hn s (by simp)) hx)
          (ih (fun t ht => hf t (by simp [ht])) (fun t ht => hn t (by simp [ht])) hy (by rw [List.append_assoc]; exact h))

theorem Codes.reads {a ea data out : List UInt8} (h : Codes a ea) (hr : Reads Back.ringSize [] data out .none) :
    Reads Back.ringSize [] (ea ++ data) (a ++ out) .none := by
  obtain ⟨syms, f, n, m, rfl⟩ := h
  exact reads_syms f n m (by have := reads_later hr rfl a; rwa [List.append_nil] at this)

/-- Blocks of at most 32767 bytes. -/
theorem codes_blocks {cap : Back.Caps} (hcap : ∀ i, Back.repBufInit ≤ cap i) (n : Nat) (input : List UInt8)
    (hl : input.length ≤ 32767 * n) :
    ∃ blocks : List (List UInt8 × List UInt8), blocks.length ≤ n ∧
      (∀ b ∈ blocks, bytesOf (Back.zipBackEncode Back.ringSize cap b.1) = .ok b.2) ∧
      (blocks.map (·.1)).flatten = input ∧ (blocks.map (·.2)).flatten.length ≤ input.length + 2 * blocks.length := by
  induction n generalizing input with
  | zero => exact ⟨[], Nat.le_refl _, by simp, (List.length_eq_zero_iff.1 (by omega)).symm, by simp⟩
  | succ n ih =>
    obtain ⟨bs, h1, h2, h3, h4⟩ := ih (input.drop 32767) (by rw [List.length_drop]; omega)
    obtain ⟨e, he⟩ := C22_short_inputs cap hcap (input.take 32767) (List.length_take_le ..)
    have hs := C23_expansion cap hcap _ _ he.bytesOf
    refine ⟨(input.take 32767, e) :: bs, by simpa using h1, ?_, ?_, ?_⟩
    · intro b hb
      rcases List.mem_cons.1 hb with rfl | hb
      · exact he.bytesOf
      · exact h2 b hb
    · rw [List.map_cons, List.flatten_cons, h3, List.take_append_drop]
    · simp only [List.map_cons, List.flatten_cons, List.length_append, List.length_cons]
      rw [List.length_take] at hs
      rw [List.length_drop] at h4
      omega

/-! ## zip-dict -/

theorem learn_prefix (known : List (List UInt8)) (x : List UInt8) : known <+: learn known x := by
  unfold learn
  split
  · exact List.prefix_append ..
  · exact List.prefix_refl _

/-- What follows the symbols of a parse is read with the dictionary learned from it. -/
theorem parse_rest {known i syms} (h : Parse known i syms) (hl : known.length ≤ 65535) :
    ∃ known', known <+: known' ∧ known'.length ≤ 65535 ∧
      (i ≠ [] → ∃ s1 x1 r x2, Longest known i s1 x1 r ∧ (r = [] ∧ x2 = [] ∨ ∃ s2 r', Longest known r s2 x2 r') ∧
        learn known (x1 ++ x2) <+: known') ∧
      ∀ rest, meaning known (symBytes syms ++ rest) = (i ++ (meaning known' rest).1, (meaning known' rest).2) := by
  induction h with
  | @nil known => exact ⟨known, List.prefix_refl _, hl, fun h => absurd rfl h, fun rest => by simp [symBytes]⟩
  | @one known i s x h =>
    have e := h.expand hl
    have e2 : Spec.expand known (UInt16.toNat 65535) = some [] := rfl
    refine ⟨learn known (x ++ []), learn_prefix .., learn_le hl _,
      fun _ => ⟨s, x, [], [], h, .inl ⟨rfl, rfl⟩, List.prefix_refl _⟩, fun rest => ?_⟩
    rw [symBytes_cons, symBytes_cons]
    rw [show symBytes [] = [] from rfl]
    simp only [List.cons_append, List.nil_append]
    rw [meaning_four known s 65535 rest e e2, h.split]
  | @two known i s1 x1 i' s2 x2 i'' syms h1 h2 _ ih =>
    obtain ⟨known', p, l, -, m⟩ := ih (learn_le hl _)
    refine ⟨known', (learn_prefix ..).trans p, l, fun _ => ⟨s1, x1, i', x2, h1, .inr ⟨s2, i'', h2⟩, p⟩, fun rest => ?_⟩
    rw [symBytes_cons, symBytes_cons]
    simp only [List.cons_append]
    rw [meaning_four known s1 s2 _ (h1.expand hl) (h2.expand hl), m, h1.split, h2.split]
    simp

theorem mem_oneByteSeqs {x : List UInt8} (h : x ∈ oneByteSeqs) : x.length = 1 := by
  simp only [oneByteSeqs, List.mem_map] at h
  obtain ⟨b, -, rfl⟩ := h
  rfl

theorem longest_start {i : List UInt8} {s : UInt16} {x r : List UInt8} (h : Longest oneByteSeqs i s x r) : x.length = 1 :=
  mem_oneByteSeqs (List.mem_of_getElem? h.isKnown)

/-- The first sequence that is learned from `i` consists of its first two bytes. -/
theorem parse_start {i syms} (h : Parse oneByteSeqs i syms) :
    ∃ known, oneByteSeqs <+: known ∧ known.length ≤ 65535 ∧ (i ≠ [] → known[256]? = some (i.take 2)) ∧
      ∀ rest, meaning oneByteSeqs (symBytes syms ++ rest) = (i ++ (meaning known rest).1, (meaning known rest).2) := by
  obtain ⟨known, h1, h2, h3, h4⟩ := parse_rest h goodDict_start.le
  refine ⟨known, h1, h2, fun hi => ?_, h4⟩
  obtain ⟨s1, x1, r, x2, l1, l2, hp⟩ := h3 hi
  have e : i.take 2 = x1 ++ x2 := by
    have n1 := longest_start l1
    rw [l1.split, List.take_append, n1, List.take_of_length_le (by omega)]
    rcases l2 with ⟨rfl, rfl⟩ | ⟨s2, r', l2⟩
    · rfl
    · have n2 := longest_start l2
      rw [l2.split, List.take_append, n2]
      simp [List.take_of_length_le (Nat.le_of_eq n2)]
  have hlen : oneByteSeqs.length = 256 := by decide +kernel
  obtain ⟨t, rfl⟩ := hp
  rw [e, learn, if_pos (by omega), List.append_assoc, List.getElem?_append_right (by omega), hlen]
  rfl

/-- Symbols for single bytes, and the end marker, mean the same with every dictionary. -/
theorem meaning_single {known known' : List (List UInt8)} (h : oneByteSeqs <+: known) (h' : oneByteSeqs <+: known')
    {syms : List UInt16} (hs : ∀ s ∈ syms, s.toNat < 256 ∨ s = 65535) :
    meaning known (symBytes syms) = meaning known' (symBytes syms) := by
  have key : ∀ s : UInt16, s.toNat < 256 ∨ s = 65535 → ∃ x, ∀ {known : List (List UInt8)}, oneByteSeqs <+: known →
      expand known s.toNat = some x := by
    rintro s (hs | rfl)
    · refine ⟨[UInt8.ofNat s.toNat], ?_⟩
      rintro known ⟨t, rfl⟩
      have hl : s.toNat < oneByteSeqs.length := by
        rw [show oneByteSeqs.length = 256 by decide +kernel]; exact hs
      rw [expand, if_neg (by omega), List.getElem?_append_left hl]
      unfold oneByteSeqs
      rw [List.getElem?_map, List.getElem?_range hs]
      rfl
    · exact ⟨[], fun _ => rfl⟩
  match syms, hs with
  | [], _ => rfl
  | [s], _ => simp [symBytes, meaning]
  | s1 :: s2 :: syms, hs =>
    obtain ⟨x, hx⟩ := key s1 (hs s1 (by simp))
    obtain ⟨y, hy⟩ := key s2 (hs s2 (by simp))
    rw [symBytes_cons, symBytes_cons, meaning_four known s1 s2 _ (hx h) (hy h), meaning_four known' s1 s2 _ (hx h') (hy h'),
      meaning_single (h.trans (learn_prefix ..)) (h'.trans (learn_prefix ..)) fun s hm => hs s (by simp [hm])]

/-- Up to three bytes are written as single bytes. -/
theorem parse_three {i syms} (h : Parse oneByteSeqs i syms) (hl : i.length ≤ 3) : ∀ s ∈ syms, s.toNat < 256 ∨ s = 65535 := by
  have low : ∀ {i : List UInt8} {s x r}, Longest oneByteSeqs i s x r → s.toNat < 256 := fun h => by
    have := (List.getElem?_eq_some_iff.1 h.isKnown).1
    rwa [ones_length] at this
  intro s hs
  cases h with
  | nil => simp at hs
  | one h =>
    simp only [List.mem_cons, List.not_mem_nil, or_false] at hs
    rcases hs with rfl | rfl
    · exact .inl (low h)
    · exact .inr rfl
  | @two _ _ s1 x1 i' s2 x2 i'' syms h1 h2 h3 =>
    simp only [List.mem_cons] at hs
    rcases hs with rfl | rfl | hs
    · exact .inl (low h1)
    · exact .inl (low h2)
    · have g := goodDict_start.learn h1 h2
      have n1 := longest_start h1
      have n2 := longest_start h2
      have e1 := congrArg List.length h1.split
      have e2 := congrArg List.length h2.split
      simp only [List.length_append] at e1 e2
      generalize learn oneByteSeqs (x1 ++ x2) = known at g h3
      cases h3 with
      | nil => simp at hs
      | @one _ _ t x h4 =>
        simp only [List.mem_cons, List.not_mem_nil, or_false] at hs
        refine hs.imp (fun e => ?_) id
        subst e
        have e4 := congrArg List.length h4.split
        have := List.length_pos_iff.2 h4.nonempty
        simp only [List.length_append, List.length_nil] at e4
        obtain ⟨b, rfl⟩ := List.length_eq_one_iff.1 (show x.length = 1 by omega)
        rw [g.one h4.isKnown]
        exact b.toNat_lt
      | two h4 h5 _ =>
        have e4 := congrArg List.length h4.split
        have e5 := congrArg List.length h5.split
        have := List.length_pos_iff.2 h4.nonempty
        have := List.length_pos_iff.2 h5.nonempty
        simp only [List.length_append] at e4 e5
        omega

/-- Two bytes that are repeated once. -/
theorem parse_twice {x y : UInt8} {syms} (h : Parse oneByteSeqs [x, y, x, y] syms) :
    syms = [UInt16.ofNat x.toNat, UInt16.ofNat y.toNat, 256, 65535] := by
  have l : ∀ (b : UInt8) l, Longest oneByteSeqs (b :: l) (UInt16.ofNat b.toNat) [b] l := fun b l => by
    have := longest_byte (more := []) (b := b) (l := l) (by simp)
    rwa [List.append_nil] at this
  obtain ⟨rest, rfl, hr⟩ := Parse.first ones_nodup (l x _) (l y _) h
  have hk : learn oneByteSeqs ([x] ++ [y]) = oneByteSeqs ++ [[x, y]] := by
    rw [learn, if_pos (by rw [ones_length]; omega)]; rfl
  rw [hk] at hr
  have hn : (oneByteSeqs ++ [[x, y]]).Nodup := ones_append_nodup (by simp) (by simp)
  have hl : Longest (oneByteSeqs ++ [[x, y]]) [x, y] 256 [x, y] [] := by
    refine ⟨rfl, by simp, ?_, fun z _ hp => hp.length_le⟩
    rw [show (256 : UInt16).toNat = 256 from rfl, List.getElem?_append_right (by rw [ones_length]), ones_length]
    rfl
  cases hr with
  | one h1 => rw [(Longest.unique hn h1 hl).1]
  | two h1 h2 _ =>
    rw [(Longest.unique hn h1 hl).2.2] at h2
    exact absurd (List.append_eq_nil_iff.1 h2.split.symm).1 h2.nonempty

end Cniic
