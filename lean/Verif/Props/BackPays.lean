import Verif.Spec.BackPays
import Verif.Props.BackSearch

/-!
# The shortest copy worth writing (C112)

The comment at `MIN_REP` (back.rs:127-142) derives the number 6: "The minimum number of repetition that makes
`Symbol::LookBack` better than `Symbol::Explicit`".
-/

namespace Cniic
open Spec Back

theorem le_two_length (n : Nat) : (le 2 n).length = 2 := rfl

theorem symbolsSize_explicit (a : List UInt8) (syms : List Symbol) : symbolsSize (.explicit a :: syms) = 2 + a.length + symbolsSize syms := by
  simp only [symbolsSize, List.flatMap_cons, List.length_append, symbolBytes, le_two_length]

theorem symbolsSize_copy (l b : Nat) (syms : List Symbol) : symbolsSize (.lookBack l b :: syms) = 4 + symbolsSize syms := by
  simp only [symbolsSize, List.flatMap_cons, List.length_append, symbolBytes, le_two_length]

/-- The symbols begin with a literal run. -/
def startsLit : List Symbol → Prop
  | .explicit _ :: _ => True
  | _ => False

/-- No two literal runs are neighbours. -/
def Apart : List Symbol → Prop
  | [] => True
  | s :: syms => (startsLit [s] → ¬ startsLit syms) ∧ Apart syms

theorem alternate_apart {syms : List Symbol} (h : Alternate syms) : Apart syms := by
  induction h with
  | nil => trivial
  | last => exact ⟨fun _ h => h, trivial⟩
  | copy _ ih => exact ⟨fun h => h.elim, ih⟩
  | both _ _ ih => exact ⟨fun _ h => h, fun h => h.elim, ih⟩

theorem size_joinFirst (a : List UInt8) (syms : List Symbol) :
    (startsLit syms → symbolsSize (joinFirst a syms) = a.length + symbolsSize syms) ∧
    (¬ startsLit syms → symbolsSize (joinFirst a syms) = 2 + a.length + symbolsSize syms) := by
  match syms with
  | [] => exact ⟨fun h => h.elim, fun _ => symbolsSize_explicit _ _⟩
  | .lookBack l b :: syms => exact ⟨fun h => h.elim, fun _ => symbolsSize_explicit _ _⟩
  | .explicit b :: syms =>
    refine ⟨fun _ => ?_, fun h => absurd trivial h⟩
    rw [joinFirst, symbolsSize_explicit, symbolsSize_explicit, List.length_append]
    omega

theorem spelled_size {N : Nat} {hist : List UInt8} {syms out : List Symbol} (h : Spelled N hist syms out) (ha : Apart syms)
    (h6 : ∀ pre l b post x, syms = pre ++ .lookBack l b :: post → meaningFrom N hist pre = some x →
      ∃ y, symbolMeaning N (hist ++ x) (.lookBack l b) = some y ∧ 6 ≤ y.length) :
    symbolsSize syms ≤ symbolsSize (joinRuns out) ∧
    (startsLit (joinRuns out) → ¬ startsLit syms → symbolsSize syms + 2 ≤ symbolsSize (joinRuns out)) := by
  induction h with
  | nil => exact ⟨Nat.le_refl _, fun h => h.elim⟩
  | @keep hist s x syms out hx _ ih =>
    obtain ⟨i1, i2⟩ := ih ha.2 (by
      intro pre l b post y e hy
      rw [List.append_assoc]
      refine h6 (s :: pre) l b post (x ++ y) (by rw [e]; rfl) ?_
      simp only [meaningFrom, hx, hy])
    cases s with
    | lookBack l b =>
      rw [joinRuns, symbolsSize_copy, symbolsSize_copy]
      exact ⟨by omega, fun h => h.elim⟩
    | explicit a =>
      rw [joinRuns, symbolsSize_explicit]
      obtain ⟨j1, j2⟩ := size_joinFirst a (joinRuns out)
      refine ⟨?_, fun _ h => absurd trivial h⟩
      by_cases hl : startsLit (joinRuns out)
      · have := i2 hl (ha.1 trivial)
        rw [j1 hl]; omega
      · rw [j2 hl]; omega
  | @spell hist l b x syms out hx _ ih =>
    obtain ⟨i1, i2⟩ := ih ha.2 (by
      intro pre l' b' post y e hy
      rw [List.append_assoc]
      refine h6 (.lookBack l b :: pre) l' b' post (x ++ y) (by rw [e]; rfl) ?_
      simp only [meaningFrom, hx, hy])
    obtain ⟨y, hy, h6'⟩ := h6 [] l b syms [] rfl rfl
    rw [List.append_nil, hx] at hy
    cases hy
    rw [joinRuns, symbolsSize_copy]
    obtain ⟨j1, j2⟩ := size_joinFirst x (joinRuns out)
    have key : 4 + symbolsSize syms + 2 ≤ symbolsSize (joinFirst x (joinRuns out)) := by
      by_cases hl : startsLit (joinRuns out)
      · rw [j1 hl]; omega
      · rw [j2 hl]; omega
    exact ⟨by omega, fun _ _ => key⟩

theorem meaning_joinFirst {N : Nat} (a : List UInt8) (syms : List Symbol) (hist : List UInt8) :
    meaningFrom N hist (joinFirst a syms) = meaningFrom N hist (.explicit a :: syms) := by
  match syms with
  | [] => rfl
  | .lookBack _ _ :: _ => rfl
  | .explicit b :: syms =>
    simp only [joinFirst, meaningFrom, symbolMeaning]
    rw [List.append_assoc]
    cases meaningFrom N (hist ++ (a ++ b)) syms <;> simp

theorem meaning_joinRuns {N : Nat} (syms : List Symbol) (hist : List UInt8) :
    meaningFrom N hist (joinRuns syms) = meaningFrom N hist syms := by
  induction syms generalizing hist with
  | nil => rfl
  | cons s syms ih =>
    cases s with
    | explicit a => rw [joinRuns, meaning_joinFirst]; simp only [meaningFrom, ih]
    | lookBack l b => simp only [joinRuns, meaningFrom, ih]

theorem spelled_meaning {N : Nat} {hist : List UInt8} {syms out : List Symbol} (h : Spelled N hist syms out) :
    meaningFrom N hist out = meaningFrom N hist syms := by
  induction h with
  | nil => rfl
  | keep hx _ ih => simp only [meaningFrom, hx, ih]
  | @spell hist l b x syms out hx _ ih =>
    rw [meaningFrom, meaningFrom, hx, show symbolMeaning N hist (.explicit x) = some x from rfl]
    simp only [ih]

/-- **C112.** No copy that is written is a loss: replacing any of them by the bytes they stand for, and joining the literal
runs, gives symbols for the same data that are not shorter. -/
theorem C112_pays (cap : Caps) (hcap : ∀ i, repBufInit ≤ cap i) (input bytes : List UInt8)
    (h : bytesOf (zipBackEncode ringSize cap input) = .ok bytes) :
    ∃ syms, bytes = syms.flatMap symbolBytes ∧ meaningFrom ringSize [] syms = some input ∧
      ∀ out, Spelled ringSize [] syms out → meaningFrom ringSize [] (joinRuns out) = some input ∧
        bytes.length ≤ symbolsSize (joinRuns out) := by
  obtain ⟨syms, hf, he⟩ := zipBackEncode_spec (show 0 < ringSize by decide) hcap input
  rw [he] at h
  obtain ⟨hfit, rfl⟩ := bytesOf_syms h
  have hm : meaningFrom ringSize [] syms = some input := by simpa using Factor.meaning hf [] rfl
  refine ⟨syms, rfl, hm, fun out ho => ⟨by rw [meaning_joinRuns, spelled_meaning ho, hm], ?_⟩⟩
  refine (spelled_size ho (alternate_apart (Factor.alternate hf (.inl rfl))) ?_).1
  intro pre l b post x e hx
  obtain ⟨x', r, h1, -, h2⟩ := Factor.copies hf [] rfl pre l b post e
  rw [hx] at h1
  cases h1
  refine ⟨_, if_pos ⟨h2.occurs.inHist, h2.occurs.inWindow⟩, ?_⟩
  have h3 := h2.occurs.inHist
  have h4 := h2.occurs.inside
  have h5 := h2.useful
  rw [List.length_take, List.length_drop]
  omega

/-- The copy in this output; it is written out, and the literal runs are joined. -/
example : Spelled 65535 [] [.explicit [1, 2, 3, 4, 5, 6, 7, 8], .lookBack 6 8, .explicit [9]]
    [.explicit [1, 2, 3, 4, 5, 6, 7, 8], .explicit [1, 2, 3, 4, 5, 6], .explicit [9]] ∧
    joinRuns [.explicit [1, 2, 3, 4, 5, 6, 7, 8], .explicit [1, 2, 3, 4, 5, 6], .explicit [9]] =
      [.explicit [1, 2, 3, 4, 5, 6, 7, 8, 1, 2, 3, 4, 5, 6, 9]] :=
  ⟨.keep rfl (.spell rfl (.keep rfl .nil)), rfl⟩

/-- **C112**, the number 6 is right between two literal runs: a shorter copy would be a loss there. -/
theorem C112_between_runs (a c x : List UInt8) (len back : Nat) (post : List Symbol) :
    symbolsSize (.explicit (a ++ x ++ c) :: post) < symbolsSize (.explicit a :: .lookBack len back :: .explicit c :: post) ↔
      x.length < 6 := by
  rw [symbolsSize_explicit, symbolsSize_explicit, symbolsSize_copy, symbolsSize_explicit, List.length_append,
    List.length_append]
  omega

/-- **C112**, after a literal run but not before one, 5 bytes are enough for a gain; after a copy (or at the beginning) and
not before a literal run 3 bytes. -/
theorem C112_elsewhere (a x : List UInt8) (len back : Nat) (post : List Symbol) :
    (symbolsSize (.explicit a :: .lookBack len back :: post) < symbolsSize (.explicit (a ++ x) :: post) ↔ 5 ≤ x.length) ∧
    (symbolsSize (.lookBack len back :: post) < symbolsSize (.explicit x :: post) ↔ 3 ≤ x.length) := by
  simp only [symbolsSize_explicit, symbolsSize_copy, List.length_append]
  omega

theorem noCopy_short {N : Nat} {hist rest : List UInt8} (h : hist.length < 6 ∨ rest.length < 6) : NoCopy N hist rest := by
  intro len back ho
  have h1 := ho.inHist
  have h2 := ho.inside
  have h3 := ho.avail
  omega

/-- **C112**, so 6 is not the least number that makes a copy better, as the comment says: for all data of 21 bytes that are
8 bytes, the same again and the first 5 of them again, the output is longer than the data a decoder would accept with one
more copy, of 5 bytes. -/
theorem C112_refuted (cap : Caps) (hcap : ∀ i, repBufInit ≤ cap i) (u : List UInt8) (hu : u.length = 8) :
    bytesOf (zipBackEncode ringSize cap (u ++ u ++ u.take 5)) =
      .ok ([.explicit u, .lookBack 8 8, .explicit (u.take 5)].flatMap symbolBytes) ∧
    symbolsSize [.explicit u, .lookBack 8 8, .explicit (u.take 5)] = 21 ∧
    Yields Decoder.next (zipBackDecode ringSize ([.explicit u, .lookBack 8 8, .lookBack 5 8].flatMap symbolBytes))
      (u ++ u ++ u.take 5) ∧
    symbolsSize [.explicit u, .lookBack 8 8, .lookBack 5 8] = 18 := by
  obtain ⟨a, b, c, d, e, f, g, h, rfl⟩ : ∃ a b c d e f g h, u = [a, b, c, d, e, f, g, h] := by
    match u, hu with
    | [a, b, c, d, e, f, g, h], _ => exact ⟨a, b, c, d, e, f, g, h, rfl⟩
  refine ⟨?_, rfl, ?_, rfl⟩
  · obtain ⟨syms, hf, hfit, -⟩ := C22_completes_iff cap hcap [a, b, c, d, e, f, g, h, a, b, c, d, e, f, g, h, a, b, c, d, e]
    have hc : LongestCopy ringSize [a, b, c, d, e, f, g, h] [a, b, c, d, e, f, g, h, a, b, c, d, e] 8 8 := by
      refine ⟨⟨by simp, by decide, by decide, by simp, ?_⟩, by decide, ?_, ?_⟩
      · intro i hi
        match i, hi with
        | 0, _ | 1, _ | 2, _ | 3, _ | 4, _ | 5, _ | 6, _ | 7, _ => rfl
      · intro l b ho
        have h1 := ho.inHist
        have h2 := ho.inside
        simp at h1
        omega
      · intro b ho
        exact ho.inHist
    have hf' : Factor ringSize [] [] [a, b, c, d, e, f, g, h, a, b, c, d, e, f, g, h, a, b, c, d, e]
        [.explicit [a, b, c, d, e, f, g, h], .lookBack 8 8, .explicit [a, b, c, d, e]] := by
      refine .extend (noCopy_short (by simp)) (by simp) ?_
      refine .extend (noCopy_short (by simp)) (by simp) ?_
      refine .extend (noCopy_short (by simp)) (by simp) ?_
      refine Factor.copy (run := [a, b, c, d, e, f, g, h]) (syms := [.explicit [a, b, c, d, e]]) hc ?_
      refine .extend (noCopy_short (by simp)) (by simp) ?_
      refine .extend (noCopy_short (by simp)) (by simp) ?_
      exact Factor.last (run := [a, b, c, d]) (rest := [e]) (noCopy_short (by simp)) (by simp)
    rw [Factor.unique hf hf'] at hfit
    exact (hfit (by simp [Fits])).bytesOf
  · have hfit : ∀ s ∈ [Symbol.explicit [a, b, c, d, e, f, g, h], .lookBack 8 8, .lookBack 5 8], Fits s := by simp [Fits]
    have hne : ∀ s ∈ [Symbol.explicit [a, b, c, d, e, f, g, h], .lookBack 8 8, .lookBack 5 8],
        s ≠ .explicit [] ∧ ∀ len back, s = .lookBack len back → 0 < len ∧ 0 < back := by
      simp
    exact yields_meaning (show 0 < ringSize by decide) _ hfit (h := []) rfl hne (DecInv.new ringSize _)

/-- Eight bytes. -/
example : [1, 2, 3, 4, 5, 6, 7, (8 : UInt8)].length = 8 := rfl

end Cniic
