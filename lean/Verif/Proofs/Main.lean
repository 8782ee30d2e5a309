import Verif.Model.Main
import Verif.Spec.Main
import Verif.Proofs.Codec

/-!
# Paths, names, the command line
-/

namespace Cniic
open Spec Prs

/-! ## Paths -/

theorem splitSlash_ne_nil (p : List Char) : splitSlash p ≠ [] := by
  cases p with
  | nil => simp [splitSlash]
  | cons c cs =>
    rw [splitSlash]
    cases splitSlash cs with
    | nil => simp
    | cons w ws => by_cases h : c = '/' <;> simp [h]

theorem splitSlash_plain {n : List Char} (h : '/' ∉ n) : splitSlash n = [n] := by
  induction n with
  | nil => rfl
  | cons c cs ih =>
    rw [splitSlash, ih (fun hc => h (by simp [hc]))]
    have : c ≠ '/' := fun hc => h (by simp [hc])
    simp [this]

theorem splitSlash_append (a b : List Char) : splitSlash (a ++ '/' :: b) = splitSlash a ++ splitSlash b := by
  induction a with
  | nil =>
    rw [List.nil_append, splitSlash]
    cases hb : splitSlash b with
    | nil => exact absurd hb (splitSlash_ne_nil b)
    | cons w ws => simp [splitSlash, hb]
  | cons c a ih =>
    rw [List.cons_append, splitSlash, ih, splitSlash]
    cases ha : splitSlash a with
    | nil => exact absurd ha (splitSlash_ne_nil a)
    | cons w ws => by_cases h : c = '/' <;> simp [h]

theorem splitSlash_parts (p : List Char) : ∀ c ∈ splitSlash p, '/' ∉ c := by
  induction p with
  | nil => simp [splitSlash]
  | cons c cs ih =>
    intro d hd
    rw [splitSlash] at hd
    cases hs : splitSlash cs with
    | nil => exact absurd hs (splitSlash_ne_nil cs)
    | cons w ws =>
      rw [hs] at hd ih
      by_cases h : c = '/'
      · simp only [h, ↓reduceIte, List.mem_cons] at hd
        rcases hd with rfl | rfl | hd
        · simp
        · exact ih _ (by simp)
        · exact ih _ (by simp [hd])
      · simp only [h, ↓reduceIte, List.mem_cons] at hd
        rcases hd with rfl | hd
        · have := ih w (by simp)
          simp only [List.mem_cons, not_or]
          exact ⟨fun e => h e.symm, this⟩
        · exact ih _ (by simp [hd])

/-- Put the parts together again. -/
def joinSlash : List (List Char) → List Char
  | [] => []
  | w :: ws => w ++ ws.flatMap ('/' :: ·)

theorem join_split (p : List Char) : joinSlash (splitSlash p) = p := by
  induction p with
  | nil => rfl
  | cons c cs ih =>
    rw [splitSlash]
    cases hs : splitSlash cs with
    | nil => exact absurd hs (splitSlash_ne_nil cs)
    | cons w ws =>
      rw [hs] at ih
      by_cases h : c = '/'
      · simpa [h, joinSlash] using ih
      · simpa [h, joinSlash] using ih

theorem split_join {w : List Char} {ws : List (List Char)} (h : ∀ c ∈ w :: ws, '/' ∉ c) :
    splitSlash (joinSlash (w :: ws)) = w :: ws := by
  induction ws generalizing w with
  | nil => simpa [joinSlash] using splitSlash_plain (h w (by simp))
  | cons v ws ih =>
    have : joinSlash (w :: v :: ws) = w ++ '/' :: joinSlash (v :: ws) := by simp [joinSlash]
    rw [this, splitSlash_append, splitSlash_plain (h w (by simp)), ih fun c hc => h c (by simp at hc ⊢; simp [hc])]
    rfl

theorem reverse_dropWhile {α : Type} (q : α → Bool) (xs : List α) :
    ∃ ys zs, xs = ys ++ zs ∧ (∀ z ∈ zs, q z = true) ∧ xs.reverse.dropWhile q = ys.reverse := by
  refine ⟨(xs.reverse.dropWhile q).reverse, (xs.reverse.takeWhile q).reverse, ?_, ?_, by simp⟩
  · rw [← List.reverse_append, List.takeWhile_append_dropWhile, List.reverse_reverse]
  · intro z hz
    have := List.all_takeWhile (p := q) (l := xs.reverse)
    rw [List.all_eq_true] at this
    exact this z (List.mem_reverse.1 hz)

theorem fileName_iff (p n : List Char) : fileName p = some n ↔ IsFileName p n := by
  constructor
  · intro h
    obtain ⟨ys, zs, hp, hz, hd⟩ := reverse_dropWhile (fun c : List Char => c == [] || c == ['.']) (splitSlash p)
    rw [fileName, hd] at h
    cases hr : ys.reverse with
    | nil => rw [hr] at h; simp at h
    | cons c rs =>
      rw [hr] at h
      by_cases hc : c = ['.', '.']
      · simp [hc] at h
      simp only [hc, if_false, Option.some.injEq] at h
      subst h
      have hys : ys = rs.reverse ++ [c] := by
        rw [← List.reverse_reverse ys, hr, List.reverse_cons]
      have hhead : ¬ ((fun c : List Char => c == [] || c == ['.']) c = true) := by
        have := List.head?_dropWhile_not (fun c : List Char => c == [] || c == ['.']) (splitSlash p).reverse
        rw [hd, hr] at this
        simpa using this
      have hz' : ∀ z ∈ zs, z = [] ∨ z = ['.'] := fun z hzz => by simpa using hz z hzz
      simp only [Bool.or_eq_true, beq_iff_eq, not_or] at hhead
      have hsl : '/' ∉ c := splitSlash_parts p c (by rw [hp, hys]; simp)
      have hj := join_split p
      rw [hp, hys] at hj
      cases hrs : rs.reverse with
      | nil =>
        refine ⟨[], zs, ?_, .inl rfl, hz', hsl, hhead.1, hhead.2, hc⟩
        rw [← hj, hrs]
        simp [joinSlash]
      | cons w ws =>
        refine ⟨joinSlash (w :: ws) ++ ['/'], zs, ?_, .inr ⟨_, rfl⟩, hz', hsl, hhead.1, hhead.2, hc⟩
        rw [← hj, hrs]
        simp [joinSlash]
  · rintro ⟨dir, after, hp, hdir, hafter, hsl, h0, h1, h2⟩
    have hplain : ∀ c ∈ n :: after, '/' ∉ c := by
      intro c hc
      rcases List.mem_cons.1 hc with rfl | hc
      · exact hsl
      · rcases hafter c hc with rfl | rfl <;> simp
    have hs : ∃ pre, splitSlash p = pre ++ n :: after := by
      have hj : n ++ after.flatMap ('/' :: ·) = joinSlash (n :: after) := rfl
      rw [hj] at hp
      rcases hdir with rfl | ⟨d, rfl⟩
      · exact ⟨[], by rw [hp, List.nil_append, split_join hplain]; rfl⟩
      · refine ⟨splitSlash d, ?_⟩
        rw [hp, List.append_assoc, List.singleton_append, splitSlash_append, split_join hplain]
    obtain ⟨pre, hs⟩ := hs
    have hall : ∀ z ∈ after.reverse, (fun c : List Char => c == [] || c == ['.']) z = true := by
      intro z hz
      rcases hafter z (List.mem_reverse.1 hz) with rfl | rfl <;> rfl
    rw [fileName, hs, List.reverse_append, List.reverse_cons, List.append_assoc,
      List.dropWhile_append_of_pos hall, List.singleton_append, List.dropWhile_cons_of_neg (by simp [h0, h1])]
    simp [h2]

theorem rsplitDot_none {s : List Char} : rsplitDot s = none ↔ '.' ∉ s := by
  induction s with
  | nil => simp [rsplitDot]
  | cons c cs ih =>
    rw [rsplitDot]
    cases h : rsplitDot cs with
    | none =>
      have := ih.1 h
      by_cases hc : c = '.'
      · simp [hc]
      · have : ¬ '.' = c := fun e => hc e.symm
        simp [hc, *]
    | some x =>
      have : '.' ∈ cs := Classical.byContradiction fun hn => by rw [ih.2 hn] at h; cases h
      simp [this]

theorem rsplitDot_some {s a b : List Char} : rsplitDot s = some (a, b) ↔ s = a ++ '.' :: b ∧ '.' ∉ b := by
  induction s generalizing a b with
  | nil => simp [rsplitDot]
  | cons c cs ih =>
    rw [rsplitDot]
    cases h : rsplitDot cs with
    | none =>
      have hn := rsplitDot_none.1 h
      by_cases hc : c = '.'
      · subst hc
        simp only [↓reduceIte, Option.some.injEq, Prod.mk.injEq]
        constructor
        · rintro ⟨rfl, rfl⟩; exact ⟨rfl, hn⟩
        · rintro ⟨e, hb⟩
          cases a with
          | nil => simp at e; exact ⟨rfl, e⟩
          | cons d a =>
            simp at e
            exact absurd (by rw [e.2]; simp) hn
      · simp only [hc, ↓reduceIte, reduceCtorEq, false_iff, not_and]
        rintro e
        cases a with
        | nil => simp at e; exact absurd e.1 hc
        | cons d a =>
          simp at e
          exact absurd (by rw [e.2]; simp) hn
    | some x =>
      obtain ⟨a', b'⟩ := x
      have hcs := ih.1 h
      simp only [Option.some.injEq, Prod.mk.injEq]
      constructor
      · rintro ⟨rfl, rfl⟩
        exact ⟨by simp [hcs.1], hcs.2⟩
      · rintro ⟨e, hb⟩
        cases a with
        | nil =>
          simp at e
          rw [← e.2, hcs.1] at hb
          simp at hb
        | cons d a =>
          simp at e
          have := ih.2 ⟨e.2, hb⟩
          rw [h] at this
          simp at this
          exact ⟨by rw [e.1, this.1], this.2⟩

theorem fileStem_iff (name s : List Char) : fileStem name = s ↔ IsStem name s := by
  unfold fileStem IsStem
  cases h : rsplitDot name with
  | none =>
    have hn := rsplitDot_none.1 h
    constructor
    · rintro rfl
      exact .inr ⟨rfl, fun a e _ he => absurd (by rw [he]; simp) hn⟩
    · rintro (⟨_, e, _, he⟩ | ⟨rfl, _⟩)
      · exact absurd (by rw [he]; simp) hn
      · rfl
  | some x =>
    obtain ⟨a, b⟩ := x
    obtain ⟨h1, h2⟩ := rsplitDot_some.1 h
    have huniq : ∀ a' b', '.' ∉ b' → name = a' ++ '.' :: b' → a' = a := by
      intro a' b' hb' he
      have := rsplitDot_some.2 ⟨he, hb'⟩
      rw [h] at this
      simp at this
      exact this.1.symm
    by_cases ha : a = []
    · simp only [ha, if_true]
      subst ha
      constructor
      · rintro rfl
        exact .inr ⟨rfl, huniq⟩
      · rintro (⟨h0, e, he, hne⟩ | ⟨rfl, _⟩)
        · exact absurd (huniq _ _ he hne) h0
        · rfl
    · simp only [ha, if_false]
      constructor
      · rintro rfl
        exact .inl ⟨ha, b, h2, h1⟩
      · rintro (⟨h0, e, he, hne⟩ | ⟨rfl, hall⟩)
        · exact (huniq _ _ he hne).symm
        · exact absurd (hall a b h2 h1) ha

theorem stem_of_fileName {p n : List Char} (h : IsFileName p n) : fileStem n ≠ [] ∧ '/' ∉ fileStem n := by
  obtain ⟨_, _, _, _, _, hsl, h0, _, _⟩ := h
  unfold fileStem
  cases hr : rsplitDot n with
  | none => exact ⟨h0, hsl⟩
  | some x =>
    obtain ⟨a, b⟩ := x
    by_cases ha : a = []
    · simp only [ha, if_true]; exact ⟨h0, hsl⟩
    · simp only [ha, if_false]
      refine ⟨ha, fun hc => hsl ?_⟩
      rw [(rsplitDot_some.1 hr).1]
      simp [hc]

/-! ## Numbers -/

theorem showNat_inj {a b : Nat} (h : showNat a = showNat b) : a = b := by
  have := congrArg (fun l => Nat.ofDigitChars 10 l 0) h
  simpa [showNat, Nat.ofDigitChars_ten_toDigits] using this

theorem showNat_digits (n : Nat) : ∀ c ∈ showNat n, c.isDigit = true :=
  fun _ hc => Nat.isDigit_of_mem_toDigits (by decide) (by decide) hc

end Cniic
