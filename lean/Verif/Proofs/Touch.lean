import Verif.Proofs.Resync
import Verif.Proofs.Sizes
import Verif.Proofs.Depth
import Verif.Spec.Depth

/-! # Proofs: changing a few pixels -/

namespace Cniic
open Spec SerSpec

theorem differences_cons {T : Type} [DecidableEq T] (x y : T) (a b : List T) :
    differences (x :: a) (y :: b) = (if x = y then 0 else 1) + differences a b := by
  split
  · next h => subst h; rw [differences_cons_self, Nat.zero_add]
  · next h =>
    have e := differences_append (a := [x]) (a' := [y]) (b := a) (b' := b) rfl
    rw [List.singleton_append, List.singleton_append] at e
    have h1 := differences_pos (a := [x]) (b := [y]) (by simpa using h)
    have h2 := differences_cons_le x y a b
    omega

theorem differences_comm {T : Type} [DecidableEq T] (a b : List T) : differences a b = differences b a := by
  unfold differences
  rw [Nat.max_comm]
  exact List.countP_congr fun i _ => by rw [decide_eq_true_iff, decide_eq_true_iff, ne_comm]

/-! ## Runs -/

/-- A list in which few items differ from `c` consists of a run of `c` and few others. -/
theorem runs_of_changes (c : Rgb UInt8) (g : List (Rgb UInt8)) (hl : g.length ≤ 255) :
    ∃ m runs, m ≤ g.length ∧ g = List.replicate m c ++ expandRuns runs ∧
      runs.length ≤ 2 * differences (List.replicate g.length c) g := by
  induction g with
  | nil => exact ⟨0, [], Nat.le_refl _, rfl, Nat.zero_le _⟩
  | cons x g ih =>
    rw [List.length_cons] at hl
    obtain ⟨m, runs, h1, h2, h3⟩ := ih (by omega)
    rw [List.length_cons, List.replicate_succ, differences_cons]
    by_cases hx : c = x
    · subst hx
      refine ⟨m + 1, runs, by omega, ?_, by rw [if_pos rfl]; omega⟩
      rw [List.replicate_succ, List.cons_append, ← h2]
    · refine ⟨0, (1, x) :: (UInt8.ofNat m, c) :: runs, Nat.zero_le _, ?_, by rw [if_neg hx]; simp; omega⟩
      have e : expandRuns ((1, x) :: (UInt8.ofNat m, c) :: runs) =
          x :: (List.replicate (UInt8.ofNat m).toNat c ++ expandRuns runs) := rfl
      rw [e, u8_ofNat_toNat (by omega), ← h2]
      rfl

theorem runs_changed (runs : List (UInt8 × Rgb UInt8)) {xs : List (Rgb UInt8)} (hl : xs.length = (expandRuns runs).length) :
    ∃ runs', expandRuns runs' = xs ∧ runs'.length ≤ runs.length + 2 * differences (expandRuns runs) xs := by
  induction runs generalizing xs with
  | nil => exact ⟨[], (List.length_eq_zero_iff.1 hl).symm, Nat.zero_le _⟩
  | cons r runs ih =>
    have e : expandRuns (r :: runs) = List.replicate r.1.toNat r.2 ++ expandRuns runs := rfl
    rw [e, List.length_append, List.length_replicate] at hl
    obtain ⟨g, t, rfl, hg⟩ : ∃ g t, xs = g ++ t ∧ g.length = r.1.toNat :=
      ⟨xs.take r.1.toNat, xs.drop r.1.toNat, (List.take_append_drop _ _).symm, by rw [List.length_take]; omega⟩
    rw [List.length_append] at hl
    obtain ⟨runs', h1, h2⟩ := ih (xs := t) (by omega)
    have h255 : r.1.toNat ≤ 255 := by have := r.1.toNat_lt; omega
    obtain ⟨m, rs, k1, k2, k3⟩ := runs_of_changes r.2 g (by omega)
    refine ⟨(UInt8.ofNat m, r.2) :: (rs ++ runs'), ?_, ?_⟩
    · have e2 : expandRuns ((UInt8.ofNat m, r.2) :: (rs ++ runs')) =
          List.replicate (UInt8.ofNat m).toNat r.2 ++ expandRuns (rs ++ runs') := rfl
      rw [e2, u8_ofNat_toNat (by omega), show expandRuns (rs ++ runs') = expandRuns rs ++ expandRuns runs' by simp [expandRuns],
        ← List.append_assoc, ← k2, h1]
    · rw [e, differences_append (by rw [List.length_replicate, hg])]
      rw [hg] at k3
      simp only [List.length_cons, List.length_append]
      omega

/-- Along the traversal as many pixels differ as row by row. -/
theorem differences_along {scan : Scan} {img img' : Img} (hw : img.width = img'.width) (hh : img.height = img'.height)
    (hs : VisitsOnce scan img.width.toNat img.height.toNat) :
    differences (colorsAlong scan img) (colorsAlong scan img') = differences img.rgbPixels img'.rgbPixels := by
  have map : ∀ (f g : Nat × Nat → Rgb UInt8) (l : List (Nat × Nat)),
      differences (l.map f) (l.map g) = l.countP fun c => decide (f c ≠ g c) := by
    intro f g l
    induction l with
    | nil => rfl
    | cons x l ih =>
      rw [List.map_cons, List.map_cons, differences_cons, ih, List.countP_cons]
      by_cases h : f x = g x <;> simp [h, Nat.add_comm]
  have cellsOf : ∀ img : Img, (cells img.width.toNat img.height.toNat).map (colorAt img) = img.rgbPixels := by
    intro img
    have hlen : img.rgbPixels.length = img.width.toNat * img.height.toNat := by rw [Img.rgbPixels, List.length_map, img.size]
    apply List.ext_getElem?
    intro i
    by_cases hi : i < img.width.toNat * img.height.toNat
    · have : i / img.width.toNat * img.width.toNat + i % img.width.toNat = i := by
        rw [Nat.mul_comm]; exact Nat.div_add_mod _ _
      rw [cells, List.map_map, List.getElem?_map, List.getElem?_range hi, Option.map_some, List.getElem?_eq_getElem (by omega)]
      simp only [Function.comp, colorAt, this]
      rw [List.getElem?_eq_getElem (by omega)]
      rfl
    · rw [List.getElem?_eq_none (by simp [cells]; omega), List.getElem?_eq_none (by omega)]
  rw [← cellsOf img, ← cellsOf img', colorsAlong, colorsAlong, ← hw, ← hh, map, map]
  exact List.Perm.countP_eq _ hs

/-! ## Codes -/

theorem payload_changed {T : Type} [DecidableEq T] {code : T → List Bool} {L : Nat} {a b : List T} (hl : a.length = b.length)
    (hL : ∀ x ∈ b, (code x).length ≤ L) : payloadBits code b ≤ payloadBits code a + L * differences a b := by
  induction a generalizing b with
  | nil =>
    rw [List.length_eq_zero_iff.1 hl.symm]
    exact Nat.zero_le _
  | cons x a ih =>
    cases b with
    | nil => cases hl
    | cons y b =>
      have h1 := ih (b := b) (by simpa using hl) fun z hz => hL z (.tail _ hz)
      have h2 := hL y (.head _)
      rw [differences_cons]
      unfold payloadBits at h1 ⊢
      simp only [List.map_cons, List.sum_cons]
      split
      · next h => subst h; rw [Nat.zero_add]; omega
      · rw [Nat.mul_add, Nat.mul_one]; omega

/-- One changed pixel changes two differences. -/
theorem diffs_changed (p : Rgb UInt8) {a b : List (Rgb UInt8)} (hl : a.length = b.length) :
    differences (diffs p a) (diffs p b) ≤ 2 * differences a b := by
  have key : ∀ (a b : List (Rgb UInt8)) (p q : Rgb UInt8), a.length = b.length →
      differences (diffs p a) (diffs q b) ≤ 2 * differences a b + if p = q then 0 else 1 := by
    intro a
    induction a with
    | nil =>
      intro b p q hl
      rw [List.length_eq_zero_iff.1 hl.symm]
      exact Nat.le_trans (Nat.le_of_eq (differences_self _)) (Nat.zero_le _)
    | cons x a ih =>
      intro b p q hl
      cases b with
      | nil => cases hl
      | cons y b =>
        have h1 := ih b x y (by simpa using hl)
        simp only [diffs]
        rw [differences_cons, differences_cons]
        by_cases hxy : x = y
        · subst hxy
          rw [if_pos rfl] at h1 ⊢
          by_cases hpq : p = q
          · subst hpq
            rw [if_pos rfl, if_pos rfl]
            omega
          · rw [if_neg hpq]
            split <;> omega
        · rw [if_neg hxy] at h1 ⊢
          split <;> omega
  have := key a b p p hl
  rwa [if_pos rfl] at this

end Cniic
