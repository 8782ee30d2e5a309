import Verif.Proofs.Fewer
import Verif.Spec.Background

/-! # Proofs: taking the most frequent item out -/

namespace Cniic
open Spec

variable {T : Type} [DecidableEq T]

theorem mem_without {x y : T} {items : List T} : y ∈ without x items ↔ y ∈ items ∧ y ≠ x := by
  simp [without]

/-- A code with one more bit for everything but `x`, and one bit for `x`. -/
theorem payload_peel {x : T} {items : List T} {code rest : T → List Bool} (hx : (code x).length = 1)
    (h : ∀ y ∈ items, y ≠ x → (code y).length = (rest y).length + 1) :
    payloadBits code items = items.length + payloadBits rest (without x items) := by
  induction items with
  | nil => rfl
  | cons y ys ih =>
    have ih := ih fun z hz => h z (by simp [hz])
    unfold payloadBits without at ih ⊢
    rw [List.map_cons, List.sum_cons, ih, List.length_cons, List.filter_cons]
    by_cases hy : y = x
    · subst hy
      simp [hx]
      omega
    · have := h y (by simp) hy
      simp [hy, this]
      omega

/-- One bit can always separate `x` from the rest. -/
theorem fewestBits_peel_le {x : T} {items : List T} {B B' : Nat} (h : FewestBits items B)
    (h' : FewestBits (without x items) B') : B ≤ items.length + B' := by
  obtain ⟨⟨rest, hr, rfl⟩, -⟩ := h'
  let code : T → List Bool := fun y => if y = x then [false] else true :: rest y
  have hx : code x = [false] := by simp [code]
  have hy : ∀ y, y ≠ x → code y = true :: rest y := fun y hy => by simp [code, hy]
  refine Nat.le_trans (h.2 code ?_) (Nat.le_of_eq (payload_peel (by rw [hx]; rfl) fun y _ hne => by rw [hy y hne]; rfl))
  intro y hym z hzm hpre
  by_cases ey : y = x <;> by_cases ez : z = x
  · rw [ey, ez]
  · rw [ey, hx, hy z ez] at hpre
    obtain ⟨t, ht⟩ := hpre
    cases ht
  · rw [ez, hx, hy y ey] at hpre
    obtain ⟨t, ht⟩ := hpre
    cases ht
  · rw [hy y ey, hy z ez, List.cons_prefix_cons] at hpre
    exact hr y (mem_without.2 ⟨hym, ey⟩) z (mem_without.2 ⟨hzm, ez⟩) hpre.2

/-- If a best code has one bit for `x`, this is the best that can be done. -/
theorem fewestBits_peel_ge {x : T} {items : List T} {B' : Nat} {code : T → List Bool} (hc : PrefixFree items code)
    (hx : x ∈ items) (h1 : (code x).length = 1) (h' : FewestBits (without x items) B') :
    items.length + B' ≤ payloadBits code items := by
  have key : ∀ y ∈ items, y ≠ x → ∃ b, code x = [b] ∧ code y = (!b) :: (code y).tail := by
    intro y hy hne
    match hcx : code x, h1 with
    | [b], _ =>
      refine ⟨b, rfl, ?_⟩
      match hcy : code y with
      | [] => exact absurd (hc y hy x hx (by rw [hcy]; exact List.nil_prefix)) hne
      | c :: t =>
        have : c ≠ b := by
          rintro rfl
          exact hne (hc x hx y hy (by rw [hcx, hcy]; exact ⟨t, rfl⟩)).symm
        cases b <;> cases c <;> simp_all
  rw [payload_peel (rest := fun y => (code y).tail) h1 fun y hy hne => by
    obtain ⟨b, -, e⟩ := key y hy hne
    rw [e]; simp]
  refine Nat.add_le_add_left (h'.2 _ ?_) _
  intro y hy z hz hpre
  obtain ⟨hy, ney⟩ := mem_without.1 hy
  obtain ⟨hz, nez⟩ := mem_without.1 hz
  obtain ⟨b, e1, e2⟩ := key y hy ney
  obtain ⟨b', e1', e2'⟩ := key z hz nez
  rw [e1] at e1'
  cases e1'
  apply hc y hy z hz
  rw [e2, e2', List.cons_prefix_cons]
  exact ⟨rfl, hpre⟩

end Cniic
