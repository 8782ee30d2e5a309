import Verif.Proofs.Image

/-! # Proofs: square traversals -/

namespace Cniic
open Spec

theorem nextPow2From_spec (n fuel p : Nat) (h : n ≤ p * 2 ^ fuel) :
    ∃ k, k ≤ fuel ∧ nextPow2From n fuel p = p * 2 ^ k ∧ n ≤ p * 2 ^ k ∧
      (k = 0 ∨ p * 2 ^ (k - 1) < n) := by
  induction fuel generalizing p with
  | zero => exact ⟨0, Nat.le_refl _, by simp [nextPow2From], by simpa using h, .inl rfl⟩
  | succ fuel ih =>
    rw [nextPow2From]
    split
    · next hle => exact ⟨0, by omega, by simp, by simpa using hle, .inl rfl⟩
    · next hlt =>
      obtain ⟨k, h1, h2, h3, h4⟩ := ih (2 * p) (by
        rw [Nat.pow_succ] at h
        rw [Nat.mul_comm 2 p, Nat.mul_assoc, Nat.mul_comm 2 (2 ^ fuel)]; exact h)
      have e : ∀ j, 2 * p * 2 ^ j = p * 2 ^ (j + 1) := by
        intro j; rw [Nat.pow_succ, Nat.mul_comm 2 p, Nat.mul_assoc, Nat.mul_comm 2 (2 ^ j)]
      refine ⟨k + 1, by omega, by rw [h2, e], by rw [← e]; exact h3, .inr ?_⟩
      rw [Nat.add_sub_cancel]
      rcases h4 with rfl | h4
      · simp; omega
      · cases k with
        | zero => simp; omega
        | succ k => rw [e] at h4; exact h4

/-- The smallest power of two that is at least `n`. -/
theorem nextPowerOfTwo_spec (chk : Bool) {n : Nat} (h : n ≤ 2 ^ 31) :
    ∃ k, k ≤ 31 ∧ nextPowerOfTwo chk n = some (2 ^ k) ∧ n ≤ 2 ^ k ∧ (k = 0 ∨ 2 ^ (k - 1) < n) := by
  obtain ⟨k, h1, h2, h3, h4⟩ := nextPow2From_spec n 32 1 (by omega)
  simp only [Nat.one_mul] at h2 h3 h4
  have hk : k ≤ 31 := by
    rcases Nat.lt_or_ge k 32 with h | h
    · omega
    · obtain rfl : k = 32 := by omega
      simp at h4; omega
  refine ⟨k, hk, ?_, h3, h4⟩
  unfold nextPowerOfTwo
  simp only [h2]
  rw [if_pos (Nat.pow_lt_pow_right (by omega) (by omega))]

theorem nextPowerOfTwo_large {n : Nat} (h : 2 ^ 31 < n) (h2 : n < 2 ^ 32) (chk : Bool) :
    nextPowerOfTwo chk n = if chk then none else some 0 := by
  obtain ⟨k, h1, h2, h3, h4⟩ := nextPow2From_spec n 32 1 (by omega)
  simp only [Nat.one_mul] at h2 h3 h4
  have hk : k = 32 := by
    rcases Nat.lt_or_ge k 32 with h | h
    · have := Nat.pow_le_pow_right (n := 2) (by omega) (show k ≤ 31 by omega)
      omega
    · omega
  subst hk
  unfold nextPowerOfTwo
  simp only [h2]
  rw [if_neg (by omega)]

theorem pow2_le_of_le {k j n : Nat} (h : k = 0 ∨ 2 ^ (k - 1) < n) (hj : n ≤ 2 ^ j) : 2 ^ k ≤ 2 ^ j := by
  apply Nat.pow_le_pow_right (by omega)
  rcases h with rfl | h
  · omega
  · have := (Nat.pow_lt_pow_iff_right (a := 2) (by omega)).1 (Nat.lt_of_lt_of_le h hj)
    omega

theorem getAll_get (img : Img) (cs : List (Nat × Nat)) (ps : List Rgba) (h : getAll img cs = some ps) :
    cs.map (fun c => img.getPixel c.1 c.2) = ps.map some := by
  induction cs generalizing ps with
  | nil => cases h; rfl
  | cons c cs ih =>
    obtain ⟨x, y⟩ := c
    rw [getAll] at h
    cases h1 : img.getPixel x y with
    | none => simp [h1] at h
    | some p =>
      cases h2 : getAll img cs with
      | none => simp [h1, h2] at h
      | some qs =>
        simp only [h1, h2, Option.some.injEq] at h
        subst h
        simp [h1, ih qs h2]

theorem cells_getPixel (img : Img) :
    (cells img.width.toNat img.height.toNat).map (fun c => img.getPixel c.1 c.2) =
      img.pixels.map some := by
  apply List.ext_getElem?
  intro i
  simp only [List.getElem?_map]
  by_cases hi : i < img.width.toNat * img.height.toNat
  · have hw : 0 < img.width.toNat := by
      rcases Nat.eq_zero_or_pos img.width.toNat with h | h
      · rw [h] at hi; simp at hi
      · exact h
    have hc : (cells img.width.toNat img.height.toNat)[i]? =
        some (i % img.width.toNat, i / img.width.toNat) := by
      simp [cells, List.getElem?_map, List.getElem?_range hi]
    rw [hc]
    simp only [Option.map_some, Img.getPixel]
    rw [if_pos ⟨Nat.mod_lt _ hw, Nat.div_lt_of_lt_mul hi⟩, Nat.mul_comm, Nat.div_add_mod]
    have : i < img.pixels.length := by rw [img.size]; exact hi
    rw [List.getElem?_eq_getElem this]; rfl
  · rw [List.getElem?_eq_none (by rw [cells_length]; omega),
      List.getElem?_eq_none (by rw [img.size]; omega)]
    rfl

/-- Reading each cell once reads each pixel once. -/
theorem getAll_perm (img : Img) (cs : List (Nat × Nat))
    (h : cs.Perm (cells img.width.toNat img.height.toNat)) :
    ∃ ps, getAll img cs = some ps ∧ ps.Perm img.pixels := by
  obtain ⟨ps, h1, _⟩ := getAll_eq img cs fun c hc => mem_cells'.1 (h.mem_iff.1 hc)
  refine ⟨ps, h1, ?_⟩
  have h2 := h.map fun c => img.getPixel c.1 c.2
  rw [getAll_get img cs ps h1, cells_getPixel] at h2
  have := h2.filterMap id
  simpa [List.filterMap_map] using this

theorem filter_cells {w h s : Nat} (hw : w ≤ s) (hh : h ≤ s) :
    ((cells s s).filter fun c => decide (c.1 < w ∧ c.2 < h)).Perm (cells w h) := by
  apply (List.perm_ext_iff_of_nodup ((cells_nodup s s).sublist List.filter_sublist) (cells_nodup w h)).2
  intro c
  rw [List.mem_filter, mem_cells', mem_cells', decide_eq_true_eq]
  omega

end Cniic
