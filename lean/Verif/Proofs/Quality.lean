import Verif.Spec.Quality
import Verif.Spec.Clusterc
import Verif.Proofs.Approx
import Mathlib.Tactic.Linarith
import Mathlib.Tactic.Ring
import Mathlib.Tactic.FieldSimp
import Mathlib.Tactic.Positivity

/-! # Proofs: pictures in which groups of pixels get their mean colour -/

namespace Cniic
open Spec

/-- Each pixel with the colour of its group. -/
def groupPairs (avg : List (Rgb UInt8) → Rgb UInt8) (groups : List (List (Rgb UInt8))) : List (Rgb UInt8 × Rgb UInt8) :=
  groups.flatMap fun g => g.map fun x => (x, avg g)

theorem ratSum_perm {l l' : List Rat} (h : l.Perm l') : l.sum = l'.sum := by
  induction h with
  | nil => rfl
  | cons x _ ih => simp [ih]
  | swap x y l => simp only [List.sum_cons]; ring
  | trans _ _ ih1 ih2 => exact ih1.trans ih2

theorem groupPairs_sum_le {avg : List (Rgb UInt8) → Rgb UInt8} {F : Rgb UInt8 × Rgb UInt8 → Rat}
    {groups : List (List (Rgb UInt8))} (h : ∀ g ∈ groups, g ≠ [] → (g.map fun x => F (x, avg g)).sum ≤ 0) :
    ((groupPairs avg groups).map F).sum ≤ 0 := by
  induction groups with
  | nil => simp [groupPairs]
  | cons g gs ih =>
    have ih' := ih fun g' hg' => h g' (by simp [hg'])
    simp only [groupPairs, List.flatMap_cons, List.map_append, List.map_map, List.sum_append] at ih' ⊢
    have : (g.map (F ∘ fun x => (x, avg g))).sum ≤ 0 := by
      by_cases hg : g = []
      · simp [hg]
      · exact h g (by simp) hg
    linarith

theorem groupPairs_sum_lt {avg : List (Rgb UInt8) → Rgb UInt8} {F : Rgb UInt8 × Rgb UInt8 → Rat}
    {groups : List (List (Rgb UInt8))} (h : ∀ g ∈ groups, g ≠ [] → (g.map fun x => F (x, avg g)).sum < 0)
    (hne : ∃ g ∈ groups, g ≠ []) : ((groupPairs avg groups).map F).sum < 0 := by
  induction groups with
  | nil => simp at hne
  | cons g gs ih =>
    have hle : ((groupPairs avg gs).map F).sum ≤ 0 := groupPairs_sum_le fun g' hg' hn => (h g' (by simp [hg']) hn).le
    by_cases hg : g = []
    · subst hg
      have hne' : ∃ g ∈ gs, g ≠ [] := by
        obtain ⟨g', hg', hn⟩ := hne
        rcases List.mem_cons.1 hg' with rfl | hg'
        · exact absurd rfl hn
        · exact ⟨g', hg', hn⟩
      have := ih (fun g' hg' => h g' (by simp [hg'])) hne'
      simpa [groupPairs] using this
    · have := h g (by simp) hg
      simp only [groupPairs, List.flatMap_cons, List.map_append, List.map_map, List.sum_append] at hle ⊢
      have e : (g.map (F ∘ fun x => (x, avg g))).sum < 0 := this
      linarith

/-! ## One channel of one group -/

theorem sum_affine {α : Type} (l : List α) (f : α → Rat) (k d : Rat) :
    (l.map fun x => k * f x + d).sum = k * (l.map f).sum + l.length * d := by
  induction l with
  | nil => simp
  | cons x xs ih => simp only [List.map_cons, List.sum_cons, List.length_cons, ih]; push_cast; ring

theorem natSum_cast {α : Type} (l : List α) (f : α → Nat) : (((l.map f).sum : Nat) : Rat) = (l.map fun x => (f x : Rat)).sum := by
  induction l with
  | nil => simp
  | cons x xs ih => simp [ih]

/-- The mean is the best centre: another one is worse, by how much the mean was missed. -/
theorem channel_error {α : Type} (l : List α) (f : α → Rat) (m c t : Rat) (h : (l.map f).sum = l.length * (m + t)) :
    (l.map fun x => (f x - m) ^ 2 - (f x - c) ^ 2).sum ≤ l.length * t ^ 2 := by
  have e : (l.map fun x => (f x - m) ^ 2 - (f x - c) ^ 2) = l.map fun x => (2 * (c - m)) * f x + (m ^ 2 - c ^ 2) :=
    List.map_congr_left fun x _ => by ring
  rw [e, sum_affine, h]
  have hl : (0 : Rat) ≤ l.length := by positivity
  nlinarith [mul_nonneg hl (sq_nonneg (t - (c - m)))]

/-- How far a rounded mean is from the mean of the channel. -/
structure Missed (ch : Rgb UInt8 → UInt8) (g : List (Rgb UInt8)) (m t : Rat) : Prop where
  sum : (g.map fun x => ((ch x).toNat : Rat)).sum = g.length * (m + t)

theorem missed_exists (ch : Rgb UInt8 → UInt8) {g : List (Rgb UInt8)} (hg : g ≠ []) (m : Nat) :
    ∃ t, Missed ch g m t ∧ t = ((chanSum ch g : Rat) - g.length * m) / g.length := by
  have hl : (0 : Rat) < g.length := by exact_mod_cast List.length_pos_iff.2 hg
  refine ⟨_, ⟨?_⟩, rfl⟩
  rw [← natSum_cast g fun x => (ch x).toNat]
  field_simp
  simp [chanSum]

theorem missed_floor (ch : Rgb UInt8 → UInt8) {g : List (Rgb UInt8)} (hg : g ≠ []) :
    ∃ t, Missed ch g (UInt8.ofNat (chanSum ch g / g.length)).toNat t ∧ 0 ≤ t ∧ t < 1 := by
  have hp := List.length_pos_iff.2 hg
  have hle := chanSum_le ch g
  have hq : chanSum ch g / g.length ≤ 255 := Nat.div_le_of_le_mul (by rw [Nat.mul_comm]; exact hle)
  rw [u8_ofNat_toNat hq]
  obtain ⟨t, h, ht⟩ := missed_exists ch hg (chanSum ch g / g.length)
  have hl : (0 : Rat) < g.length := by exact_mod_cast hp
  have h1 : g.length * (chanSum ch g / g.length) ≤ chanSum ch g := Nat.mul_div_le _ _
  have h2 : chanSum ch g < g.length * (chanSum ch g / g.length) + g.length := by
    have := Nat.div_add_mod (chanSum ch g) g.length
    have := Nat.mod_lt (chanSum ch g) hp
    omega
  have h1' : (g.length : Rat) * ((chanSum ch g / g.length : Nat) : Rat) ≤ chanSum ch g := by exact_mod_cast h1
  have h2' : (chanSum ch g : Rat) < g.length * ((chanSum ch g / g.length : Nat) : Rat) + g.length := by exact_mod_cast h2
  refine ⟨t, h, ?_, ?_⟩
  · rw [ht]; exact div_nonneg (by linarith) hl.le
  · rw [ht, div_lt_one hl]; linarith

theorem missed_round (ch : Rgb UInt8 → UInt8) {g : List (Rgb UInt8)} (hg : g ≠ []) :
    ∃ t, Missed ch g (UInt8.ofNat (roundedDiv (chanSum ch g) g.length)).toNat t ∧ -(1 / 2) ≤ t ∧ t ≤ 1 / 2 := by
  have hp := List.length_pos_iff.2 hg
  have hle := chanSum_le ch g
  have hq : roundedDiv (chanSum ch g) g.length ≤ 255 := by
    rw [roundedDiv, ← Nat.lt_succ_iff, Nat.div_lt_iff_lt_mul (by omega)]
    have : 255 * g.length = g.length * 255 := Nat.mul_comm _ _
    omega
  rw [u8_ofNat_toNat hq]
  obtain ⟨t, h, ht⟩ := missed_exists ch hg (roundedDiv (chanSum ch g) g.length)
  have hl : (0 : Rat) < g.length := by exact_mod_cast hp
  have h1 : 2 * g.length * roundedDiv (chanSum ch g) g.length ≤ 2 * chanSum ch g + g.length := Nat.mul_div_le _ _
  have h2 : 2 * chanSum ch g + g.length ≤ 2 * g.length * roundedDiv (chanSum ch g) g.length + 2 * g.length := by
    have := Nat.div_add_mod (2 * chanSum ch g + g.length) (2 * g.length)
    have := Nat.mod_lt (2 * chanSum ch g + g.length) (show 0 < 2 * g.length by omega)
    rw [roundedDiv]
    omega
  have h1' : 2 * (g.length : Rat) * (roundedDiv (chanSum ch g) g.length : Rat) ≤ 2 * chanSum ch g + g.length := by
    exact_mod_cast h1
  have h2' : 2 * (chanSum ch g : Rat) + g.length ≤ 2 * g.length * (roundedDiv (chanSum ch g) g.length : Rat) + 2 * g.length := by
    exact_mod_cast h2
  refine ⟨t, h, ?_, ?_⟩
  · rw [ht, le_div_iff₀ hl]; linarith
  · rw [ht, div_le_iff₀ hl]; linarith

/-! ## Groups -/

theorem gap_sq (a b : Nat) : ((gap a b : Nat) : Rat) ^ 2 = ((a : Rat) - b) ^ 2 := by
  rcases Nat.le_total a b with h | h
  · have : gap a b = b - a := by simp only [gap]; omega
    rw [this, Nat.cast_sub h]; ring
  · have : gap a b = a - b := by simp only [gap]; omega
    rw [this, Nat.cast_sub h]

/-- The squared deviation of one pixel. -/
def pixelDeviation (c : Rgb Rat) (x : Rgb UInt8) : Rat :=
  ((x.r.toNat : Rat) - c.r) ^ 2 + ((x.g.toNat : Rat) - c.g) ^ 2 + ((x.b.toNat : Rat) - c.b) ^ 2

theorem group_error {g : List (Rgb UInt8)} {y : Rgb UInt8} (c : Rgb Rat) {tr tg tb e : Rat}
    (hr : Missed (·.r) g y.r.toNat tr) (hg : Missed (·.g) g y.g.toNat tg) (hb : Missed (·.b) g y.b.toNat tb) :
    (g.map fun x => (colorSq x y : Rat) - pixelDeviation c x - e).sum ≤ g.length * (tr ^ 2 + tg ^ 2 + tb ^ 2 - e) := by
  have e1 := channel_error g _ _ c.r tr hr.sum
  have e2 := channel_error g _ _ c.g tg hg.sum
  have e3 := channel_error g _ _ c.b tb hb.sum
  have : ∀ l : List (Rgb UInt8), (l.map fun x => (colorSq x y : Rat) - pixelDeviation c x - e).sum =
      (l.map fun x => ((x.r.toNat : Rat) - y.r.toNat) ^ 2 - ((x.r.toNat : Rat) - c.r) ^ 2).sum +
      (l.map fun x => ((x.g.toNat : Rat) - y.g.toNat) ^ 2 - ((x.g.toNat : Rat) - c.g) ^ 2).sum +
      (l.map fun x => ((x.b.toNat : Rat) - y.b.toNat) ^ 2 - ((x.b.toNat : Rat) - c.b) ^ 2).sum - l.length * e := by
    intro l
    induction l with
    | nil => simp
    | cons x xs ih =>
      simp only [List.map_cons, List.sum_cons, ih, List.length_cons]
      have : (colorSq x y : Rat) = ((x.r.toNat : Rat) - y.r.toNat) ^ 2 + ((x.g.toNat : Rat) - y.g.toNat) ^ 2 +
          ((x.b.toNat : Rat) - y.b.toNat) ^ 2 := by
        rw [colorSq]; push_cast; rw [gap_sq, gap_sq, gap_sq]
      rw [this, pixelDeviation]
      push_cast
      ring
  rw [this g]
  linarith

theorem group_shift {ch : Rgb UInt8 → UInt8} {g : List (Rgb UInt8)} {m t : Rat} (h : Missed ch g m t) (k d : Rat) :
    (g.map fun x => k * (((ch x).toNat : Rat) - m) + d).sum = g.length * (k * t + d) := by
  have : (g.map fun x => k * (((ch x).toNat : Rat) - m) + d) = g.map fun x => k * ((ch x).toNat : Rat) + (d - k * m) :=
    List.map_congr_left fun x _ => by ring
  rw [this, sum_affine, h.sum]
  ring

/-! ## Pictures -/

section
variable {xs ys : List (Rgb UInt8)} {groups : List (List (Rgb UInt8))} {avg : List (Rgb UInt8) → Rgb UInt8}

/-- What the groups say about sums over the two pictures. -/
structure ByGroups (avg : List (Rgb UInt8) → Rgb UInt8) (groups : List (List (Rgb UInt8))) (xs ys : List (Rgb UInt8)) : Prop where
  length : xs.length = ys.length
  pairs  : (xs.zip ys).Perm (groupPairs avg groups)

theorem ByGroups.sum (h : ByGroups avg groups xs ys) (F : Rgb UInt8 × Rgb UInt8 → Rat) :
    ((xs.zip ys).map F).sum = ((groupPairs avg groups).map F).sum := ratSum_perm (h.pairs.map F)

theorem ByGroups.nonempty (h : ByGroups avg groups xs ys) (hne : xs ≠ []) : ∃ g ∈ groups, g ≠ [] := by
  by_contra hn
  simp only [not_exists, not_and, not_not] at hn
  have : groupPairs avg groups = [] := by
    rw [groupPairs, List.flatMap_eq_nil_iff]
    intro g hg
    rw [hn g hg]
    rfl
  have hl := h.pairs.length_eq
  rw [this, List.length_zip, ← h.length] at hl
  simp at hl
  exact hne hl

theorem zip_sum (hl : xs.length = ys.length) (F G : Rgb UInt8 → Rat) (k : Rat) :
    ((xs.zip ys).map fun p => F p.1 + G p.2 + k).sum = (xs.map F).sum + (ys.map G).sum + xs.length * k := by
  induction xs generalizing ys with
  | nil => cases ys <;> simp_all
  | cons x xs ih =>
    cases ys with
    | nil => simp at hl
    | cons y ys =>
      simp only [List.zip_cons_cons, List.map_cons, List.sum_cons, List.length_cons]
      rw [ih (by simpa using hl)]
      push_cast
      ring

theorem zip_error (hl : xs.length = ys.length) (c : Rgb Rat) (e : Rat) :
    ((xs.zip ys).map fun p => (colorSq p.1 p.2 : Rat) - pixelDeviation c p.1 - e).sum =
      squaredError xs ys - deviation xs c - xs.length * e := by
  unfold squaredError deviation
  induction xs generalizing ys with
  | nil => cases ys <;> simp_all
  | cons x xs ih =>
    cases ys with
    | nil => simp at hl
    | cons y ys =>
      simp only [List.zip_cons_cons, List.map_cons, List.sum_cons, List.length_cons]
      rw [ih (by simpa using hl), pixelDeviation]
      push_cast
      ring

theorem chanSum_cast (ch : Rgb UInt8 → UInt8) (l : List (Rgb UInt8)) :
    (chanSum ch l : Rat) = (l.map fun x => ((ch x).toNat : Rat)).sum := natSum_cast l fun x => (ch x).toNat

theorem zip_channel (hl : xs.length = ys.length) (ch : Rgb UInt8 → UInt8) (k d : Rat) :
    ((xs.zip ys).map fun p => k * (((ch p.1).toNat : Rat) - (ch p.2).toNat) + d).sum =
      k * ((chanSum ch xs : Rat) - chanSum ch ys) + xs.length * d := by
  have h := zip_sum hl (fun x => k * ((ch x).toNat : Rat)) (fun y => -k * ((ch y).toNat : Rat)) d
  have e : ((xs.zip ys).map fun p => k * (((ch p.1).toNat : Rat) - (ch p.2).toNat) + d) =
      (xs.zip ys).map fun p => k * ((ch p.1).toNat : Rat) + -k * ((ch p.2).toNat : Rat) + d :=
    List.map_congr_left fun p _ => by ring
  rw [e, h, chanSum_cast, chanSum_cast]
  have e1 := sum_affine xs (fun x => ((ch x).toNat : Rat)) k 0
  have e2 := sum_affine ys (fun x => ((ch x).toNat : Rat)) (-k) 0
  simp only [add_zero, mul_zero] at e1 e2
  rw [e1, e2]
  ring

theorem len_pos {g : List (Rgb UInt8)} (hg : g ≠ []) : (0 : Rat) < g.length := by
  exact_mod_cast List.length_pos_iff.2 hg

/-- The channels of the floored mean. -/
theorem floor_missed {ch : Rgb UInt8 → UInt8} (hch : ch = (·.r) ∨ ch = (·.g) ∨ ch = (·.b)) {g : List (Rgb UInt8)}
    (hg : g ≠ []) : ∃ t, Missed ch g (ch (floorMean g)).toNat t ∧ 0 ≤ t ∧ t < 1 := by
  rcases hch with rfl | rfl | rfl <;> exact missed_floor _ hg

theorem round_missed {ch : Rgb UInt8 → UInt8} (hch : ch = (·.r) ∨ ch = (·.g) ∨ ch = (·.b)) {g : List (Rgb UInt8)}
    (hg : g ≠ []) : ∃ t, Missed ch g (ch (meanColor g)).toNat t ∧ -(1 / 2) ≤ t ∧ t ≤ 1 / 2 := by
  rcases hch with rfl | rfl | rfl <;> exact missed_round _ hg

theorem ByGroups.darker (h : ByGroups avg groups xs ys) (ha : ∀ g ∈ groups, g ≠ [] → avg g = floorMean g) :
    SlightlyDarker xs ys := by
  intro ch hch
  constructor
  · have : ((xs.zip ys).map fun p => (-1) * (((ch p.1).toNat : Rat) - (ch p.2).toNat) + 0).sum ≤ 0 := by
      rw [h.sum fun p => (-1) * (((ch p.1).toNat : Rat) - (ch p.2).toNat) + 0]
      apply groupPairs_sum_le
      intro g hg hne
      obtain ⟨t, ht, h0, h1⟩ := floor_missed hch hne
      simp only [ha g hg hne]
      rw [group_shift ht]
      have := len_pos hne
      nlinarith
    rw [zip_channel h.length] at this
    have : (chanSum ch ys : Rat) ≤ chanSum ch xs := by linarith
    exact_mod_cast this
  · intro hxs
    have : ((xs.zip ys).map fun p => 1 * (((ch p.1).toNat : Rat) - (ch p.2).toNat) + (-1)).sum < 0 := by
      rw [h.sum fun p => 1 * (((ch p.1).toNat : Rat) - (ch p.2).toNat) + (-1)]
      apply groupPairs_sum_lt _ (h.nonempty hxs)
      intro g hg hne
      obtain ⟨t, ht, h0, h1⟩ := floor_missed hch hne
      simp only [ha g hg hne]
      rw [group_shift ht]
      have := len_pos hne
      nlinarith
    rw [zip_channel h.length] at this
    have : (chanSum ch xs : Rat) < chanSum ch ys + xs.length := by linarith
    exact_mod_cast this

theorem ByGroups.brightness (h : ByGroups avg groups xs ys) (ha : ∀ g ∈ groups, g ≠ [] → avg g = meanColor g) :
    SameBrightness xs ys := by
  intro ch hch
  have key : ∀ k : Rat, k = 2 ∨ k = -2 →
      k * ((chanSum ch xs : Rat) - chanSum ch ys) + xs.length * (-1) ≤ 0 := by
    intro k hk
    rw [← zip_channel h.length ch k (-1), h.sum fun p => k * (((ch p.1).toNat : Rat) - (ch p.2).toNat) + (-1)]
    apply groupPairs_sum_le
    intro g hg hne
    obtain ⟨t, ht, h0, h1⟩ := round_missed hch hne
    simp only [ha g hg hne]
    rw [group_shift ht]
    have := len_pos hne
    rcases hk with rfl | rfl <;> nlinarith
  constructor
  · have := key (-2) (.inr rfl)
    have : 2 * (chanSum ch ys : Rat) ≤ 2 * chanSum ch xs + xs.length := by linarith
    exact_mod_cast this
  · have := key 2 (.inl rfl)
    have : 2 * (chanSum ch xs : Rat) ≤ 2 * chanSum ch ys + xs.length := by linarith
    exact_mod_cast this

theorem ByGroups.floor_error (h : ByGroups avg groups xs ys) (ha : ∀ g ∈ groups, g ≠ [] → avg g = floorMean g)
    (hxs : xs ≠ []) (c : Rgb Rat) : (squaredError xs ys : Rat) < deviation xs c + 3 * xs.length := by
  have : ((xs.zip ys).map fun p => (colorSq p.1 p.2 : Rat) - pixelDeviation c p.1 - 3).sum < 0 := by
    rw [h.sum fun p => (colorSq p.1 p.2 : Rat) - pixelDeviation c p.1 - 3]
    apply groupPairs_sum_lt _ (h.nonempty hxs)
    intro g hg hne
    obtain ⟨t1, m1, a1, b1⟩ := floor_missed (ch := (·.r)) (.inl rfl) hne
    obtain ⟨t2, m2, a2, b2⟩ := floor_missed (ch := (·.g)) (.inr (.inl rfl)) hne
    obtain ⟨t3, m3, a3, b3⟩ := floor_missed (ch := (·.b)) (.inr (.inr rfl)) hne
    simp only [ha g hg hne]
    refine lt_of_le_of_lt (group_error c m1 m2 m3) ?_
    have := len_pos hne
    have q : t1 ^ 2 + t2 ^ 2 + t3 ^ 2 - 3 < 0 := by nlinarith
    exact mul_neg_of_pos_of_neg this q
  rw [zip_error h.length] at this
  linarith

theorem ByGroups.round_error (h : ByGroups avg groups xs ys) (ha : ∀ g ∈ groups, g ≠ [] → avg g = meanColor g)
    (c : Rgb Rat) : (squaredError xs ys : Rat) ≤ deviation xs c + 3 / 4 * xs.length := by
  have : ((xs.zip ys).map fun p => (colorSq p.1 p.2 : Rat) - pixelDeviation c p.1 - 3 / 4).sum ≤ 0 := by
    rw [h.sum fun p => (colorSq p.1 p.2 : Rat) - pixelDeviation c p.1 - 3 / 4]
    apply groupPairs_sum_le
    intro g hg hne
    obtain ⟨t1, m1, a1, b1⟩ := round_missed (ch := (·.r)) (.inl rfl) hne
    obtain ⟨t2, m2, a2, b2⟩ := round_missed (ch := (·.g)) (.inr (.inl rfl)) hne
    obtain ⟨t3, m3, a3, b3⟩ := round_missed (ch := (·.b)) (.inr (.inr rfl)) hne
    simp only [ha g hg hne]
    refine (group_error c m1 m2 m3).trans ?_
    have := len_pos hne
    have q : t1 ^ 2 + t2 ^ 2 + t3 ^ 2 - 3 / 4 ≤ 0 := by nlinarith
    exact mul_nonpos_of_nonneg_of_nonpos this.le q
  rw [zip_error h.length] at this
  linarith

end
end Cniic
