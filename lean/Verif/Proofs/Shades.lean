import Mathlib.Tactic.Ring
import Mathlib.Tactic.Linarith
import Verif.Proofs.Ends

/-!
# Proofs: shades of one tint are clustered in a finite number of iterations

The mean is rounded down, so the squared distance to the mean need not be minimal.  What is minimal is the squared distance to
a place a little less than half a step further up; with the weights below, comparing with it never contradicts comparing
with the centroid itself.
-/

namespace Cniic
open Kmeans Spec Spec.Kmeans

/-- The amount by which the colour differs from the base. -/
def shade (base : Rgb Nat) (mask : Rgb Bool) (c : Rgb UInt8) : Nat :=
  if mask.r then c.r.toNat - base.r else if mask.g then c.g.toNat - base.g else if mask.b then c.b.toNat - base.b else 0

theorem shade_eq {base : Rgb Nat} {mask : Rgb Bool} {c : Rgb UInt8} (h : IsShade base mask c) :
    c.r.toNat = base.r + (if mask.r then shade base mask c else 0) ∧
      c.g.toNat = base.g + (if mask.g then shade base mask c else 0) ∧
      c.b.toNat = base.b + (if mask.b then shade base mask c else 0) := by
  obtain ⟨v, h1, h2, h3⟩ := h
  unfold shade
  rw [h1, h2, h3]
  cases mask.r <;> cases mask.g <;> cases mask.b <;> simp

/-- The number of channels that vary. -/
def channels (mask : Rgb Bool) : Nat := mask.r.toNat + mask.g.toNat + mask.b.toNat

theorem colorSq_shade {base : Rgb Nat} {mask : Rgb Bool} {t x : Rgb UInt8} (ht : IsShade base mask t)
    (hx : IsShade base mask x) : colorSq t x = channels mask * gap (shade base mask t) (shade base mask x) ^ 2 := by
  obtain ⟨t1, t2, t3⟩ := shade_eq ht
  obtain ⟨x1, x2, x3⟩ := shade_eq hx
  have hadd : ∀ a b c : Nat, gap (a + b) (a + c) = gap b c := by
    intro a b c
    unfold gap
    omega
  have h0 : ∀ a : Nat, gap a a = 0 := by
    intro a
    unfold gap
    omega
  unfold colorSq channels
  rw [t1, t2, t3, x1, x2, x3]
  cases mask.r <;> cases mask.g <;> cases mask.b <;> simp [hadd, h0] <;> ring

/-- The weighed squared distance of the shade of `x` to a place between that of `c` and the next one. -/
def shadeCost (base : Rgb Nat) (mask : Rgb Bool) (N : Nat) (c x : ColorCount) : Nat :=
  x.count.toNat *
    ((N : Int) * (2 * ((shade base mask x.color : Int) - shade base mask c.color) - 1) + 1).natAbs ^ 2

theorem place_lt {N : Int} (hN : 2 ≤ N) {a b : Int} (h : a.natAbs < b.natAbs) :
    (N * (2 * a - 1) + 1).natAbs < (N * (2 * b - 1) + 1).natAbs := by
  rcases lt_or_ge 0 b with hb | hb
  · have h1 : 0 ≤ N * (2 * b - 1) + 1 := by nlinarith
    rcases lt_or_ge 0 a with ha | ha
    · have h2 : 0 ≤ N * (2 * a - 1) + 1 := by nlinarith
      have : a + 1 ≤ b := by omega
      have : N * (2 * a - 1) + 1 < N * (2 * b - 1) + 1 := by nlinarith
      omega
    · have h2 : N * (2 * a - 1) + 1 ≤ 0 := by nlinarith
      have : 1 - a ≤ b := by omega
      have : -(N * (2 * a - 1) + 1) < N * (2 * b - 1) + 1 := by nlinarith
      omega
  · have hb' : b < 0 := by omega
    have h1 : N * (2 * b - 1) + 1 ≤ 0 := by nlinarith
    rcases lt_or_ge 0 a with ha | ha
    · have h2 : 0 ≤ N * (2 * a - 1) + 1 := by nlinarith
      have : a + 1 ≤ -b := by omega
      have : N * (2 * a - 1) + 1 < -(N * (2 * b - 1) + 1) := by nlinarith
      omega
    · have h2 : N * (2 * a - 1) + 1 ≤ 0 := by nlinarith
      have : b + 1 ≤ a := by omega
      have : -(N * (2 * a - 1) + 1) < -(N * (2 * b - 1) + 1) := by nlinarith
      omega

/-- The cost of a cluster as a polynomial in the shade of its centroid. -/
theorem cost_poly {α : Type} (N : Int) (w v : α → Int) (l : List α) (t : Int) :
    (l.map fun x => w x * (N * (2 * (v x - t) - 1) + 1) ^ 2).sum =
      (l.map fun x => w x * (N * (2 * v x - 1) + 1) ^ 2).sum
        - 4 * N * t * (N * (2 * (l.map fun x => v x * w x).sum - (l.map w).sum) + (l.map w).sum)
        + 4 * N ^ 2 * t ^ 2 * (l.map w).sum := by
  induction l with
  | nil => simp
  | cons a l ih =>
    simp only [List.map_cons, List.sum_cons]
    rw [ih]
    ring

/-- The integer below the mean is the best place. -/
theorem poly_min {N S W c t Q : Int} (hW : 0 < W) (hN : W < N) (h1 : W * c ≤ S) (h2 : S < W * (c + 1)) :
    Q - 4 * N * c * (N * (2 * S - W) + W) + 4 * N ^ 2 * c ^ 2 * W ≤
      Q - 4 * N * t * (N * (2 * S - W) + W) + 4 * N ^ 2 * t ^ 2 * W := by
  have key : 0 ≤ (t - c) * (N * (W * (t + c + 1) - 2 * S) - W) := by
    rcases lt_trichotomy t c with h | h | h
    · apply le_of_lt
      apply mul_pos_of_neg_of_neg (by omega)
      have : W * (t + c + 1) ≤ 2 * S := by nlinarith
      nlinarith
    · subst h
      simp
    · apply mul_nonneg (by omega)
      have : 2 * S + 2 ≤ W * (t + c + 1) := by nlinarith
      nlinarith
  nlinarith

theorem shade_mean (chk : Bool) {base : Rgb Nat} {mask : Rgb Bool} {l : List ColorCount} (hne : l ≠ [])
    (hpos : ∀ p ∈ l, 0 < p.count.toNat) (hlt : (l.map fun p => p.count.toNat).sum < 2 ^ 56)
    (hsh : ∀ p ∈ l, IsShade base mask p.color) {c : ColorCount} (hc : ColorCount.mean chk l = .ok c) :
    IsShade base mask c.color ∧
      shade base mask c.color =
        (l.map fun p => shade base mask p.color * p.count.toNat).sum / (l.map fun p => p.count.toNat).sum := by
  obtain ⟨c', hc', hcol⟩ := mean_ok chk l hne hpos hlt
  rw [hc] at hc'
  cases hc'
  have hW : 0 < (l.map fun p => p.count.toNat).sum := by
    cases l with
    | nil => exact absurd rfl hne
    | cons p l =>
      have := hpos p (by simp)
      simp only [List.map_cons, List.sum_cons]
      omega
  have chan : ∀ (f : Rgb UInt8 → UInt8) (b0 : Nat) (m : Bool),
      (∀ p ∈ l, (f p.color).toNat = b0 + (if m then shade base mask p.color else 0)) →
      (UInt8.ofNat ((l.map fun p => (f p.color).toNat * p.count.toNat).sum / (l.map fun p => p.count.toNat).sum)).toNat =
        b0 + (if m then (l.map fun p => shade base mask p.color * p.count.toNat).sum / (l.map fun p => p.count.toNat).sum
          else 0) := by
    intro f b0 m hf
    have hle : (l.map fun p => (f p.color).toNat * p.count.toNat).sum / (l.map fun p => p.count.toNat).sum < 256 := by
      rw [Nat.div_lt_iff_lt_mul hW]
      have := sum_le_mul (fun p : ColorCount => (f p.color).toNat * p.count.toNat) (fun p => p.count.toNat) 255 l
        (fun a _ => Nat.mul_le_mul_right _ (by have := (f a.color).toNat_lt; omega))
      omega
    rw [UInt8.toNat_ofNat', Nat.mod_eq_of_lt hle]
    have e : (l.map fun p => (f p.color).toNat * p.count.toNat).sum =
        b0 * (l.map fun p => p.count.toNat).sum +
          (if m then (l.map fun p => shade base mask p.color * p.count.toNat).sum else 0) := by
      clear hle hW hc hcol hlt hpos hne hsh
      induction l with
      | nil => simp
      | cons p l ih =>
        simp only [List.map_cons, List.sum_cons]
        rw [ih fun q hq => hf q (List.mem_cons_of_mem _ hq), hf p (by simp)]
        cases m <;> simp <;> ring
    rw [e, Nat.mul_comm b0, Nat.mul_add_div hW]
    cases m <;> simp
  have hr := chan (fun c => c.r) base.r mask.r fun p hp => (shade_eq (hsh p hp)).1
  have hg := chan (fun c => c.g) base.g mask.g fun p hp => (shade_eq (hsh p hp)).2.1
  have hb := chan (fun c => c.b) base.b mask.b fun p hp => (shade_eq (hsh p hp)).2.2
  rw [hcol]
  refine ⟨⟨_, hr, hg, hb⟩, ?_⟩
  rw [shade, hr, hg, hb]
  cases er : mask.r <;> cases eg : mask.g <;> cases eb : mask.b <;> simp
  have : ∀ p ∈ l, shade base mask p.color * p.count.toNat = 0 := by
    intro p _
    simp [shade, er, eg, eb]
  rw [List.map_congr_left this]
  simp

/-- Points of one tint, each with a positive weight, of a total below 2^56. -/
theorem shades_lower {o : Outside} (hfl : o.fl.Lawful) (chk : Bool) {base : Rgb Nat} {mask : Rgb Bool}
    {points : List ColorCount} (hpos : ∀ p ∈ points, 0 < p.count.toNat)
    (hlt : (points.map fun p => p.count.toNat).sum < 2 ^ 56) (hsh : ∀ p ∈ points, IsShade base mask p.color)
    (hne : points ≠ []) :
    Closed (colorEnv o chk).pt (fun c => IsShade base mask c.color) points ∧
      Lowers (colorEnv o chk).pt (fun c => IsShade base mask c.color) points
        (shadeCost base mask ((points.map fun p => p.count.toNat).sum + 1)) := by
  have hmean : ∀ l c, Part l points → ColorCount.mean chk l = .ok c → l ≠ [] ∧ IsShade base mask c.color ∧
      shade base mask c.color =
        (l.map fun p => shade base mask p.color * p.count.toNat).sum / (l.map fun p => p.count.toNat).sum := by
    intro l c hl hc
    have h0 : l ≠ [] := by
      rintro rfl
      cases hc
    refine ⟨h0, shade_mean chk h0 (fun p hp => hpos p (part_mem hl p hp)) ?_ (fun p hp => hsh p (part_mem hl p hp)) hc⟩
    exact lt_of_le_of_lt (sum_le_of_part hl _) hlt
  refine ⟨⟨hsh, fun l c hl hc => (hmean l c hl hc).2.1⟩, ⟨?_, ?_⟩⟩
  · intro c t x dc dt hc ht hx h1 h2 hd
    have e1 : dc = rgbDist o.fl c.color x.color := by
      simpa [colorEnv, ColorCount.dist] using h1.symm
    have e2 : dt = rgbDist o.fl t.color x.color := by
      simpa [colorEnv, ColorCount.dist] using h2.symm
    have hsq : colorSq t.color x.color < colorSq c.color x.color := by
      apply Classical.byContradiction
      intro hn
      rcases Nat.lt_or_ge (colorSq c.color x.color) (colorSq t.color x.color) with h' | h'
      · have := (rgbDist_close hfl c.color x.color).lt (rgbDist_close hfl t.color x.color) h'
        rw [← e1, ← e2] at this
        exact absurd this (not_lt.2 (le_of_lt hd))
      · have e : colorSq c.color x.color = colorSq t.color x.color := by omega
        rw [e1, e2, rgbDist_eq hfl, rgbDist_eq hfl, e] at hd
        exact lt_irrefl _ hd
    rw [colorSq_shade ht (hsh x hx), colorSq_shade hc (hsh x hx)] at hsq
    have hgap := lt_of_mul_lt_mul_left hsq (Nat.zero_le _)
    have hgap := lt_of_pow_lt_pow_left₀ 2 (Nat.zero_le _) hgap
    have hw := hpos x hx
    have hplace : (((shade base mask x.color : Int) - shade base mask t.color)).natAbs <
        (((shade base mask x.color : Int) - shade base mask c.color)).natAbs := by
      unfold gap at hgap
      omega
    have hN : (2 : Int) ≤ (((points.map fun p => p.count.toNat).sum + 1 : Nat) : Int) := by
      obtain ⟨rest, hr⟩ := part_single hx
      have := (hr.map fun p => p.count.toNat).sum_eq
      simp only [List.map_append, List.sum_append, List.map_cons, List.map_nil, List.sum_cons, List.sum_nil] at this
      omega
    have := place_lt hN hplace
    unfold shadeCost
    exact Nat.mul_lt_mul_of_pos_left (Nat.pow_lt_pow_left this (by decide)) hw
  · intro l c t hl hc ht
    obtain ⟨h0, -, hs⟩ := hmean l c hl hc
    generalize hWn : (l.map fun p => p.count.toNat).sum = Wn at hs
    generalize hSn : (l.map fun p => shade base mask p.color * p.count.toNat).sum = Sn at hs
    have hWle : Wn < (points.map fun p => p.count.toNat).sum + 1 := Nat.lt_succ_of_le (hWn ▸ sum_le_of_part hl _)
    have hWpos : 0 < Wn := by
      cases l with
      | nil => exact absurd rfl h0
      | cons p l =>
        have := hpos p (part_mem hl p (by simp))
        simp only [List.map_cons, List.sum_cons] at hWn
        omega
    generalize (points.map fun p => p.count.toNat).sum + 1 = N at hWle ⊢
    have cast : ∀ a : ColorCount, (((l.map (shadeCost base mask N a)).sum : Nat) : Int) =
        (l.map fun x => (x.count.toNat : Int) *
          ((N : Int) * (2 * ((shade base mask x.color : Int) - shade base mask a.color) - 1) + 1) ^ 2).sum := by
      intro a
      clear hWn hSn hc hl h0
      induction l with
      | nil => rfl
      | cons x l ih =>
        simp only [List.map_cons, List.sum_cons]
        rw [Int.natCast_add, ih, shadeCost, Int.natCast_mul, Int.natCast_pow, Int.natAbs_sq]
    have hWi : (l.map fun x => (x.count.toNat : Int)).sum = Wn := by
      rw [← hWn]
      clear hWn hSn hc hl h0 cast
      induction l with
      | nil => rfl
      | cons x l ih =>
        simp only [List.map_cons, List.sum_cons]
        rw [ih, Int.natCast_add]
    have hSi : (l.map fun x => (shade base mask x.color : Int) * (x.count.toNat : Int)).sum = Sn := by
      rw [← hSn]
      clear hWn hSn hc hl h0 cast hWi
      induction l with
      | nil => rfl
      | cons x l ih =>
        simp only [List.map_cons, List.sum_cons]
        rw [ih, Int.natCast_add, Int.natCast_mul]
    zify
    rw [cast, cast, cost_poly (N : Int) (fun x : ColorCount => (x.count.toNat : Int)),
      cost_poly (N : Int) (fun x : ColorCount => (x.count.toNat : Int)), hWi, hSi, hs]
    have d1 : Wn * (Sn / Wn) ≤ Sn := Nat.mul_div_le Sn Wn
    have d2 : Sn < Wn * (Sn / Wn + 1) := Nat.lt_mul_div_succ Sn hWpos
    exact poly_min (by exact_mod_cast hWpos) (by exact_mod_cast hWle) (by exact_mod_cast d1) (by exact_mod_cast d2)

end Cniic
