import Verif.Proofs.Approx
import Verif.Proofs.Voronoi

/-! # Proofs: computed distances of colours and pixels -/

namespace Cniic
open Spec Kmeans Spec.Kmeans

variable {fl : FloatOps}

/-! ## Numbers close to a square root -/

/-- `d` is close enough to the square root of `N` for comparisons. -/
structure Close (d : Rat) (N : Nat) : Prop where
  nonneg : 0 ≤ d
  lo     : (1 - 1 / 2 ^ 40) * N ≤ d ^ 2
  hi     : d ^ 2 ≤ (1 + 1 / 2 ^ 40) * N
  bound  : N ≤ 2 ^ 35

theorem Close.bound' {d : Rat} {N : Nat} (h : Close d N) : (N : Rat) ≤ 2 ^ 35 := by exact_mod_cast h.bound

theorem Close.lt {d1 d2 : Rat} {N1 N2 : Nat} (h1 : Close d1 N1) (h2 : Close d2 N2) (h : N1 < N2) : d1 < d2 := by
  apply lt_of_pow_lt_pow_left₀ 2 h2.nonneg
  have : (N1 : Rat) + 1 ≤ N2 := by exact_mod_cast h
  have := h1.hi
  have := h2.lo
  have := h2.bound'
  have := h1.bound'
  linarith

theorem Close.le {d1 d2 : Rat} {N1 N2 : Nat} (h1 : Close d1 N1) (h2 : Close d2 N2) (h : d1 ≤ d2) : N1 ≤ N2 := by
  apply Classical.byContradiction
  intro hn
  exact absurd (h2.lt h1 (by omega)) (not_lt.2 h)

/-- Twice the root, as computed. -/
theorem mul_two_bounds (hfl : fl.Lawful) {d : Rat} {N : Nat} (h : Close d N) :
    0 ≤ fl.mul 2 d ∧ (1 - 1 / 2 ^ 39) * (4 * N) ≤ fl.mul 2 d ^ 2 ∧ fl.mul 2 d ^ 2 ≤ (1 + 1 / 2 ^ 39) * (4 * N) := by
  have hn := h.nonneg
  obtain ⟨l, u⟩ := rnd_nonneg_bounds hfl (x := 2 * d) (by linarith)
  have h0 : 0 ≤ fl.mul 2 d := le_trans (mul_nonneg (by norm_num [ulp]) (by linarith)) l
  refine ⟨h0, ?_, ?_⟩
  · have := pow_le_pow_left₀ (mul_nonneg (by norm_num [ulp]) (by linarith)) l 2
    refine le_trans ?_ this
    rw [mul_pow, mul_pow]
    have := h.lo
    have h3 : (0 : Rat) ≤ N := Nat.cast_nonneg _
    unfold ulp
    norm_num at *
    linarith
  · have := pow_le_pow_left₀ h0 u 2
    refine this.trans ?_
    rw [mul_pow, mul_pow]
    have := h.hi
    have h3 : (0 : Rat) ≤ N := Nat.cast_nonneg _
    unfold ulp
    norm_num at *
    linarith

/-- Half of the root, as computed. -/
theorem div_two_bounds (hfl : fl.Lawful) {d : Rat} {N : Nat} (h : Close d N) :
    0 ≤ fl.div d 2 ∧ (1 - 1 / 2 ^ 39) * N ≤ 4 * fl.div d 2 ^ 2 ∧ 4 * fl.div d 2 ^ 2 ≤ (1 + 1 / 2 ^ 39) * N := by
  have hn := h.nonneg
  obtain ⟨l, u⟩ := rnd_nonneg_bounds hfl (x := d / 2) (by linarith)
  have h0 : 0 ≤ fl.div d 2 := le_trans (mul_nonneg (by norm_num [ulp]) (by linarith)) l
  refine ⟨h0, ?_, ?_⟩
  · have := pow_le_pow_left₀ (mul_nonneg (by norm_num [ulp]) (by linarith)) l 2
    rw [mul_pow, div_pow] at this
    change _ ≤ fl.div d 2 ^ 2 at this
    have := h.lo
    have h3 : (0 : Rat) ≤ N := Nat.cast_nonneg _
    unfold ulp at *
    norm_num at *
    linarith
  · have := pow_le_pow_left₀ h0 u 2
    rw [mul_pow, div_pow] at this
    have := h.hi
    have h3 : (0 : Rat) ≤ N := Nat.cast_nonneg _
    unfold ulp at *
    norm_num at *
    linarith

/-- Beyond the cutoff. -/
theorem Close.cut_lt (hfl : fl.Lawful) {d1 d2 : Rat} {N1 N2 : Nat} (h1 : Close d1 N1) (h2 : Close d2 N2)
    (h : 4 * N1 < N2) : fl.mul 2 d1 < d2 := by
  apply lt_of_pow_lt_pow_left₀ 2 h2.nonneg
  have : 4 * (N1 : Rat) + 1 ≤ N2 := by exact_mod_cast h
  have := (mul_two_bounds hfl h1).2.2
  have := h2.lo
  have := h2.bound'
  have := h1.bound'
  linarith

/-- Within the cutoff. -/
theorem Close.lt_cut (hfl : fl.Lawful) {d1 d2 : Rat} {N1 N2 : Nat} (h1 : Close d1 N1) (h2 : Close d2 N2)
    (h : N2 < 4 * N1) : d2 < fl.mul 2 d1 := by
  apply lt_of_pow_lt_pow_left₀ 2 (mul_two_bounds hfl h1).1
  have : (N2 : Rat) + 1 ≤ 4 * N1 := by exact_mod_cast h
  have := (mul_two_bounds hfl h1).2.1
  have := h2.hi
  have := h2.bound'
  have := h1.bound'
  linarith

/-- Within the certainty radius. -/
theorem Close.lt_radius (hfl : fl.Lawful) {d1 d2 : Rat} {N1 N2 : Nat} (h1 : Close d1 N1) (h2 : Close d2 N2)
    (h : 4 * N1 < N2) : d1 < fl.div d2 2 := by
  apply lt_of_pow_lt_pow_left₀ 2 (div_two_bounds hfl h2).1
  have : 4 * (N1 : Rat) + 1 ≤ N2 := by exact_mod_cast h
  have := (div_two_bounds hfl h2).2.1
  have := h1.hi
  have := h2.bound'
  have := h1.bound'
  linarith

/-- Outside the certainty radius. -/
theorem Close.radius_lt (hfl : fl.Lawful) {d1 d2 : Rat} {N1 N2 : Nat} (h1 : Close d1 N1) (h2 : Close d2 N2)
    (h : N2 < 4 * N1) : fl.div d2 2 < d1 := by
  apply lt_of_pow_lt_pow_left₀ 2 h1.nonneg
  have : (N2 : Rat) + 1 ≤ 4 * N1 := by exact_mod_cast h
  have := (div_two_bounds hfl h2).2.2
  have := h1.lo
  have := h2.bound'
  have := h1.bound'
  linarith

/-! ## Colours -/

theorem gap_sq_int (a b : Nat) : (((gap a b) ^ 2 : Nat) : Int) = ((a : Int) - b) * ((a : Int) - b) := by
  unfold gap
  rcases Nat.le_total a b with h | h
  · rw [Nat.sub_eq_zero_of_le h, Nat.zero_add, Nat.cast_pow, Nat.cast_sub h]; ring
  · rw [Nat.sub_eq_zero_of_le h, Nat.add_zero, Nat.cast_pow, Nat.cast_sub h]; ring

theorem gap_sq_le {a b k : Nat} (ha : a ≤ k) (hb : b ≤ k) : gap a b ^ 2 ≤ k ^ 2 :=
  Nat.pow_le_pow_left (by unfold gap; omega) 2

/-- The parallelogram law for one coordinate, half of it. -/
theorem gap_sq_tri (a b c : Nat) : gap a b ^ 2 ≤ 2 * gap a c ^ 2 + 2 * gap b c ^ 2 := by
  zify
  have h1 := gap_sq_int a b
  have h2 := gap_sq_int a c
  have h3 := gap_sq_int b c
  push_cast at h1 h2 h3
  rw [h1, h2, h3]
  nlinarith [sq_nonneg ((a : Int) + b - 2 * c)]

theorem colorSq_le (a b : Rgb UInt8) : colorSq a b ≤ 195075 := by
  have f (x y : UInt8) : gap x.toNat y.toNat ^ 2 ≤ 255 ^ 2 :=
    gap_sq_le (by have := x.toNat_lt; omega) (by have := y.toNat_lt; omega)
  have := f a.r b.r
  have := f a.g b.g
  have := f a.b b.b
  unfold colorSq
  omega

theorem colorSq_tri (a b c : Rgb UInt8) : colorSq a b ≤ 2 * colorSq a c + 2 * colorSq b c := by
  have := gap_sq_tri a.r.toNat b.r.toNat c.r.toNat
  have := gap_sq_tri a.g.toNat b.g.toNat c.g.toNat
  have := gap_sq_tri a.b.toNat b.b.toNat c.b.toNat
  unfold colorSq
  omega

/-- Only the square root is rounded. -/
theorem rgbDist_eq (hfl : fl.Lawful) (a b : Rgb UInt8) : rgbDist fl a b = fl.sqrt (colorSq a b) := by
  have cast (x y : UInt8) : ((((x.toNat : Int) - y.toNat) * ((x.toNat : Int) - y.toNat) : Int) : Rat) =
      ((gap x.toNat y.toNat ^ 2 : Nat) : Rat) := by
    rw [← gap_sq_int]
    rfl
  have hle := colorSq_le a b
  unfold colorSq at hle ⊢
  unfold rgbDist
  dsimp only
  rw [cast, cast, cast, add_nat hfl (by omega), add_nat hfl (by omega)]

theorem sqrt_close (hfl : fl.Lawful) {N : Nat} (h : N ≤ 2 ^ 35) : Close (fl.sqrt N) N where
  nonneg := hfl.sqrt_nonneg _
  lo := by
    have h3 : (0 : Rat) ≤ N := Nat.cast_nonneg _
    refine le_trans ?_ (hfl.sqrt_lo N h3)
    exact mul_le_mul_of_nonneg_right (by norm_num [ulp]) h3
  hi := by
    have h3 : (0 : Rat) ≤ N := Nat.cast_nonneg _
    refine (hfl.sqrt_hi N h3).trans ?_
    exact mul_le_mul_of_nonneg_right (by norm_num [ulp]) h3
  bound := h

theorem rgbDist_close (hfl : fl.Lawful) (a b : Rgb UInt8) : Close (rgbDist fl a b) (colorSq a b) := by
  rw [rgbDist_eq hfl]
  exact sqrt_close hfl ((colorSq_le a b).trans (by norm_num))

/-! ## Pixels -/

theorem u32_sq_toNat (a b : UInt32) :
    ((a - b) * (a - b)).toNat = gap a.toNat b.toNat ^ 2 % 2 ^ 32 := by
  have hx := u32_sub_toNat a b
  rw [UInt32.toNat_mul]
  apply Int.ofNat_inj.1
  have e : ((2 ^ 32 : Nat) : Int) = 2 ^ 32 := rfl
  rw [Int.natCast_emod, Int.natCast_mul, hx, Int.natCast_emod, e, sq_mod, gap_sq_int]

/-- The distance of two pixels, if it is computed at all. -/
theorem pos_dist {chk : Bool} {a b : ColorPos} {d : Rat} (h : ColorPos.dist fl chk a b = some d) :
    d = fl.sqrt (fl.add (fl.add ((gap a.x.toNat b.x.toNat ^ 2 % 2 ^ 32 : Nat) : Rat)
      ((gap a.y.toNat b.y.toNat ^ 2 % 2 ^ 32 : Nat) : Rat)) (fl.powi2 (rgbDist fl a.color b.color))) := by
  unfold ColorPos.dist u32Sub u32Sq at h
  simp only [Option.bind_eq_bind] at h
  split at h
  · simp at h
  · rw [Option.bind_some] at h
    split at h
    · simp at h
    · rw [Option.bind_some] at h
      split at h
      · simp at h
      · rw [Option.bind_some] at h
        split at h
        · simp at h
        · rw [Option.bind_some, u32_sq_toNat, u32_sq_toNat] at h
          exact (Option.some.inj h).symm

theorem pos_dist_false (a b : ColorPos) : ∃ d, ColorPos.dist fl false a b = some d := by
  simp [ColorPos.dist, u32Sub, u32Sq]

/-- Coordinates whose differences have squares below 2^32. -/
def Narrow (p : ColorPos) : Prop := p.x.toNat < 2 ^ 16 ∧ p.y.toNat < 2 ^ 16

theorem pixelSq_tri (a b c : ColorPos) : pixelSq a b ≤ 2 * pixelSq a c + 2 * pixelSq b c := by
  have := gap_sq_tri a.x.toNat b.x.toNat c.x.toNat
  have := gap_sq_tri a.y.toNat b.y.toNat c.y.toNat
  have := colorSq_tri a.color b.color c.color
  unfold pixelSq
  omega

theorem gap_narrow {a b : Nat} (ha : a < 2 ^ 16) (hb : b < 2 ^ 16) : gap a b ^ 2 ≤ 65535 ^ 2 :=
  gap_sq_le (by omega) (by omega)

theorem pos_close (hfl : fl.Lawful) {chk : Bool} {a b : ColorPos} {d : Rat} (ha : Narrow a) (hb : Narrow b)
    (h : ColorPos.dist fl chk a b = some d) : Close d (pixelSq a b) := by
  have hx := gap_narrow ha.1 hb.1
  have hy := gap_narrow ha.2 hb.2
  have hc := colorSq_le a.color b.color
  have h := pos_dist h
  rw [Nat.mod_eq_of_lt (by omega), Nat.mod_eq_of_lt (by omega), add_nat hfl (by omega)] at h
  have hcl := rgbDist_close hfl a.color b.color
  obtain ⟨p1, p2⟩ := abs_le.1 (hfl.powi2_err (rgbDist fl a.color b.color))
  obtain ⟨c1, c2, c3, -⟩ := hcl
  -- a sharper bound for the colours
  have hs1 := hfl.sqrt_lo (colorSq a.color b.color) (Nat.cast_nonneg _)
  have hs2 := hfl.sqrt_hi (colorSq a.color b.color) (Nat.cast_nonneg _)
  rw [← rgbDist_eq hfl] at hs1 hs2
  have e : (pixelSq a b : Rat) = ((gap a.x.toNat b.x.toNat ^ 2 + gap a.y.toNat b.y.toNat ^ 2 : Nat) : Rat) +
      (colorSq a.color b.color : Rat) := by
    unfold pixelSq; push_cast; ring
  have hb : pixelSq a b ≤ 2 ^ 35 := by unfold pixelSq; omega
  have n1 : (0 : Rat) ≤ ((gap a.x.toNat b.x.toNat ^ 2 + gap a.y.toNat b.y.toNat ^ 2 : Nat) : Rat) := Nat.cast_nonneg _
  have n2 : (0 : Rat) ≤ (colorSq a.color b.color : Rat) := Nat.cast_nonneg _
  have hq := sq_nonneg (rgbDist fl a.color b.color)
  generalize ((gap a.x.toNat b.x.toNat ^ 2 + gap a.y.toNat b.y.toNat ^ 2 : Nat) : Rat) = X at *
  generalize (colorSq a.color b.color : Rat) = C at *
  generalize fl.powi2 (rgbDist fl a.color b.color) = p at *
  generalize rgbDist fl a.color b.color ^ 2 = q at *
  have hp : 0 ≤ p := by linarith
  obtain ⟨l, u⟩ := rnd_nonneg_bounds hfl (x := X + p) (by linarith)
  have h0 : 0 ≤ fl.rnd (X + p) := le_trans (mul_nonneg (by norm_num [ulp]) (by linarith)) l
  have hS : d = fl.sqrt (fl.rnd (X + p)) := h
  generalize fl.rnd (X + p) = s at *
  have h4 := hfl.sqrt_lo s h0
  have h5 := hfl.sqrt_hi s h0
  refine ⟨hS ▸ hfl.sqrt_nonneg _, ?_, ?_, hb⟩
  · rw [e, hS]
    refine le_trans ?_ h4
    unfold ulp at *
    norm_num at *
    linarith
  · rw [e, hS]
    refine h5.trans ?_
    unfold ulp at *
    norm_num at *
    linarith

/-! ## The shortcuts -/

/-- Distances close to a squared distance of whole numbers justify the shortcuts. -/
theorem prunable_of_close {T : Type} (env : Env T) (hfl : env.fl.Lawful) (P : T → Prop) (D : T → T → Nat)
    (hd : ∀ a b d, P a → P b → env.pt.dist a b = some d → Close d (D a b))
    (htri : ∀ a b c, D a b ≤ 2 * D a c + 2 * D b c) : Prunable env P fun a b => (D a b : Rat) where
  mono c t x dc dt pc pt px h1 h2 h := by
    exact_mod_cast (hd _ _ _ pc px h1).le (hd _ _ _ pt px h2) h
  far c t x dc ct pc pt px h1 h2 h := by
    have : 4 * D c x ≤ D c t := by
      apply Classical.byContradiction
      intro hn
      exact absurd ((hd _ _ _ pc px h1).lt_cut hfl (hd _ _ _ pc pt h2) (by omega)) (not_lt.2 h.le)
    have := htri c t x
    have : D c x ≤ D t x := by omega
    exact_mod_cast this
  near c t t0 x dc ct r pc pt p0 px h1 h2 h3 hr h := by
    have h4 : 4 * D c x ≤ D c t0 := by
      apply Classical.byContradiction
      intro hn
      exact absurd ((hd _ _ _ pc px h1).radius_lt hfl (hd _ _ _ pc p0 h3) (by omega)) (not_lt.2 h)
    have h5 := (hd _ _ _ pc p0 h3).le (hd _ _ _ pc pt h2) hr
    have := htri c t x
    have : D c x ≤ D t x := by omega
    exact_mod_cast this

theorem color_prunable {o : Outside} (hfl : o.fl.Lawful) (chk : Bool) :
    Prunable (colorEnv o chk) (fun _ => True) fun a b => (colorSq a.color b.color : Rat) := by
  refine prunable_of_close (colorEnv o chk) hfl _ (fun a b => colorSq a.color b.color) ?_ ?_
  · intro a b d _ _ h
    cases h
    exact rgbDist_close hfl _ _
  · intro a b c
    exact colorSq_tri _ _ _

theorem pos_prunable {o : Outside} (hfl : o.fl.Lawful) (chk : Bool) :
    Prunable (posEnv o chk) Narrow fun a b => (pixelSq a b : Rat) := by
  refine prunable_of_close (posEnv o chk) hfl _ pixelSq ?_ pixelSq_tri
  intro a b d ha hb h
  exact pos_close hfl ha hb h

end Cniic
