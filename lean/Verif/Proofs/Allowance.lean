import Verif.Spec.Allowance
import Verif.Proofs.Again
import Verif.Props.Again
import Verif.Props.Sizes

/-!
# Proofs about the allowance of approximate runs
-/

namespace Cniic
open Spec SerSpec

/-- If equal items always join, the groups of a part of what some runs spell are not more than the runs. -/
theorem greedy_fewest {T : Type} {ok : List T → T → Prop} (hok : ∀ n c, 0 < n → ok (List.replicate n c) c)
    (rs : List (UInt8 × T)) : ∀ (k : Nat) (groups : List (List T)),
    Greedy ok ((expandRuns rs).drop k) groups → groups.length ≤ rs.length := by
  induction rs with
  | nil =>
    intro k groups h
    simp only [expandRuns, List.flatMap_nil, List.drop_nil] at h
    generalize hx : ([] : List T) = xs at h
    cases h with
    | nil => simp
    | group h1 =>
      cases hx' : (List.append_eq_nil_iff.1 hx.symm).1
      exact absurd (List.append_eq_nil_iff.1 hx.symm).1 h1
  | cons r rs ih =>
    intro k groups h
    obtain ⟨a, c⟩ := r
    have he : expandRuns ((a, c) :: rs) = List.replicate a.toNat c ++ expandRuns rs := rfl
    rw [he] at h
    by_cases hk : a.toNat ≤ k
    · rw [List.drop_append, List.drop_eq_nil_of_le (by simpa using hk), List.nil_append] at h
      have := ih _ _ h
      simp only [List.length_cons]
      omega
    · rw [List.drop_append_of_le_length (by simp; omega), List.drop_replicate] at h
      have hpos : 0 < a.toNat - k := by omega
      generalize hm : a.toNat - k = m at h hpos
      have hlt : m ≤ 255 := by have := a.toNat_lt; omega
      generalize hx : List.replicate m c ++ expandRuns rs = xs at h
      cases h with
      | nil => simp
      | @group g rest groups h1 h2 h3 h4 h5 =>
        have hg : m ≤ g.length := by
          apply Decidable.byContradiction
          intro hlt'
          have hlt' : g.length < m := by omega
          have e1 : g = List.replicate g.length c := by
            have := congrArg (List.take g.length) hx
            rw [List.take_left, List.take_append_of_le_length (by simp; omega), List.take_replicate,
              Nat.min_eq_left (by omega)] at this
            exact this.symm
          have e2 : rest.head? = some c := by
            have := congrArg (fun l => (List.drop g.length l).head?) hx
            simp only [List.drop_left] at this
            rw [← this, List.drop_append_of_le_length (by simp; omega), List.drop_replicate, List.head?_append]
            have : m - g.length = (m - g.length - 1) + 1 := by omega
            rw [this, List.replicate_succ]
            rfl
          rcases h4 with h4 | h4
          · omega
          · refine h4 c e2 ?_
            rw [e1]
            exact hok _ c (List.length_pos_iff.2 h1)
        have e : rest = (expandRuns rs).drop (g.length - m) := by
          have := congrArg (List.drop g.length) hx
          rw [List.drop_left, List.drop_append, List.drop_eq_nil_of_le (by simpa using hg), List.nil_append,
            List.length_replicate] at this
          exact this.symm
        rw [e] at h5
        have := ih _ _ h5
        simp only [List.length_cons]
        omega

/-- Some picture of the given size has the given colours along the traversal. -/
theorem exists_colorsAlong {scan : Scan} (w h : UInt32) (hs : VisitsOnce scan w.toNat h.toNat)
    (xs : List (Rgb UInt8)) (hl : xs.length = w.toNat * h.toNat) :
    ∃ img : Img, img.width = w ∧ img.height = h ∧ colorsAlong scan img = xs := by
  let blank : RgbImage := { width := w, height := h, pixels := List.replicate (w.toNat * h.toNat) black }
  have hb : blank.pixels.length = blank.width.toNat * blank.height.toNat := by simp [blank]
  have hs' : VisitsOnce scan (blank.toImg hb).width.toNat (blank.toImg hb).height.toNat := hs
  have hr : expandRuns (xs.map fun x => ((1 : UInt8), x)) = xs := by
    clear hl
    induction xs with
    | nil => rfl
    | cons x xs ih =>
      simp only [List.map_cons, expandRuns, List.flatMap_cons] at ih ⊢
      rw [ih]
      rfl
  have hsup := (rleDecoder_yields (xs.map fun x => ((1 : UInt8), x)) (by simp)).supplies
  rw [hr] at hsup
  obtain ⟨out, -, hw, hh, hpl, hpx⟩ := paint_colors hs' (by rw [linearize_length hs']; exact hl) _ hsup
  have hw' : out.width = w := hw
  have hh' : out.height = h := hh
  have hl' : out.pixels.length = out.width.toNat * out.height.toNat := by rw [hw', hh']; exact hpl
  refine ⟨out.toImg hl', hw', hh', ?_⟩
  have hrgb : (out.toImg hl').rgbPixels = out.pixels := congrArg RgbImage.pixels (toImg_toRgb out hl')
  have : (colorsAlong scan (out.toImg hl')) = ((scan w.toNat h.toNat).map (pixelAt out)).map (·.getD black) := by
    unfold colorsAlong
    rw [List.map_map]
    show List.map _ (scan out.width.toNat out.height.toNat) = _
    rw [hw', hh']
    apply List.map_congr_left
    intro c _
    unfold colorAt
    rw [hrgb]
    rfl
  rw [this]
  have hpx' : (scan w.toNat h.toNat).map (pixelAt out) = xs.map some := hpx
  rw [hpx', List.map_map]
  exact (List.map_congr_left (fun _ _ => rfl)).trans (List.map_id _)

variable {fl : FloatOps}

/-- Groups of one shade of red joined by the next one. -/
theorem join_shades (hfl : fl.Lawful) {g : List (Rgb UInt8)} (hg : g ≠ []) {x : Rgb UInt8} {d e : Rat} (he : 0 ≤ e)
    (hed : e * (1 + 1 / 2 ^ 40) + 1 / 2 ^ 40 ≤ d)
    (h : (chanMean (·.r) g - x.r.toNat) ^ 2 + (chanMean (·.g) g - x.g.toNat) ^ 2 + (chanMean (·.b) g - x.b.toNat) ^ 2 ≤ e ^ 2) :
    joins fl (.fin d) g x := near_joins hfl hg he hed ⟨h⟩

/-- Every pixel of a block is within 20 of the mean of those before it. -/
theorem block_means : ∀ i, i < 255 → 0 < i →
    (chanMean (·.r) (teethBlock.take i) - ((teethBlock[i]?).getD black).r.toNat) ^ 2 +
    (chanMean (·.g) (teethBlock.take i) - ((teethBlock[i]?).getD black).g.toNat) ^ 2 +
    (chanMean (·.b) (teethBlock.take i) - ((teethBlock[i]?).getD black).b.toNat) ^ 2 ≤ (20 : Rat) ^ 2 := by
  decide +kernel

theorem teethBlock_length : teethBlock.length = 255 := by decide +kernel

/-- With the allowance 22 each block is one group. -/
theorem block_groups (hfl : fl.Lawful) (m : Nat) :
    Greedy (joins fl (.fin 22)) (List.replicate m teethBlock).flatten (List.replicate m teethBlock) := by
  induction m with
  | zero => exact .nil
  | succ m ih =>
    rw [List.replicate_succ, List.flatten_cons]
    refine .group (by simp [teethBlock]) (by rw [teethBlock_length]) (joins_all ?_) (.inl teethBlock_length) ih
    intro i h0 hi
    rw [teethBlock_length] at hi
    have := block_means i hi h0
    rw [List.getElem?_eq_getElem (by rw [teethBlock_length]; exact hi), Option.getD_some] at this
    refine join_shades hfl (e := 20) ?_ (by norm_num) (by norm_num) this
    intro hn
    have := congrArg List.length hn
    rw [List.length_take, teethBlock_length, List.length_nil] at this
    omega

/-- With the allowance 22 the teeth are one group more than blocks. -/
theorem teeth_low (hfl : fl.Lawful) (m : Nat) :
    Greedy (joins fl (.fin 22)) (teeth m) ([shade 0, shade 14] :: List.replicate m teethBlock) := by
  refine .group (g := [shade 0, shade 14]) (by simp) (by simp) (joins_all ?_) (.inr ?_) (block_groups hfl m)
  · intro i h0 hi
    have : i = 1 := by simp at hi; omega
    subst this
    exact join_shades hfl (e := 14) (by simp) (by norm_num) (by norm_num) (by clear * -; decide +kernel +revert)
  · intro x hx h
    cases m with
    | zero => simp at hx
    | succ m =>
      rw [List.replicate_succ, List.flatten_cons] at hx
      cases hx
      have := (C36_joins_within hfl _ _ (by simp) _ h).2.le
      revert this
      decide +kernel

/-- A shade that is too far away. -/
theorem far_shade (hfl : fl.Lawful) {g : List (Rgb UInt8)} (hg : g ≠ []) {x : Rgb UInt8}
    (h : ¬ ((meanExact g).r - (exactColor x).r) ^ 2 + ((meanExact g).g - (exactColor x).g) ^ 2 +
      ((meanExact g).b - (exactColor x).b) ^ 2 ≤ ((24 : Rat) * (1 + 1 / 2 ^ 40) + 1 / 2 ^ 40) ^ 2) :
    ¬ joins fl (.fin 24) g x := fun hj => h (C36_joins_within hfl _ _ hg _ hj).2.le

/-- A group of one item. -/
theorem greedy_single {T : Type} {ok : List T → T → Prop} {x : T} {rest : List T} {gs : List (List T)}
    (hx : ∀ y, rest.head? = some y → ¬ ok [x] y) (h : Greedy ok rest gs) : Greedy ok (x :: rest) ([x] :: gs) :=
  .group (g := [x]) (by simp) (by simp) (by
    intro p y q hp hpn
    have := congrArg List.length hp
    have := List.length_pos_iff.2 hpn
    simp only [List.length_append, List.length_cons, List.length_nil] at *
    omega) (.inr hx) h

/-- With the allowance 24, pairs before a pixel of shade 50 are groups of one. -/
theorem pairs_high (hfl : fl.Lawful) {rest : List (Rgb UInt8)} {gs : List (List (Rgb UInt8))}
    (hr : rest.head? = some (shade 50)) (h : Greedy (joins fl (.fin 24)) rest gs) (n : Nat) :
    (pairs5020 n ++ rest).head? = some (shade 50) ∧
    ∃ gs', Greedy (joins fl (.fin 24)) (pairs5020 n ++ rest) gs' ∧ gs'.length = 2 * n + gs.length := by
  induction n with
  | zero => exact ⟨hr, gs, h, by omega⟩
  | succ n ih =>
    obtain ⟨h1, gs', h2, h3⟩ := ih
    refine ⟨rfl, [shade 50] :: [shade 20] :: gs', greedy_single ?_ (greedy_single ?_ h2), ?_⟩
    · rintro y ⟨⟩
      exact far_shade hfl (by simp) (by decide +kernel)
    · intro y hy
      have hy : (pairs5020 n ++ rest).head? = some y := hy
      rw [h1] at hy
      cases hy
      exact far_shade hfl (by simp) (by decide +kernel)
    · simp only [List.length_cons, h3]
      omega

theorem pairs_split : ∀ n, pairs5020 (n + 1) = pairs5020 n ++ [shade 50, shade 20] := by
  intro n
  induction n with
  | zero => rfl
  | succ n ih => exact congrArg (fun l => shade 50 :: shade 20 :: l) ih

/-- With the allowance 24, what follows the shade 30 of a block: 254 groups for each block. -/
theorem tail_high (hfl : fl.Lawful) (m : Nat) :
    (pairs5020 127 ++ (List.replicate m teethBlock).flatten).head? = some (shade 50) ∧
    ∃ gs, Greedy (joins fl (.fin 24)) (pairs5020 127 ++ (List.replicate m teethBlock).flatten) gs ∧
      gs.length = 254 * (m + 1) := by
  refine ⟨rfl, ?_⟩
  induction m with
  | zero =>
    have h : Greedy (joins fl (.fin 24)) [shade 50, shade 20] [[shade 50], [shade 20]] := by
      refine greedy_single ?_ (greedy_single (by simp) .nil)
      rintro y ⟨⟩
      exact far_shade hfl (by simp) (by decide +kernel)
    obtain ⟨-, gs, h1, h2⟩ := pairs_high hfl rfl h 126
    refine ⟨gs, ?_, by rw [h2]; rfl⟩
    rw [pairs_split]
    simpa using h1
  | succ m ih =>
    obtain ⟨gs, h1, h2⟩ := ih
    have h : Greedy (joins fl (.fin 24))
        (shade 50 :: ([shade 20, shade 30] ++ (pairs5020 127 ++ (List.replicate m teethBlock).flatten)))
        ([shade 50] :: [shade 20, shade 30] :: gs) := by
      refine greedy_single ?_ (.group (by simp) (by simp) (joins_all ?_) (.inr ?_) h1)
      · rintro y ⟨⟩
        exact far_shade hfl (by simp) (by decide +kernel)
      · intro i h0 hi
        have : i = 1 := by simp at hi; omega
        subst this
        exact join_shades hfl (e := 10) (by simp) (by norm_num) (by norm_num) (by clear * -; decide +kernel +revert)
      · rintro y ⟨⟩
        exact far_shade hfl (by simp) (by decide +kernel)
    obtain ⟨-, gs', h3, h4⟩ := pairs_high hfl rfl h 126
    refine ⟨gs', ?_, by rw [h4]; simp only [List.length_cons, h2]; omega⟩
    rw [pairs_split, List.replicate_succ, List.flatten_cons, teethBlock, List.append_assoc]
    exact h3

/-- With the allowance 24 the teeth are 254 groups for each block and one more. -/
theorem teeth_high (hfl : fl.Lawful) (m : Nat) :
    ∃ gs, Greedy (joins fl (.fin 24)) (teeth m) gs ∧ gs.length = 254 * m + 1 := by
  cases m with
  | zero =>
    refine ⟨[[shade 0, shade 14]], .group (g := [shade 0, shade 14]) (rest := []) (by simp) (by simp) (joins_all ?_)
      (.inr (by simp)) .nil, rfl⟩
    intro i h0 hi
    have : i = 1 := by simp at hi; omega
    subst this
    exact join_shades hfl (e := 14) (by simp) (by norm_num) (by norm_num) (by clear * -; decide +kernel +revert)
  | succ m =>
    obtain ⟨-, gs, h1, h2⟩ := tail_high hfl m
    refine ⟨[shade 0, shade 14, shade 30] :: gs, ?_, by simp [h2]⟩
    refine .group (g := [shade 0, shade 14, shade 30]) (by simp) (by simp) (joins_all ?_) (.inr ?_) h1
    · intro i h0 hi
      have : i = 1 ∨ i = 2 := by simp at hi; omega
      rcases this with rfl | rfl
      · exact join_shades hfl (e := 14) (by simp) (by norm_num) (by norm_num) (by clear * -; decide +kernel +revert)
      · exact join_shades hfl (e := 23) (by simp) (by norm_num) (by norm_num) (by clear * -; decide +kernel +revert)
    · rintro y ⟨⟩
      exact far_shade hfl (by simp) (by decide +kernel)

theorem teeth_length (m : Nat) : (teeth m).length = 2 + 255 * m := by
  have : ((List.replicate m teethBlock).flatten).length = 255 * m := by
    rw [List.length_flatten, List.map_replicate, List.sum_replicate_nat, teethBlock_length]
    omega
  simp only [teeth, List.length_cons, this]
  omega

/-- If everything joins, all groups but the last one are full. -/
theorem greedy_full {T : Type} {ok : List T → T → Prop} (hok : ∀ p x, p ≠ [] → ok p x) {xs : List T} {gs : List (List T)}
    (h : Greedy ok xs gs) : gs.length = (xs.length + 254) / 255 := by
  induction h with
  | nil => simp
  | @group g rest groups h1 h2 h3 h4 h5 ih =>
    have hg := List.length_pos_iff.2 h1
    rw [List.length_append, List.length_cons, ih]
    rcases h4 with h4 | h4
    · omega
    · cases rest with
      | nil => simp only [List.length_nil]; omega
      | cons x rest => exact absurd (hok g x h1) (h4 x rfl)

/-- Every colour is less than 442 away from the mean of any colours. -/
theorem joins_442 (hfl : fl.Lawful) {d : Rat} (hd : 442 ≤ d) (g : List (Rgb UInt8)) (hg : g ≠ []) (x : Rgb UInt8) :
    joins fl (.fin d) g x := by
  have hb : ∀ ch : Rgb UInt8 → UInt8, 0 ≤ chanMean ch g ∧ chanMean ch g ≤ 255 := by
    intro ch
    have hpos : (0 : Rat) < g.length := by exact_mod_cast List.length_pos_iff.2 hg
    have : chanSum ch g ≤ 255 * g.length := by
      clear hg hpos
      induction g with
      | nil => simp [chanSum]
      | cons c g ih =>
        have := (ch c).toNat_lt
        simp only [chanSum, List.map_cons, List.sum_cons, List.length_cons] at ih ⊢
        omega
    unfold chanMean
    constructor
    · positivity
    · rw [div_le_iff₀ hpos]
      exact_mod_cast this
  have hsq : ∀ (ch : Rgb UInt8 → UInt8) (v : UInt8), (chanMean ch g - v.toNat) ^ 2 ≤ 255 ^ 2 := by
    intro ch v
    obtain ⟨h1, h2⟩ := hb ch
    have hv : (v.toNat : Rat) ≤ 255 := by
      have := v.toNat_lt
      exact_mod_cast (by omega : v.toNat ≤ 255)
    have hv0 : (0 : Rat) ≤ v.toNat := by positivity
    apply sq_le_sq'
    · linarith
    · linarith
  refine near_joins hfl hg (e := 44175 / 100) (by norm_num) (by linarith [show (44175 / 100 : Rat) * (1 + 1 / 2 ^ 40) + 1 / 2 ^ 40 ≤ 442 by norm_num]) ⟨?_⟩
  have h1 := hsq (·.r) x.r
  have h2 := hsq (·.g) x.g
  have h3 := hsq (·.b) x.b
  simp only [meanExact, exactColor]
  have : (44175 / 100 : Rat) ^ 2 ≥ 3 * 255 ^ 2 := by norm_num
  linarith

end Cniic
