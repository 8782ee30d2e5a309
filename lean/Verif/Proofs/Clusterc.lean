import Verif.Spec.Clusterc
import Verif.Props.Kmeans
import Verif.Proofs.Hufc
import Verif.Proofs.HufOpt

/-! # Proofs: clustering codecs -/

namespace Cniic
open Spec SerSpec Kmeans Spec.Kmeans

/-! ## Lists -/

theorem optMap_ok {α β : Type} {f : α → Option β} {g : α → β} {l : List α} (h : ∀ a ∈ l, f a = some (g a)) :
    optMap f l = some (l.map g) := by
  induction l with
  | nil => rfl
  | cons a l ih =>
    rw [optMap, h a (by simp), ih fun b hb => h b (by simp [hb])]
    rfl

theorem optMap_some {α β : Type} {f : α → Option β} {l : List α} {bs : List β} (h : optMap f l = some bs) :
    bs.length = l.length ∧ ∀ (i : Nat) a, l[i]? = some a → f a = bs[i]? := by
  induction l generalizing bs with
  | nil => cases h; simp
  | cons a l ih =>
    rw [optMap] at h
    cases hf : f a with
    | none => rw [hf] at h; cases h
    | some b =>
      rw [hf] at h
      cases hr : optMap f l with
      | none => rw [hr] at h; cases h
      | some r =>
        rw [hr] at h
        cases h
        obtain ⟨h1, h2⟩ := ih hr
        refine ⟨by simp [h1], ?_⟩
        intro i a' ha'
        cases i with
        | zero => simp only [List.getElem?_cons_zero, Option.some.injEq] at ha'; subst ha'; simpa using hf
        | succ i => simpa using h2 i a' (by simpa using ha')

theorem optMap_none {α β : Type} {f : α → Option β} {l : List α} {a : α} (ha : a ∈ l) (h : f a = none) :
    optMap f l = none := by
  cases ho : optMap f l with
  | none => rfl
  | some bs =>
    obtain ⟨h1, h2⟩ := optMap_some ho
    obtain ⟨i, hi⟩ := List.mem_iff_getElem?.1 ha
    have := h2 i a hi
    rw [h] at this
    have hlt := (List.getElem?_eq_some_iff.1 hi).1
    have := List.getElem?_eq_none_iff.1 this.symm
    omega

theorem lastLookup_of_mem {m : List (Rgb UInt8 × Rgb UInt8)} (hnd : (m.map (·.1)).Nodup) {c v : Rgb UInt8}
    (h : (c, v) ∈ m) : lastLookup m c = some v := by
  unfold lastLookup
  have hnd' : (m.reverse.map (·.1)).Nodup := by
    rw [List.map_reverse]; exact (List.reverse_perm _).nodup_iff.2 hnd
  have h' : (c, v) ∈ m.reverse := List.mem_reverse.2 h
  generalize m.reverse = l at hnd' h'
  induction l with
  | nil => cases h'
  | cons e l ih =>
    rw [List.map_cons, List.nodup_cons] at hnd'
    rcases List.mem_cons.1 h' with rfl | h'
    · simp
    · have hne : e.1 ≠ c := by
        rintro rfl
        exact hnd'.1 (List.mem_map_of_mem (f := (·.1)) h')
      rw [List.find?_cons]
      have : (e.1 == c) = false := by simpa using hne
      rw [this]
      exact ih hnd'.2 h'

/-! ## Sums over the pixels of a cluster -/

theorem nodup_length_le {α : Type} [DecidableEq α] {l l' : List α} (hnd : l.Nodup) (h : ∀ a ∈ l, a ∈ l') :
    l.length ≤ l'.length := by
  induction l generalizing l' with
  | nil => simp
  | cons a l ih =>
    rw [List.nodup_cons] at hnd
    have := ih hnd.2 (l' := l'.erase a) (by
      intro b hb
      have hne : b ≠ a := by rintro rfl; exact hnd.1 hb
      exact (List.mem_erase_of_ne hne).2 (h b (by simp [hb])))
    have hin := h a (by simp)
    rw [List.length_erase_of_mem hin] at this
    have := List.length_pos_of_mem hin
    rw [List.length_cons]
    omega

theorem sum_count [DecidableEq α] (f : α → Nat) (cs : List α) (hnd : cs.Nodup) (l : List α) :
    (cs.map fun c => f c * l.count c).sum = ((l.filter fun x => decide (x ∈ cs)).map f).sum := by
  induction l with
  | nil =>
    simp only [List.count_nil, Nat.mul_zero, List.filter_nil, List.map_nil, List.sum_nil]
    induction cs with
    | nil => rfl
    | cons c cs ih => simp [ih (List.nodup_cons.1 hnd).2]
  | cons x l ih =>
    have h1 : (cs.map fun c => f c * (x :: l).count c).sum =
        (cs.map fun c => f c * l.count c).sum + (if x ∈ cs then f x else 0) := by
      clear ih
      induction cs with
      | nil => rfl
      | cons c cs ih =>
        have hnd' := List.nodup_cons.1 hnd
        rw [List.map_cons, List.map_cons, List.sum_cons, List.sum_cons, ih hnd'.2, List.count_cons]
        by_cases hx : x = c
        · subst hx
          simp only [beq_self_eq_true, if_true, List.mem_cons, true_or, hnd'.1, if_false]
          rw [Nat.mul_add]; omega
        · have : (x == c) = false := by simpa using hx
          simp only [this, Bool.false_eq_true, if_false, List.mem_cons, hx, false_or, Nat.add_zero]
          split <;> omega
    rw [h1, ih]
    by_cases hx : x ∈ cs
    · rw [List.filter_cons_of_pos (by simpa using hx)]
      simp only [hx, if_true, List.map_cons, List.sum_cons]
      omega
    · rw [List.filter_cons_of_neg (by simpa using hx)]
      simp [hx]

theorem u64Add_eq (chk : Bool) (a b : UInt64) (h : a.toNat + b.toNat < 2 ^ 64) :
    u64Add chk a b = some (a + b) ∧ (a + b).toNat = a.toNat + b.toNat := by
  refine ⟨?_, ?_⟩
  · unfold u64Add
    rw [if_neg]
    simp only [Bool.and_eq_true, decide_eq_true_eq]
    omega
  · rw [UInt64.toNat_add]; omega

theorem weighedSums_eq (chk : Bool) (l : List ColorCount) (acc : UInt64 × UInt64 × UInt64 × UInt64)
    (hr : acc.1.toNat + (l.map fun p => p.color.r.toNat * p.count.toNat).sum < 2 ^ 64)
    (hg : acc.2.1.toNat + (l.map fun p => p.color.g.toNat * p.count.toNat).sum < 2 ^ 64)
    (hb : acc.2.2.1.toNat + (l.map fun p => p.color.b.toNat * p.count.toNat).sum < 2 ^ 64)
    (hn : acc.2.2.2.toNat + (l.map fun p => p.count.toNat).sum < 2 ^ 64) :
    ∃ r g b n, weighedSums chk l acc = some (r, g, b, n) ∧
      r.toNat = acc.1.toNat + (l.map fun p => p.color.r.toNat * p.count.toNat).sum ∧
      g.toNat = acc.2.1.toNat + (l.map fun p => p.color.g.toNat * p.count.toNat).sum ∧
      b.toNat = acc.2.2.1.toNat + (l.map fun p => p.color.b.toNat * p.count.toNat).sum ∧
      n.toNat = acc.2.2.2.toNat + (l.map fun p => p.count.toNat).sum := by
  induction l generalizing acc with
  | nil =>
    obtain ⟨r, g, b, n⟩ := acc
    exact ⟨r, g, b, n, rfl, by simp, by simp, by simp, by simp⟩
  | cons p l ih =>
    obtain ⟨r, g, b, n⟩ := acc
    simp only [List.map_cons, List.sum_cons] at hr hg hb hn ⊢
    have hc := p.count.toNat_lt
    have prod : ∀ c : UInt8, (UInt64.ofNat c.toNat * UInt64.ofNat p.count.toNat).toNat = c.toNat * p.count.toNat := by
      intro c
      have h8 := c.toNat_lt
      have : c.toNat * p.count.toNat < 2 ^ 64 := by
        calc c.toNat * p.count.toNat ≤ 256 * 2 ^ 32 := Nat.mul_le_mul (by omega) (by omega)
          _ < 2 ^ 64 := by decide
      rw [UInt64.toNat_mul, UInt64.toNat_ofNat', UInt64.toNat_ofNat', Nat.mod_eq_of_lt (a := c.toNat) (by omega),
        Nat.mod_eq_of_lt (a := p.count.toNat) (by omega), Nat.mod_eq_of_lt this]
    have pc : (UInt64.ofNat p.count.toNat).toNat = p.count.toNat := by
      rw [UInt64.toNat_ofNat', Nat.mod_eq_of_lt (by omega)]
    obtain ⟨r1, r2⟩ := u64Add_eq chk r (UInt64.ofNat p.color.r.toNat * UInt64.ofNat p.count.toNat)
      (by rw [prod]; omega)
    obtain ⟨g1, g2⟩ := u64Add_eq chk g (UInt64.ofNat p.color.g.toNat * UInt64.ofNat p.count.toNat)
      (by rw [prod]; omega)
    obtain ⟨b1, b2⟩ := u64Add_eq chk b (UInt64.ofNat p.color.b.toNat * UInt64.ofNat p.count.toNat)
      (by rw [prod]; omega)
    obtain ⟨n1, n2⟩ := u64Add_eq chk n (UInt64.ofNat p.count.toNat) (by rw [pc]; omega)
    rw [prod] at r2 g2 b2
    rw [pc] at n2
    obtain ⟨r', g', b', n', e, er, eg, eb, en⟩ := ih (_, _, _, _)
      (by rw [r2]; omega) (by rw [g2]; omega) (by rw [b2]; omega) (by rw [n2]; omega)
    refine ⟨r', g', b', n', ?_, ?_, ?_, ?_, ?_⟩
    · rw [weighedSums]
      simp only [r1, g1, b1, n1, Option.bind_eq_bind, Option.bind_some]
      exact e
    · rw [er, r2]; omega
    · rw [eg, g2]; omega
    · rw [eb, b2]; omega
    · rw [en, n2]; omega

theorem u64_div_toUInt8 (a n : UInt64) : (a / n).toUInt8 = UInt8.ofNat (a.toNat / n.toNat) := by
  apply UInt8.toNat_inj.1
  rw [UInt64.toNat_toUInt8, UInt64.toNat_div, UInt8.toNat_ofNat']

/-- `ColorCount.mean` for at least two points. -/
theorem mean_two (chk : Bool) (p q : ColorCount) (l : List ColorCount) :
    ColorCount.mean chk (p :: q :: l) =
      match weighedSums chk (p :: q :: l) (0, 0, 0, 0) with
      | none => .panic
      | some (r, g, b, n) =>
        if n = 0 then .panic
        else .ok { color := ⟨(r / n).toUInt8, (g / n).toUInt8, (b / n).toUInt8⟩, count := 1 } := by
  rw [ColorCount.mean]
  all_goals first | rfl | simp

theorem mean_err (chk : Bool) (l : List ColorCount) : ColorCount.mean chk l = .err () ↔ l = [] := by
  match l with
  | [] => simp [ColorCount.mean]
  | [p] => simp [ColorCount.mean]
  | p :: q :: l =>
    simp only [reduceCtorEq, iff_false]
    rw [mean_two]
    cases weighedSums chk (p :: q :: l) (0, 0, 0, 0) with
    | none => simp
    | some s =>
      obtain ⟨r, g, b, n⟩ := s
      dsimp only
      split <;> simp

theorem color_meanOfSome (o : Outside) (chk : Bool) : MeanOfSome (colorEnv o chk).pt := mean_err chk

theorem sum_le_mul {α : Type} (f g : α → Nat) (k : Nat) (l : List α) (h : ∀ a ∈ l, f a ≤ k * g a) :
    (l.map f).sum ≤ k * (l.map g).sum := by
  induction l with
  | nil => simp
  | cons a l ih =>
    have := ih fun b hb => h b (by simp [hb])
    have := h a (by simp)
    rw [List.map_cons, List.map_cons, List.sum_cons, List.sum_cons, Nat.mul_add]
    omega

theorem sum_le_of_part {l points : List ColorCount} (h : Part l points) (f : ColorCount → Nat) :
    (l.map f).sum ≤ (points.map f).sum := by
  obtain ⟨rest, hp⟩ := h
  rw [← sum_perm (hp.map f), List.map_append, List.sum_append]
  omega

/-- The sums of colours of a total weight below 2^56 fit in 64 bits. -/
theorem weighedSums_fit (chk : Bool) (l : List ColorCount) (hlt : (l.map fun p => p.count.toNat).sum < 2 ^ 56) :
    ∃ r g b n, weighedSums chk l (0, 0, 0, 0) = some (r, g, b, n) ∧
      r.toNat = (l.map fun p => p.color.r.toNat * p.count.toNat).sum ∧
      g.toNat = (l.map fun p => p.color.g.toNat * p.count.toNat).sum ∧
      b.toNat = (l.map fun p => p.color.b.toNat * p.count.toNat).sum ∧
      n.toNat = (l.map fun p => p.count.toNat).sum := by
  have bound : ∀ f : ColorCount → UInt8, (l.map fun p => (f p).toNat * p.count.toNat).sum < 2 ^ 64 := by
    intro f
    have := sum_le_mul (fun p => (f p).toNat * p.count.toNat) (fun p => p.count.toNat) 255 l
      (fun a _ => Nat.mul_le_mul_right _ (by have := (f a).toNat_lt; omega))
    omega
  have zero : (0 : UInt64).toNat = 0 := rfl
  obtain ⟨r, g, b, n, e, er, eg, eb, en⟩ := weighedSums_eq chk l (0, 0, 0, 0)
    (by rw [zero, Nat.zero_add]; exact bound fun p => p.color.r)
    (by dsimp only; rw [zero, Nat.zero_add]; exact bound fun p => p.color.g)
    (by dsimp only; rw [zero, Nat.zero_add]; exact bound fun p => p.color.b)
    (by dsimp only; rw [zero]; omega)
  dsimp only at er eg eb en
  rw [zero, Nat.zero_add] at er eg eb en
  exact ⟨r, g, b, n, e, er, eg, eb, en⟩

/-- The mean of at least two colours. -/
theorem mean_several (chk : Bool) (l : List ColorCount) (h2 : 2 ≤ l.length)
    (hlt : (l.map fun p => p.count.toNat).sum < 2 ^ 56) :
    ((l.map fun p => p.count.toNat).sum = 0 → ColorCount.mean chk l = .panic) ∧
    (0 < (l.map fun p => p.count.toNat).sum → ColorCount.mean chk l = .ok
      { color := ⟨UInt8.ofNat ((l.map fun p => p.color.r.toNat * p.count.toNat).sum / (l.map fun p => p.count.toNat).sum),
          UInt8.ofNat ((l.map fun p => p.color.g.toNat * p.count.toNat).sum / (l.map fun p => p.count.toNat).sum),
          UInt8.ofNat ((l.map fun p => p.color.b.toNat * p.count.toNat).sum / (l.map fun p => p.count.toNat).sum)⟩
        count := 1 }) := by
  match l, h2 with
  | p :: q :: l, _ =>
    obtain ⟨r, g, b, n, e, er, eg, eb, en⟩ := weighedSums_fit chk (p :: q :: l) hlt
    rw [mean_two, e]
    dsimp only
    refine ⟨fun h0 => ?_, fun hpos => ?_⟩
    · rw [if_pos (UInt64.toNat_inj.1 (by rw [en, h0]; rfl))]
    · rw [if_neg (by rintro rfl; rw [← en] at hpos; exact absurd hpos (by decide))]
      simp only [u64_div_toUInt8, er, eg, eb, en]

/-- The mean of colours with positive weights. -/
theorem mean_ok (chk : Bool) (l : List ColorCount) (hne : l ≠ []) (hpos : ∀ p ∈ l, 0 < p.count.toNat)
    (hlt : (l.map fun p => p.count.toNat).sum < 2 ^ 56) :
    ∃ c, ColorCount.mean chk l = .ok c ∧
      c.color = ⟨UInt8.ofNat ((l.map fun p => p.color.r.toNat * p.count.toNat).sum / (l.map fun p => p.count.toNat).sum),
        UInt8.ofNat ((l.map fun p => p.color.g.toNat * p.count.toNat).sum / (l.map fun p => p.count.toNat).sum),
        UInt8.ofNat ((l.map fun p => p.color.b.toNat * p.count.toNat).sum / (l.map fun p => p.count.toNat).sum)⟩ := by
  match l with
  | [] => exact absurd rfl hne
  | [p] =>
    refine ⟨p, rfl, ?_⟩
    have := hpos p (by simp)
    simp [Nat.mul_div_cancel _ this]
  | p :: q :: l =>
    refine ⟨_, (mean_several chk (p :: q :: l) (by simp) hlt).2 ?_, rfl⟩
    have := hpos p (by simp)
    rw [List.map_cons, List.sum_cons]
    omega

/-! ## The points -/

theorem colorCounts_colors (ho : List (Rgb UInt8 × Nat) → List (Rgb UInt8 × Nat)) (img : Img) :
    (colorCounts ho img).map (·.color) = (ho (countFreqs img.rgbPixels)).map (·.1) := by
  rw [colorCounts, List.map_map]; rfl

theorem colorCounts_nodup {ho : List (Rgb UInt8 × Nat) → List (Rgb UInt8 × Nat)} (hho : IsOrder ho) (img : Img) :
    ((colorCounts ho img).map (·.color)).Nodup := by
  rw [colorCounts_colors]
  exact ((hho _).map _).nodup_iff.2 (countFreqs_nodup _)

theorem mem_colorCounts {ho : List (Rgb UInt8 × Nat) → List (Rgb UInt8 × Nat)} (hho : IsOrder ho) (img : Img)
    (c : Rgb UInt8) : c ∈ (colorCounts ho img).map (·.color) ↔ c ∈ img.rgbPixels := by
  rw [colorCounts_colors, ((hho _).map _).mem_iff, mem_countFreqs]

/-- The weights are the numbers of pixels, cut to 32 bits. -/
theorem colorCounts_weight {ho : List (Rgb UInt8 × Nat) → List (Rgb UInt8 × Nat)} (hho : IsOrder ho) (img : Img) :
    ∀ p ∈ colorCounts ho img, p.count.toNat = img.rgbPixels.count p.color % 2 ^ 32 := by
  intro p hp
  rw [colorCounts] at hp
  obtain ⟨e, he, rfl⟩ := List.mem_map.1 hp
  have h := countFreqs_count img.rgbPixels e ((hho _).mem_iff.1 he)
  show (UInt32.ofNat e.2).toNat = _
  rw [UInt32.toNat_ofNat', ← h]

/-- There are 2^24 colours. -/
theorem colors_length {l : List (Rgb UInt8)} (hnd : l.Nodup) : l.length ≤ 2 ^ 24 := by
  have := nodup_length_le hnd (l' := (List.range (2 ^ 24)).map fun i =>
    ⟨UInt8.ofNat (i / 65536), UInt8.ofNat (i / 256 % 256), UInt8.ofNat (i % 256)⟩) (by
      intro c _
      have hr := c.r.toNat_lt
      have hg := c.g.toNat_lt
      have hb := c.b.toNat_lt
      rw [List.mem_map]
      refine ⟨c.r.toNat * 65536 + c.g.toNat * 256 + c.b.toNat, List.mem_range.2 (by omega), ?_⟩
      rw [show (c.r.toNat * 65536 + c.g.toNat * 256 + c.b.toNat) / 65536 = c.r.toNat by omega,
        show (c.r.toNat * 65536 + c.g.toNat * 256 + c.b.toNat) / 256 % 256 = c.g.toNat by omega,
        show (c.r.toNat * 65536 + c.g.toNat * 256 + c.b.toNat) % 256 = c.b.toNat by omega]
      cases c
      simp)
  rwa [List.length_map, List.length_range] at this

/-- The weights of distinct colours sum up to less than 2^56. -/
theorem weights_bound {l : List ColorCount} (hnd : (l.map (·.color)).Nodup) :
    (l.map fun p => p.count.toNat).sum < 2 ^ 56 := by
  have h1 := colors_length hnd
  rw [List.length_map] at h1
  have h2 : (l.map fun p => p.count.toNat).sum ≤ l.length * (2 ^ 32 - 1) := by
    clear h1 hnd
    induction l with
    | nil => simp
    | cons p l ih =>
      have := p.count.toNat_lt
      rw [List.map_cons, List.sum_cons, List.length_cons, Nat.succ_mul]
      omega
  have := Nat.mul_le_mul_right (2 ^ 32 - 1) h1
  omega

theorem Spec.CountsFit.of_small {img : Img} (h : img.pixels.length < 2 ^ 32) : CountsFit img := by
  intro c
  have hle := List.count_le_length (a := c) (l := img.rgbPixels)
  have hlen : img.rgbPixels.length = img.pixels.length := by simp [Img.rgbPixels]
  omega

theorem colorCounts_count {ho : List (Rgb UInt8 × Nat) → List (Rgb UInt8 × Nat)} (hho : IsOrder ho) (img : Img)
    (hfit : CountsFit img) :
    ∀ p ∈ colorCounts ho img, p.count.toNat = img.rgbPixels.count p.color := by
  intro p hp
  rw [colorCounts_weight hho img p hp, Nat.mod_eq_of_lt (hfit _)]

theorem colorCounts_pos {ho : List (Rgb UInt8 × Nat) → List (Rgb UInt8 × Nat)} (hho : IsOrder ho) (img : Img)
    (hfit : CountsFit img) : ∀ p ∈ colorCounts ho img, 0 < p.count.toNat := by
  intro p hp
  rw [colorCounts_count hho img hfit p hp]
  exact List.count_pos_iff.2 ((mem_colorCounts hho img _).1 (List.mem_map_of_mem hp))

/-- The weights of some distinct colours of an image, times a value per colour. -/
theorem weights_sum {ho : List (Rgb UInt8 × Nat) → List (Rgb UInt8 × Nat)} (hho : IsOrder ho) (img : Img)
    (hfit : CountsFit img) (f : Rgb UInt8 → Nat) (l : List ColorCount) (hl : ∀ p ∈ l, p ∈ colorCounts ho img)
    (hnd : (l.map (·.color)).Nodup) :
    (l.map fun p => f p.color * p.count.toNat).sum =
      ((img.rgbPixels.filter fun x => decide (x ∈ l.map (·.color))).map f).sum := by
  rw [← sum_count f _ hnd, List.map_map]
  congr 1
  apply List.map_congr_left
  intro p hp
  show _ = f p.color * _
  rw [colorCounts_count hho img hfit p (hl p hp)]

theorem weights_total {ho : List (Rgb UInt8 × Nat) → List (Rgb UInt8 × Nat)} (hho : IsOrder ho) (img : Img)
    (hfit : CountsFit img) (l : List ColorCount) (hl : ∀ p ∈ l, p ∈ colorCounts ho img)
    (hnd : (l.map (·.color)).Nodup) :
    (l.map fun p => p.count.toNat).sum =
      (img.rgbPixels.filter fun x => decide (x ∈ l.map (·.color))).length := by
  have := weights_sum hho img hfit (fun _ => 1) l hl hnd
  simp only [Nat.one_mul] at this
  rw [this]
  generalize (img.rgbPixels.filter fun x => decide (x ∈ l.map (·.color))) = q
  induction q with
  | nil => rfl
  | cons a q ih => rw [List.map_cons, List.sum_cons, ih, List.length_cons]; omega

theorem part_mem {T : Type} {l points : List T} (h : Part l points) : ∀ p ∈ l, p ∈ points := by
  obtain ⟨rest, hp⟩ := h
  intro p hp'
  exact hp.mem_iff.1 (List.mem_append_left _ hp')

theorem part_nodup {T U : Type} {l points : List T} (h : Part l points) {f : T → U} (hnd : (points.map f).Nodup) :
    (l.map f).Nodup := by
  obtain ⟨rest, hp⟩ := h
  have := (hp.map f).nodup_iff.2 hnd
  rw [List.map_append] at this
  exact (List.nodup_append.1 this).1

/-- The mean of some of the distinct colours of an image is the mean of the pixels that have them. -/
theorem mean_pixels (chk : Bool) {ho : List (Rgb UInt8 × Nat) → List (Rgb UInt8 × Nat)} (hho : IsOrder ho) (img : Img)
    (hfit : CountsFit img) (l : List ColorCount) (hl : Part l (colorCounts ho img)) (hne : l ≠ []) :
    ∃ c, ColorCount.mean chk l = .ok c ∧
      c.color = floorMean (img.rgbPixels.filter fun x => decide (x ∈ l.map (·.color))) := by
  have hmem := part_mem hl
  have hnd := part_nodup hl (colorCounts_nodup hho img)
  have htot := weights_total hho img hfit l hmem hnd
  obtain ⟨c, h1, h2⟩ := mean_ok chk l hne (fun p hp => colorCounts_pos hho img hfit p (hmem p hp)) (weights_bound hnd)
  refine ⟨c, h1, ?_⟩
  rw [h2, htot, floorMean]
  rw [weights_sum hho img hfit (fun c => c.r.toNat) l hmem hnd,
    weights_sum hho img hfit (fun c => c.g.toNat) l hmem hnd,
    weights_sum hho img hfit (fun c => c.b.toNat) l hmem hnd]

theorem color_sound (o : Outside) (chk : Bool) (points : List ColorCount) :
    Sound (colorEnv o chk).pt (fun _ => True) points where
  inputs _ _ := trivial
  means _ _ _ _ := trivial
  dist _ _ _ _ := by simp [colorEnv]
  one a _ := by
    show ColorCount.mean chk [a] ≠ .panic
    simp [ColorCount.mean]
  single a := by
    show ColorCount.mean chk [a] ≠ .err ()
    simp [ColorCount.mean]

theorem color_total (o : Outside) (chk : Bool) {ho : List (Rgb UInt8 × Nat) → List (Rgb UInt8 × Nat)}
    (hho : IsOrder ho) (img : Img) (hfit : CountsFit img) :
    Total (colorEnv o chk).pt (fun _ => True) (colorCounts ho img) where
  toSound := color_sound o chk _
  mean l hl := by
    show ColorCount.mean chk l ≠ .panic
    cases l with
    | nil => simp [ColorCount.mean]
    | cons p l =>
      obtain ⟨c, h, -⟩ := mean_pixels chk hho img hfit _ hl (by simp)
      rw [h]; simp

/-! ## Groups of colours -/

/-- In a partition an item is in one part only. -/
theorem flatten_unique {α : Type} {L : List (List α)} (hnd : L.flatten.Nodup) {i j : Nat} {a b : List α} {x : α}
    (hi : L[i]? = some a) (hj : L[j]? = some b) (ha : x ∈ a) (hb : x ∈ b) : i = j := by
  induction L generalizing i j with
  | nil => simp at hi
  | cons c L ih =>
    rw [List.flatten_cons, List.nodup_append] at hnd
    have key : ∀ (k : Nat) d, L[k]? = some d → x ∈ d → x ∉ c := by
      intro k d hk hd hc
      exact hnd.2.2 x hc x (List.mem_flatten.2 ⟨d, List.mem_of_getElem? hk, hd⟩) rfl
    cases i with
    | zero =>
      cases j with
      | zero => rfl
      | succ j =>
        simp only [List.getElem?_cons_zero, Option.some.injEq] at hi
        subst hi
        exact absurd ha (key j b (by simpa using hj) hb)
    | succ i =>
      cases j with
      | zero =>
        simp only [List.getElem?_cons_zero, Option.some.injEq] at hj
        subst hj
        exact absurd hb (key i a (by simpa using hi) ha)
      | succ j =>
        have := ih hnd.2.1 (i := i) (j := j) (by simpa using hi) (by simpa using hj)
        omega

/-- The cluster of a colour. -/
def groupOf (it : List (ColorCount × List ColorCount)) (c : Rgb UInt8) : Nat :=
  it.findIdx fun e => e.2.any fun p => p.color == c

/-- The colour of a cluster. -/
def paletteOf (it : List (ColorCount × List ColorCount)) (i : Nat) : Rgb UInt8 :=
  ((it[i]?).map fun e => e.1.color).getD black

theorem groupOf_spec {it : List (ColorCount × List ColorCount)}
    (hnd : ((it.map (·.2)).flatten.map (·.color)).Nodup) {c : Rgb UInt8}
    (hc : c ∈ (it.map (·.2)).flatten.map (·.color)) :
    ∃ ctr ps, it[groupOf it c]? = some (ctr, ps) ∧ c ∈ ps.map (·.color) ∧ paletteOf it (groupOf it c) = ctr.color ∧
      lastLookup (it.flatMap fun (ctr, pts) => pts.map fun p => (p.color, ctr.color)) c = some ctr.color := by
  obtain ⟨p, hp, rfl⟩ := List.mem_map.1 hc
  obtain ⟨ps0, h0, hp0⟩ := List.mem_flatten.1 hp
  obtain ⟨e0, he0, rfl⟩ := List.mem_map.1 h0
  have hlt : groupOf it p.color < it.length :=
    List.findIdx_lt_length_of_exists ⟨e0, he0, List.any_eq_true.2 ⟨p, hp0, by simp⟩⟩
  have hget : it[groupOf it p.color]? = some it[groupOf it p.color] := List.getElem?_eq_getElem hlt
  have hany : (it[groupOf it p.color].2.any fun q => q.color == p.color) = true := List.findIdx_getElem (w := hlt)
  generalize it[groupOf it p.color] = e at hget hany
  obtain ⟨ctr, ps⟩ := e
  obtain ⟨q, hq, hqc⟩ := List.any_eq_true.1 hany
  have hqc : q.color = p.color := by simpa using hqc
  refine ⟨ctr, ps, hget, List.mem_map.2 ⟨q, hq, hqc⟩, by simp [paletteOf, hget], ?_⟩
  apply lastLookup_of_mem
  · have : (it.flatMap fun (ctr, pts) => pts.map fun p => (p.color, ctr.color)).map (·.1) =
        (it.map (·.2)).flatten.map (·.color) := by
      clear hc hp h0 he0 hlt hget hnd
      induction it with
      | nil => rfl
      | cons e it ih =>
        rw [List.flatMap_cons, List.map_append, ih, List.map_cons, List.flatten_cons, List.map_append, List.map_map]
        rfl
    rw [this]; exact hnd
  · rw [List.mem_flatMap]
    exact ⟨(ctr, ps), List.mem_of_getElem? hget, List.mem_map.2 ⟨q, hq, by rw [hqc]⟩⟩

theorem groupOf_eq {it : List (ColorCount × List ColorCount)}
    (hnd : ((it.map (·.2)).flatten.map (·.color)).Nodup) {c : Rgb UInt8} {i : Nat} {ctr : ColorCount}
    {ps : List ColorCount} (hi : it[i]? = some (ctr, ps)) (hc : c ∈ (it.map (·.2)).flatten.map (·.color)) :
    groupOf it c = i ↔ c ∈ ps.map (·.color) := by
  obtain ⟨ctr', ps', h1, h2, -⟩ := groupOf_spec hnd hc
  constructor
  · intro h
    rw [h, hi] at h1
    cases h1
    exact h2
  · intro h
    have hflat : ((it.map fun e => e.2.map (·.color)).flatten).Nodup := by
      have : (it.map fun e => e.2.map (·.color)) = (it.map (·.2)).map (List.map (·.color)) := by
        rw [List.map_map]; rfl
      rw [this, ← List.map_flatten]; exact hnd
    refine flatten_unique hflat (a := ps'.map (·.color)) (b := ps.map (·.color)) (x := c) ?_ ?_ h2 h
    · rw [List.getElem?_map, h1]; rfl
    · rw [List.getElem?_map, hi]; rfl

end Cniic
