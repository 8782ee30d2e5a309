import Verif.Spec.Passes
import Verif.Spec.Bench
import Verif.Proofs.Shades
import Verif.Proofs.Shortcut

/-! # Proofs: the squared error during clustering -/

namespace Cniic
open Kmeans Spec Spec.Kmeans

/-- What a colour costs. -/
def sqCost (c x : ColorCount) : Nat := x.count.toNat * colorSq x.color c.color

theorem clusterError_bill {cl : Clusters ColorCount} (hl : cl.centroids.length = cl.assignment.length) :
    clusterError cl = bill sqCost cl.centroids cl.assignment := by
  obtain ⟨cs, asg, ns⟩ := cl
  dsimp only at hl
  unfold clusterError bill
  dsimp only
  induction asg generalizing cs with
  | nil => simp
  | cons v asg ih =>
    cases cs with
    | nil => simp at hl
    | cons c cs =>
      rw [List.zip_cons_cons, List.map_cons, List.sum_cons, List.length_cons, Finset.sum_range_succ', ih cs (by simpa using hl), Nat.add_comm]
      rfl

theorem colorSq_comm (a b : Rgb UInt8) : colorSq a b = colorSq b a := by
  unfold colorSq
  rw [gap_comm a.r.toNat, gap_comm a.g.toNat, gap_comm a.b.toNat]

/-- A distance that is smaller as computed is smaller. -/
theorem colorSq_lt {fl : FloatOps} (hfl : fl.Lawful) {a b x : Rgb UInt8} (h : rgbDist fl a x < rgbDist fl b x) :
    colorSq a x < colorSq b x := by
  apply Classical.byContradiction
  intro hn
  rcases Nat.lt_or_ge (colorSq b x) (colorSq a x) with h' | h'
  · have := (rgbDist_close hfl b x).lt (rgbDist_close hfl a x) h'
    exact absurd this (not_lt.2 (le_of_lt h))
  · have e : colorSq b x = colorSq a x := by omega
    rw [rgbDist_eq hfl, rgbDist_eq hfl, e] at h
    exact lt_irrefl _ h

theorem sqCost_nearer {o : Outside} (hfl : o.fl.Lawful) (chk : Bool) {points : List ColorCount}
    (hpos : ∀ p ∈ points, 0 < p.count.toNat) (c t x : ColorCount) (dc dt : Rat) (_ : True) (_ : True) (hx : x ∈ points)
    (h1 : (colorEnv o chk).pt.dist c x = some dc) (h2 : (colorEnv o chk).pt.dist t x = some dt) (hd : dt < dc) :
    sqCost t x < sqCost c x := by
  have e1 : dc = rgbDist o.fl c.color x.color := by simpa [colorEnv, ColorCount.dist] using h1.symm
  have e2 : dt = rgbDist o.fl t.color x.color := by simpa [colorEnv, ColorCount.dist] using h2.symm
  rw [e1, e2] at hd
  unfold sqCost
  rw [colorSq_comm x.color t.color, colorSq_comm x.color c.color]
  exact Nat.mul_lt_mul_of_pos_left (colorSq_lt hfl hd) (hpos x hx)

/-! ## The mean -/

theorem sq_poly {α : Type} (w v : α → Nat) (l : List α) (t : Nat) :
    (((l.map fun x => w x * gap (v x) t ^ 2).sum : Nat) : Int) =
      (l.map fun x => (w x : Int) * (v x) ^ 2).sum - 2 * t * ((l.map fun x => v x * w x).sum : Nat) + t ^ 2 * ((l.map w).sum : Nat) := by
  induction l with
  | nil => simp
  | cons a l ih =>
    have e : ((gap (v a) t : Nat) : Int) ^ 2 = ((v a : Int) - t) ^ 2 := by
      unfold gap
      rcases Nat.le_total (v a) t with h | h
      · rw [Nat.sub_eq_zero_of_le h, Nat.zero_add, Nat.cast_sub h]; ring
      · rw [Nat.sub_eq_zero_of_le h, Nat.add_zero, Nat.cast_sub h]
    simp only [List.map_cons, List.sum_cons, Nat.cast_add, Nat.cast_mul, Nat.cast_pow]
    rw [ih, e]
    ring

/-- The mean rounded down, in place of any other number. -/
theorem floor_sq {α : Type} (w v : α → Nat) (l : List α) (hpos : 0 < (l.map w).sum) (t : Nat) :
    (l.map fun x => w x * gap (v x) ((l.map fun x => v x * w x).sum / (l.map w).sum) ^ 2).sum ≤
      (l.map fun x => w x * gap (v x) t ^ 2).sum + ((l.map w).sum - 2) := by
  have p1 := sq_poly w v l ((l.map fun x => v x * w x).sum / (l.map w).sum)
  have p2 := sq_poly w v l t
  generalize (l.map fun x => (w x : Int) * (v x) ^ 2).sum = Q at p1 p2
  generalize hS : (l.map fun x => v x * w x).sum = S at p1 p2 ⊢
  generalize hW : (l.map w).sum = W at p1 p2 hpos ⊢
  have hdm := Nat.div_add_mod S W
  have hlt := Nat.mod_lt S hpos
  generalize S / W = f at *
  generalize S % W = r at *
  generalize (l.map fun x => w x * gap (v x) f ^ 2).sum = A at *
  generalize (l.map fun x => w x * gap (v x) t ^ 2).sum = B at *
  subst hdm
  push_cast at p1 p2
  have key : (A : Int) - B = 2 * r * ((t : Int) - f) - W * ((t : Int) - f) ^ 2 := by rw [p1, p2]; ring
  generalize hd : (t : Int) - f = d at key
  have hr : (r : Int) < W := by exact_mod_cast hlt
  have hr0 : (0 : Int) ≤ r := Int.natCast_nonneg r
  suffices (A : Int) - B ≤ ((W - 2 : Nat) : Int) by omega
  rw [key]
  rcases Int.lt_or_le 0 d with h | h
  · rcases Int.lt_or_le 1 d with h1 | h1
    · have h2 : 2 * (r : Int) - W * d ≤ 0 := by nlinarith
      have : 2 * r * d - W * d ^ 2 = d * (2 * r - W * d) := by ring
      rw [this]
      have : d * (2 * r - W * d) ≤ 0 := by nlinarith
      omega
    · have : d = 1 := by omega
      subst this
      omega
  · have : 2 * r * d - W * d ^ 2 ≤ 0 := by nlinarith [sq_nonneg d]
    omega

theorem sqCost_sum (l : List ColorCount) (c : Rgb UInt8) :
    (l.map fun x => x.count.toNat * colorSq x.color c).sum =
      (l.map fun x => x.count.toNat * gap x.color.r.toNat c.r.toNat ^ 2).sum +
      (l.map fun x => x.count.toNat * gap x.color.g.toNat c.g.toNat ^ 2).sum +
      (l.map fun x => x.count.toNat * gap x.color.b.toNat c.b.toNat ^ 2).sum := by
  induction l with
  | nil => rfl
  | cons a l ih =>
    simp only [List.map_cons, List.sum_cons, ih]
    unfold colorSq
    ring

theorem mean_small (l : List ColorCount) (f : ColorCount → UInt8) :
    (UInt8.ofNat ((l.map fun p => (f p).toNat * p.count.toNat).sum / (l.map fun p => p.count.toNat).sum)).toNat =
      (l.map fun p => (f p).toNat * p.count.toNat).sum / (l.map fun p => p.count.toNat).sum := by
  rw [UInt8.toNat_ofNat', Nat.mod_eq_of_lt]
  rcases Nat.eq_zero_or_pos (l.map fun p => p.count.toNat).sum with h | h
  · rw [h, Nat.div_zero]; decide
  · rw [Nat.div_lt_iff_lt_mul h]
    have := sum_le_mul (fun p => (f p).toNat * p.count.toNat) (fun p => p.count.toNat) 255 l
      (fun a _ => Nat.mul_le_mul_right _ (by have := (f a).toNat_lt; omega))
    omega

/-- A new centroid makes its cluster worse by less than 3 for each pixel. -/
theorem mean_cost (chk : Bool) {l : List ColorCount} {c : ColorCount} (hpos : ∀ p ∈ l, 0 < p.count.toNat)
    (hlt : (l.map fun p => p.count.toNat).sum < 2 ^ 56) (h : ColorCount.mean chk l = .ok c) (t : ColorCount) :
    (l.map (sqCost c)).sum ≤ (l.map (sqCost t)).sum + 3 * ((l.map fun p => p.count.toNat).sum - 2) := by
  have hne : l ≠ [] := by rintro rfl; cases h
  obtain ⟨c', h1, h2⟩ := mean_ok chk l hne hpos hlt
  rw [h] at h1
  cases h1
  have hw : 0 < (l.map fun p => p.count.toNat).sum := by
    cases l with
    | nil => exact absurd rfl hne
    | cons p l =>
      have := hpos p (by simp)
      rw [List.map_cons, List.sum_cons]
      omega
  unfold sqCost
  rw [sqCost_sum, sqCost_sum, h2]
  dsimp only
  rw [mean_small l fun p => p.color.r, mean_small l fun p => p.color.g, mean_small l fun p => p.color.b]
  have := floor_sq (fun p : ColorCount => p.count.toNat) (fun p => p.color.r.toNat) l hw t.color.r.toNat
  have := floor_sq (fun p : ColorCount => p.count.toNat) (fun p => p.color.g.toNat) l hw t.color.g.toNat
  have := floor_sq (fun p : ColorCount => p.count.toNat) (fun p => p.color.b.toNat) l hw t.color.b.toNat
  omega

theorem excess_sum {α : Type} (w : α → Nat) (asg : List (List α)) :
    ∑ j ∈ Finset.range asg.length, 3 * (((asg[j]?.getD []).map w).sum - 2) ≤ 3 * ((asg.flatten.map w).sum - 2) := by
  induction asg with
  | nil => simp
  | cons v asg ih =>
    rw [List.length_cons, Finset.sum_range_succ', List.flatten_cons, List.map_append, List.sum_append]
    simp only [List.getElem?_cons_succ, List.getElem?_cons_zero, Option.getD_some]
    omega

theorem update_cost {o : Outside} (chk : Bool) {points : List ColorCount} (hpos : ∀ p ∈ points, 0 < p.count.toNat)
    (hlt : (points.map fun p => p.count.toNat).sum < 2 ^ 56) {asg : List (List ColorCount)} {cs cs' : List ColorCount} {fuel k k' : Nat}
    (hlen : cs.length = asg.length) (hp : asg.flatten.Perm points)
    (h : computeCentroids (colorEnv o chk) fuel asg asg k = .ok (cs', k')) :
    bill sqCost cs' asg ≤ bill sqCost cs asg + 3 * ((points.map fun p => p.count.toNat).sum - 2) := by
  obtain ⟨c1, c2⟩ := computeCentroids_ok h
  have hw : (asg.flatten.map fun p => p.count.toNat).sum = (points.map fun p => p.count.toNat).sum := (hp.map _).sum_eq
  rw [← hw]
  refine le_trans ?_ (Nat.add_le_add_left (excess_sum (fun p : ColorCount => p.count.toNat) asg) _)
  unfold bill
  rw [← Finset.sum_add_distrib]
  apply Finset.sum_le_sum
  intro j hj
  have hj := Finset.mem_range.1 hj
  have ha := List.getElem?_eq_getElem hj
  have hc := List.getElem?_eq_getElem (l := cs) (i := j) (by omega)
  have hc' := List.getElem?_eq_getElem (l := cs') (i := j) (by omega)
  rw [ha, Option.getD_some]
  have e1 : price sqCost cs j = sqCost cs[j] := by
    funext x
    simp only [price, hc]
  have e2 : price sqCost cs' j = sqCost cs'[j] := by
    funext x
    simp only [price, hc']
  rw [e1, e2]
  rcases c2 j _ _ hc' ha with h | ⟨h, -⟩
  · have hpart := part_of_mem hp (List.mem_of_getElem? ha)
    exact mean_cost chk (fun p hp => hpos p (part_mem hpart p hp)) (lt_of_le_of_lt (sum_le_of_part hpart _) hlt) h _
  · rw [(color_meanOfSome o chk _).1 h]
    exact Nat.zero_le _

/-! ## The picture -/

theorem zip_flatten {α β : Type} (g : α → β → Nat) : ∀ (it : List (α × List β)) (f : β → Nat),
    (∀ e ∈ it, ∀ p ∈ e.2, f p = g e.1 p) →
    (it.map fun e => (e.2.map (g e.1)).sum).sum = ((it.map (·.2)).flatten.map f).sum
  | [], _, _ => rfl
  | e :: it, f, h => by
    rw [List.map_cons, List.sum_cons, List.map_cons, List.flatten_cons, List.map_append, List.sum_append,
      zip_flatten g it f fun e he => h e (List.mem_cons_of_mem _ he), List.map_congr_left (h e (by simp))]

theorem squaredError_map (f : Rgb UInt8 → Rgb UInt8) (xs : List (Rgb UInt8)) :
    squaredError xs (xs.map f) = (xs.map fun c => colorSq c (f c)).sum := by
  unfold squaredError
  induction xs with
  | nil => rfl
  | cons x xs ih => rw [List.map_cons, List.zip_cons_cons, List.map_cons, List.map_cons, List.sum_cons, List.sum_cons, ih]

/-- The squared error of the picture made from the clusters. -/
theorem clusterError_picture {ho : List (Rgb UInt8 × Nat) → List (Rgb UInt8 × Nat)} (hho : IsOrder ho) {img : Img}
    (hfit : CountsFit img) (ha : Addressable img) {cl : Clusters ColorCount} (hlen : cl.centroids.length = cl.assignment.length)
    (hp : cl.assignment.flatten.Perm (colorCounts ho img)) :
    ∃ red, reducedImg (reducedColors cl) img = some red ∧ squaredError img.rgbPixels red.pixels = clusterError cl := by
  have hsnd : cl.intoIter.map (·.2) = cl.assignment := List.map_snd_zip (by omega)
  have hcols : ((cl.intoIter.map (·.2)).flatten.map (·.color)).Perm ((colorCounts ho img).map (·.color)) := by
    rw [hsnd]; exact hp.map _
  have hnd := hcols.nodup_iff.2 (colorCounts_nodup hho img)
  have hmem : ∀ c, c ∈ (cl.intoIter.map (·.2)).flatten.map (·.color) ↔ c ∈ img.rgbPixels := by
    intro c
    rw [hcols.mem_iff, mem_colorCounts hho]
  have hlook : optMap (lastLookup (reducedColors cl)) img.rgbPixels =
      some (img.rgbPixels.map fun c => paletteOf cl.intoIter (groupOf cl.intoIter c)) := by
    apply optMap_ok
    intro c hc
    obtain ⟨ctr, ps, -, -, e1, e2⟩ := groupOf_spec hnd ((hmem c).2 hc)
    rw [e1]; exact e2
  refine ⟨_, by rw [reducedImg, new_eq img ha]; simp only [Option.bind_eq_bind, Option.bind_some, hlook]; rfl, ?_⟩
  dsimp only
  rw [squaredError_map fun c => paletteOf cl.intoIter (groupOf cl.intoIter c)]
  have hw := weights_sum hho img hfit (fun c => colorSq c (paletteOf cl.intoIter (groupOf cl.intoIter c)))
    (cl.intoIter.map (·.2)).flatten (fun p h => hp.mem_iff.1 (hsnd ▸ h)) hnd
  rw [List.filter_eq_self.2 fun c hc => decide_eq_true ((hmem c).2 hc)] at hw
  rw [← hw]
  refine (zip_flatten (fun (c : ColorCount) (p : ColorCount) => p.count.toNat * colorSq p.color c.color) cl.intoIter _ ?_).symm
  intro e he p hpe
  obtain ⟨i, hi⟩ := List.mem_iff_getElem?.1 he
  have hin : p.color ∈ (cl.intoIter.map (·.2)).flatten.map (·.color) :=
    List.mem_map_of_mem (List.mem_flatten.2 ⟨e.2, List.mem_map_of_mem he, hpe⟩)
  obtain ⟨ctr, ps⟩ := e
  rw [(groupOf_eq hnd hi hin).2 (List.mem_map_of_mem hpe), paletteOf, hi, Nat.mul_comm]
  rfl

end Cniic
