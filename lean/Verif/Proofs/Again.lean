import Verif.Proofs.Approx

namespace Cniic
open Spec SerSpec

/-- The total of the first `i` numbers. -/
def firstSum (i : Nat) (l : List Nat) : Nat := (l.take i).sum

theorem firstSum_le (i : Nat) (l : List Nat) : firstSum i l ≤ l.sum := by
  unfold firstSum
  conv => rhs; rw [← List.take_append_drop i l, List.sum_append]
  omega

theorem firstSum_succ_cons (i n : Nat) (l : List Nat) : firstSum (i + 1) (n :: l) = n + firstSum i l := by
  simp [firstSum]

theorem firstSum_mono (i : Nat) (l : List Nat) : firstSum i l ≤ firstSum (i + 1) l := by
  induction l generalizing i with
  | nil => simp [firstSum]
  | cons n l ih =>
    cases i with
    | zero => simp [firstSum]
    | succ i =>
      rw [firstSum_succ_cons, firstSum_succ_cons]
      exact Nat.add_le_add_left (ih i) n

/-- Positive numbers are determined by their partial sums. -/
theorem eq_of_firstSum {a b : List Nat} (ha : ∀ n ∈ a, 0 < n) (hb : ∀ n ∈ b, 0 < n)
    (h : ∀ i, i ≤ max a.length b.length → firstSum i a = firstSum i b) : a = b := by
  induction a generalizing b with
  | nil =>
    cases b with
    | nil => rfl
    | cons m b =>
      have := h 1 (by simp)
      have := hb m (by simp)
      simp [firstSum] at *
      omega
  | cons n a ih =>
    cases b with
    | nil =>
      have := h 1 (by simp)
      have := ha n (by simp)
      simp [firstSum] at *
      omega
    | cons m b =>
      have h1 := h 1 (by simp)
      simp only [firstSum, List.take_succ_cons, List.take_zero, List.sum_cons, List.sum_nil, Nat.add_zero] at h1
      subst h1
      congr 1
      apply ih (fun x hx => ha x (by simp [hx])) (fun x hx => hb x (by simp [hx]))
      intro i hi
      have := h (i + 1) (by simp only [List.length_cons]; omega)
      rw [firstSum_succ_cons, firstSum_succ_cons] at this
      omega

/-- What pieces `(n, c)` spell. -/
def spell {T : Type} (ps : List (Nat × T)) : List T := ps.flatMap fun p => List.replicate p.1 p.2

variable {T : Type} {ok : List T → T → Prop}

/-- Greedy groups in what pieces spell stay ahead of the pieces. -/
theorem greedy_ahead (hok : ∀ n c, 0 < n → n < 255 → ok (List.replicate n c) c) (ps : List (Nat × T))
    (hps : ∀ p ∈ ps, p.1 ≤ 255) : ∀ (k : Nat) (gs : List (List T)), Greedy ok ((spell ps).drop k) gs →
      ∀ i, firstSum i (ps.map (·.1)) ≤ k + firstSum i (gs.map (·.length)) := by
  induction ps with
  | nil => intro k gs _ i; simp [firstSum]
  | cons p ps ih =>
    obtain ⟨n, c⟩ := p
    have hn : n ≤ 255 := hps (n, c) (by simp)
    have ih := ih fun p hp => hps p (by simp [hp])
    intro k gs hg i
    cases i with
    | zero => simp [firstSum]
    | succ i =>
      rw [List.map_cons, firstSum_succ_cons]
      by_cases hk : n ≤ k
      · have h1 := ih (k - n) gs (by
          have e : (spell ((n, c) :: ps)).drop k = (spell ps).drop (k - n) := by
            simp only [spell, List.flatMap_cons]
            rw [List.drop_append, List.drop_eq_nil_of_le (by simpa using hk), List.length_replicate, List.nil_append]
          rwa [e] at hg) i
        have := firstSum_mono i (gs.map (·.length))
        simp only at *
        omega
      · have e : (spell ((n, c) :: ps)).drop k = List.replicate (n - k) c ++ spell ps := by
          simp only [spell, List.flatMap_cons]
          rw [List.drop_append_of_le_length (by simp; omega), List.drop_replicate]
        rw [e] at hg
        generalize hys : List.replicate (n - k) c ++ spell ps = ys at hg
        cases hg with
        | nil =>
          have := congrArg List.length hys
          simp at this
          omega
        | @group g rest gs' h1 h2 h3 h4 h5 =>
          have hlen : n - k ≤ g.length := by
            apply Classical.byContradiction
            intro hlt
            have hg0 := List.length_pos_iff.2 h1
            have hgr : g = List.replicate g.length c := by
              have := congrArg (List.take g.length) hys
              rw [List.take_append_of_le_length (by simp; omega), List.take_append_of_le_length (by simp),
                List.take_length, List.take_replicate, Nat.min_eq_left (by omega)] at this
              exact this.symm
            have hr : rest = List.replicate (n - k - g.length) c ++ spell ps := by
              have := congrArg (List.drop g.length) hys
              rw [List.drop_append_of_le_length (by simp; omega), List.drop_append_of_le_length (by simp),
                List.drop_length, List.drop_replicate, List.nil_append] at this
              exact this.symm
            rcases h4 with h4 | h4
            · omega
            · apply h4 c
              · rw [hr, show n - k - g.length = n - k - g.length - 1 + 1 by omega, List.replicate_succ]
                rfl
              · rw [hgr]
                exact hok _ _ hg0 (by omega)
          have hr : rest = (spell ps).drop (g.length - (n - k)) := by
            have := congrArg (List.drop g.length) hys
            rw [List.drop_append, List.drop_eq_nil_of_le (by simp; omega), List.length_replicate, List.nil_append,
              List.drop_append_of_le_length (by simp), List.drop_length, List.nil_append] at this
            exact this.symm
          rw [hr] at h5
          have := ih _ gs' h5 i
          rw [List.map_cons, firstSum_succ_cons]
          simp only at *
          omega

/-- Cutting what pieces spell into groups of the same sizes gives the pieces. -/
theorem groups_of_pieces (ps : List (Nat × T)) (gs : List (List T)) (hl : gs.map (·.length) = ps.map (·.1))
    (hf : gs.flatten = spell ps) : gs = ps.map fun p => List.replicate p.1 p.2 := by
  induction ps generalizing gs with
  | nil => cases gs <;> simp_all
  | cons p ps ih =>
    cases gs with
    | nil => simp at hl
    | cons g gs =>
      simp only [List.map_cons, List.cons.injEq] at hl
      rw [List.flatten_cons, spell, List.flatMap_cons] at hf
      obtain ⟨h1, h2⟩ := List.append_inj hf (by rw [hl.1, List.length_replicate])
      rw [List.map_cons, h1, ih gs hl.2 h2]

/-- A sequence of numbers that never falls and is bounded stands still at some place. -/
theorem stands_still (f : Nat → Nat) (hf : ∀ t, f t ≤ f (t + 1)) {m : Nat} (hm : ∀ t, f t ≤ m) :
    ∃ t, t ≤ m ∧ f t = f (t + 1) := by
  apply Classical.byContradiction
  intro hno
  have : ∀ t, t ≤ m + 1 → t ≤ f t := by
    intro t
    induction t with
    | zero => intro _; omega
    | succ t ih =>
      intro ht
      have h1 := ih (by omega)
      have h2 := hf t
      have h3 : f t ≠ f (t + 1) := fun h => hno ⟨t, by omega, h⟩
      omega
  have h1 := this (m + 1) (by omega)
  have h2 := hm (m + 1)
  omega

/-! ## Averaged pictures -/

/-- The pieces of an averaged picture. -/
def pieces (groups : List (List (Rgb UInt8))) : List (Nat × Rgb UInt8) := groups.map fun g => (g.length, meanColor g)

theorem spell_pieces (groups : List (List (Rgb UInt8))) : spell (pieces groups) = averaged groups := by
  simp [spell, pieces, averaged, List.flatMap_map]

theorem chanSum_replicate (ch : Rgb UInt8 → UInt8) (n : Nat) (c : Rgb UInt8) :
    chanSum ch (List.replicate n c) = n * (ch c).toNat := by
  induction n with
  | zero => simp [chanSum]
  | succ n ih =>
    simp only [chanSum, List.replicate_succ, List.map_cons, List.sum_cons] at *
    rw [ih]; ring

theorem meanColor_replicate {n : Nat} (hn : 0 < n) (c : Rgb UInt8) : meanColor (List.replicate n c) = c := by
  have key : ∀ v : UInt8, UInt8.ofNat (roundedDiv (n * v.toNat) n) = v := by
    intro v
    have : roundedDiv (n * v.toNat) n = v.toNat := by
      unfold roundedDiv
      have e : 2 * (n * v.toNat) + n = n + (2 * n) * v.toNat := by ring
      rw [e, Nat.add_mul_div_left _ _ (by omega), Nat.div_eq_of_lt (by omega)]
      omega
    rw [this]
    simp
  unfold meanColor
  simp only [chanSum_replicate, List.length_replicate, key]

/-- The average of equal colours is at distance zero. -/
theorem joins_same {fl : FloatOps} (hfl : fl.Lawful) {d : F64} (hd : d = .posInf ∨ ∃ q, 0 ≤ q ∧ d = .fin q) {n : Nat}
    (hn : 0 < n) (c : Rgb UInt8) : joins fl d (List.replicate n c) c := by
  rcases hd with rfl | ⟨q, hq, rfl⟩
  · rfl
  · unfold joins
    simp only [F64.ge, decide_eq_true_eq]
    obtain ⟨h0, -, h1⟩ := distF64_bounds hfl ((avgOf (List.replicate n c)).avgF64 fl) (asF64 c)
    have key : ∀ v : UInt8, fl.sub (fl.div (((n * v.toNat : Nat)) : Rat) n) v.toNat = 0 := by
      intro v
      have hv : fl.div (((n * v.toNat : Nat)) : Rat) n = v.toNat := by
        rw [FloatOps.div]
        have hn' : (n : Rat) ≠ 0 := by exact_mod_cast (by omega : n ≠ 0)
        rw [show ((n * v.toNat : Nat) : Rat) / n = (v.toNat : Rat) by push_cast; field_simp]
        exact hfl.rnd_exact _ (representable_nat (by have := v.toNat_lt; omega))
      rw [hv, FloatOps.sub, sub_self]
      exact hfl.rnd_exact _ (by simpa using representable_nat (n := 0) (by omega))
    have hS : distF64 fl ((avgOf (List.replicate n c)).avgF64 fl) (asF64 c) ^ 2 ≤ 0 := by
      refine h1.trans ?_
      simp only [RunningAvg.avgF64, avgOf, asF64, chanSum_replicate, List.length_replicate, key]
      norm_num
    have : distF64 fl ((avgOf (List.replicate n c)).avgF64 fl) (asF64 c) = 0 := by
      have := le_antisymm hS (sq_nonneg _)
      exact pow_eq_zero_iff (two_ne_zero) |>.1 this
    rw [this]
    exact hq

theorem length_le_sum {l : List Nat} (h : ∀ n ∈ l, 0 < n) : l.length ≤ l.sum := by
  induction l with
  | nil => simp
  | cons n l ih =>
    have := h n (by simp)
    have := ih fun x hx => h x (by simp [hx])
    simp only [List.length_cons, List.sum_cons]
    omega

theorem sum_map_le {α : Type} (f g : α → Nat) (l : List α) (h : ∀ x ∈ l, f x ≤ g x) : (l.map f).sum ≤ (l.map g).sum := by
  induction l with
  | nil => simp
  | cons a l ih =>
    have := h a (by simp)
    have := ih fun x hx => h x (by simp [hx])
    simp only [List.map_cons, List.sum_cons]
    omega

theorem eq_of_sum_map {α : Type} (f g : α → Nat) (l : List α) (h : ∀ x ∈ l, f x ≤ g x)
    (he : (l.map f).sum = (l.map g).sum) : ∀ x ∈ l, f x = g x := by
  induction l with
  | nil => simp
  | cons a l ih =>
    have h1 := h a (by simp)
    have h2 := sum_map_le f g l fun x hx => h x (by simp [hx])
    simp only [List.map_cons, List.sum_cons] at he
    intro x hx
    rcases List.mem_cons.1 hx with rfl | hx
    · omega
    · exact ih (fun x hx => h x (by simp [hx])) (by omega) x hx

/-- Averaging again and again comes to an end. -/
theorem averaging_settles {fl : FloatOps} (hfl : fl.Lawful) {d : F64} (hd : d = .posInf ∨ ∃ q, 0 ≤ q ∧ d = .fin q)
    {xs : Nat → List (Rgb UInt8)} {gs : Nat → List (List (Rgb UInt8))} (h : ∀ t, Greedy (joins fl d) (xs t) (gs t))
    (hx : ∀ t, xs (t + 1) = averaged (gs t)) :
    ∃ N, N ≤ (xs 0).length ^ 2 + 1 ∧ ∀ k, N ≤ k → xs k = xs N := by
  let m := (xs 0).length
  let L : Nat → List Nat := fun t => (gs t).map (·.length)
  have hlen : ∀ t, (xs t).length = m := by
    intro t
    induction t with
    | zero => rfl
    | succ t ih => rw [hx, averaged_length, (h t).flatten, ih]
  have hpos : ∀ t, ∀ n ∈ L t, 0 < n := by
    intro t n hn
    obtain ⟨g, hg, rfl⟩ := List.mem_map.1 hn
    exact List.length_pos_iff.2 ((h t).sizes g hg).1
  have hsum : ∀ t, (L t).sum = m := by
    intro t
    rw [← hlen t, ← (h t).flatten, List.length_flatten]
  have hpm : ∀ t, (pieces (gs t)).map (·.1) = L t := by intro t; simp [pieces, L]
  have hahead : ∀ t i, firstSum i (L t) ≤ firstSum i (L (t + 1)) := by
    intro t i
    have h1 := h (t + 1)
    rw [hx, ← spell_pieces] at h1
    have := greedy_ahead (fun n c hn _ => joins_same hfl hd hn c) (pieces (gs t)) (by
      intro p hp
      obtain ⟨g, hg, rfl⟩ := List.mem_map.1 hp
      exact ((h t).sizes g hg).2) 0 _ h1 i
    rw [hpm, Nat.zero_add] at this
    exact this
  obtain ⟨t, htm, ht⟩ := stands_still (fun t => ((List.range m).map fun i => firstSum (i + 1) (L t)).sum)
    (fun t => sum_map_le _ _ _ fun i _ => hahead t (i + 1)) (m := m * m) (by
      intro t
      have := sum_map_le (fun i => firstSum (i + 1) (L t)) (fun _ => m) (List.range m) fun i _ => by
        rw [← hsum t]; exact firstSum_le _ _
      rw [List.map_const', List.sum_replicate_nat, List.length_range] at this
      exact this)
  have hLL : L t = L (t + 1) := by
    apply eq_of_firstSum (hpos t) (hpos (t + 1))
    intro i hi
    have h1 := length_le_sum (hpos t)
    have h2 := length_le_sum (hpos (t + 1))
    rw [hsum] at h1 h2
    cases i with
    | zero => rfl
    | succ i =>
      exact eq_of_sum_map _ _ (List.range m) (fun i _ => hahead t (i + 1)) ht i (List.mem_range.2 (by omega))
  have hstep : xs (t + 2) = xs (t + 1) := by
    have hg : gs (t + 1) = (pieces (gs t)).map fun p => List.replicate p.1 p.2 := by
      apply groups_of_pieces
      · rw [hpm]; exact hLL.symm
      · rw [(h (t + 1)).flatten, hx, spell_pieces]
    rw [hx (t + 1), hx t, hg]
    unfold averaged pieces
    rw [List.map_map, List.flatMap_map, List.flatMap_def, List.flatMap_def]
    congr 1
    apply List.map_congr_left
    intro g hgm
    simp only [Function.comp, List.length_replicate]
    rw [meanColor_replicate (List.length_pos_iff.2 ((h t).sizes g hgm).1)]
  refine ⟨t + 1, by rw [Nat.pow_two]; exact Nat.succ_le_succ htm, ?_⟩
  intro k hk
  obtain ⟨j, rfl⟩ := Nat.exists_eq_add_of_le hk
  induction j with
  | zero => rfl
  | succ j ih =>
    have ih := ih (by omega)
    have e : gs (t + 1 + j) = gs (t + 1) := (h (t + 1 + j)).unique (by rw [ih]; exact h (t + 1))
    rw [show t + 1 + (j + 1) = (t + 1 + j) + 1 by omega, hx, e, ← hx (t + 1), hstep]

/-- Averaging again never takes more groups. -/
theorem averaging_fewer {fl : FloatOps} (hfl : fl.Lawful) {d : F64} (hd : d = .posInf ∨ ∃ q, 0 ≤ q ∧ d = .fin q)
    {xs : List (Rgb UInt8)} {gs gs' : List (List (Rgb UInt8))} (h : Greedy (joins fl d) xs gs)
    (h' : Greedy (joins fl d) (averaged gs) gs') : gs'.length ≤ gs.length := by
  rw [← spell_pieces] at h'
  have h1 := greedy_ahead (fun n c hn _ => joins_same hfl hd hn c) (pieces gs) (by
      intro p hp
      obtain ⟨g, hg, rfl⟩ := List.mem_map.1 hp
      exact (h.sizes g hg).2) 0 _ h' gs.length
  have e1 : firstSum gs.length ((pieces gs).map (·.1)) = xs.length := by
    rw [firstSum, List.take_of_length_le (by simp [pieces]), ← h.flatten, List.length_flatten]
    simp [pieces, Function.comp_def]
  have e2 : (gs'.map (·.length)).sum = xs.length := by
    rw [← List.length_flatten, h'.flatten, spell_pieces, averaged_length, h.flatten]
  rw [e1, Nat.zero_add] at h1
  have h3 : firstSum gs.length (gs'.map (·.length)) + ((gs'.map (·.length)).drop gs.length).sum = xs.length := by
    rw [← e2]
    conv => rhs; rw [← List.take_append_drop gs.length (gs'.map (·.length)), List.sum_append]
    rfl
  have h4 := length_le_sum (l := (gs'.map (·.length)).drop gs.length) (by
    intro n hn
    obtain ⟨g, hg, rfl⟩ := List.mem_map.1 (List.mem_of_mem_drop hn)
    exact List.length_pos_iff.2 (h'.sizes g hg).1)
  rw [List.length_drop, List.length_map] at h4
  omega

end Cniic
