import Verif.Proofs.Prune
import Verif.Proofs.TwoClusters

/-! # Proofs: inputs on which clustering does not end -/

namespace Cniic
open Spec Kmeans Spec.Kmeans

/-! ## Colours -/

/-- The colour `x` is nearer to `t` than to `c`. -/
def nearerColor (t c x : ColorCount) : Bool := decide (colorSq t.color x.color < colorSq c.color x.color)

theorem color_decides {o : Outside} (hfl : o.fl.Lawful) (chk : Bool) :
    Decides (colorEnv o chk) (fun _ => True) (fun a b => a.dist o.fl b) nearerColor := by
  have hp := color_prunable hfl chk
  refine ⟨fun a b _ _ => rfl, fun c t x _ _ _ h => ?_, fun c t x _ _ _ h => ?_, fun c t x _ _ _ => ?_⟩
  · have := hp.near c t t x _ _ _ trivial trivial trivial trivial rfl rfl rfl (le_refl _) h
    have : colorSq c.color x.color ≤ colorSq t.color x.color := by exact_mod_cast this
    simp only [nearerColor, decide_eq_false_iff_not]
    omega
  · have := hp.far c t x _ _ trivial trivial trivial rfl rfl h
    have : colorSq c.color x.color ≤ colorSq t.color x.color := by exact_mod_cast this
    simp only [nearerColor, decide_eq_false_iff_not]
    omega
  · simp only [nearerColor, decide_eq_true_eq]
    have h1 : Close (t.dist o.fl x) _ := rgbDist_close hfl t.color x.color
    have h2 : Close (c.dist o.fl x) _ := rgbDist_close hfl c.color x.color
    constructor
    · exact fun h => h1.lt h2 h
    · intro h
      apply Classical.byContradiction
      intro hn
      rcases Nat.lt_or_ge (colorSq c.color x.color) (colorSq t.color x.color) with h' | h'
      · exact absurd (h2.lt h1 h') (not_lt.2 (le_of_lt h))
      · have e : colorSq c.color x.color = colorSq t.color x.color := by omega
        have : c.dist o.fl x = t.dist o.fl x := by
          show rgbDist _ _ _ = rgbDist _ _ _
          rw [rgbDist_eq hfl, rgbDist_eq hfl, e]
        rw [this] at h
        exact lt_irrefl _ h

/-- The mean colour of the marked ones. -/
def markMean (base : List ColorCount) (bs : List Bool) : Rgb UInt8 :=
  let l := pick base bs
  let n := (l.map fun p => p.count.toNat).sum
  ⟨UInt8.ofNat ((l.map fun p => p.color.r.toNat * p.count.toNat).sum / n),
   UInt8.ofNat ((l.map fun p => p.color.g.toNat * p.count.toNat).sum / n),
   UInt8.ofNat ((l.map fun p => p.color.b.toNat * p.count.toNat).sum / n)⟩

/-- The marks after a step from centroids of the colours `ca` and `cb`. -/
def markStep (base : List ColorCount) (ca cb : Rgb UInt8) (bs : List Bool) : List Bool :=
  remark (fun x => !decide (colorSq cb x.color < colorSq ca x.color))
    (fun x => decide (colorSq ca x.color < colorSq cb x.color)) base bs

/-- Not empty, and with positive counts of a small sum. -/
def fit (l : List ColorCount) : Bool :=
  !l.isEmpty && l.all (fun p => decide (0 < p.count.toNat)) && decide ((l.map fun p => p.count.toNat).sum < 2 ^ 56)

/-- A step from here moves something and leads to one of the marks `L`. -/
def lively (base : List ColorCount) (L : List (List Bool)) (bs : List Bool) (ca cb : Rgb UInt8) : Bool :=
  L.contains (markStep base ca cb bs) && markStep base ca cb bs != bs

theorem mean_marks (chk : Bool) {base l : List ColorCount} {bs : List Bool} (h : l.Perm (pick base bs))
    (hf : fit (pick base bs) = true) : ∃ c, ColorCount.mean chk l = .ok c ∧ c.color = markMean base bs := by
  simp only [fit, Bool.and_eq_true, List.all_eq_true, decide_eq_true_eq, Bool.not_eq_true',
    List.isEmpty_eq_false_iff] at hf
  obtain ⟨⟨h1, h2⟩, h3⟩ := hf
  have hs (f : ColorCount → Nat) : (l.map f).sum = ((pick base bs).map f).sum := (h.map f).sum_eq
  obtain ⟨c, hc, hc'⟩ := mean_ok chk l (fun e => h1 (by rw [e] at h; exact h.symm.eq_nil))
    (fun p hp => h2 p (h.mem_iff.1 hp)) (by rw [hs]; exact h3)
  refine ⟨c, hc, ?_⟩
  rw [hc', hs, hs, hs, hs]
  rfl

/-- The states of an endless run. -/
def Lively (o : Outside) (base : List ColorCount) (L : List (List Bool)) (cl : Clusters ColorCount) : Prop :=
  ∃ a b A B bs, Two (fun a b => a.dist o.fl b) cl a b A B ∧ bs.length = base.length ∧ A.Perm (pick base bs) ∧
    B.Perm (pick base (bs.map (!·))) ∧ lively base L bs a.color b.color = true

theorem lively_step {o : Outside} {chk : Bool} {base : List ColorCount} {L : List (List Bool)} (hfl : o.fl.Lawful)
    (hs : IsSort o.sort) (hlow : 0 < o.lower 2)
    (hL : ∀ bs ∈ L, fit (pick base bs) = true ∧ fit (pick base (bs.map (!·))) = true ∧
      lively base L bs (markMean base bs) (markMean base (bs.map (!·))) = true)
    (fuel : Nat) (cl : Clusters ColorCount) (k : Nat) (h : Lively o base L cl) :
    ∃ cl' k', iteration (colorEnv o chk) (fuel + 1) cl k = .ok (cl', true, k') ∧ Lively o base L cl' := by
  obtain ⟨a, b, A, B, bs, h2, hlen, hA, hB, hl⟩ := h
  simp only [lively, Bool.and_eq_true, List.contains_iff_mem, bne_iff_ne] at hl
  obtain ⟨hmem, hne⟩ := hl
  obtain ⟨f1, f2, f3⟩ := hL _ hmem
  have hA' : (nextA nearerColor a b A B).Perm (pick base (markStep base a.color b.color bs)) :=
    (List.Perm.append (hA.filter _) (hB.filter _)).trans (pick_remark _ _ base bs)
  have hB' : (nextB nearerColor a b A B).Perm (pick base ((markStep base a.color b.color bs).map (!·))) := by
    rw [markStep, remark_not]
    have e : (bs.map (!·)).map (!·) = bs := by
      rw [List.map_map, show ((fun x : Bool => !x) ∘ fun x => !x) = id from by funext b; cases b <;> rfl, List.map_id]
    have := pick_remark (fun x : ColorCount => !decide (colorSq a.color x.color < colorSq b.color x.color))
      (fun x => !!decide (colorSq b.color x.color < colorSq a.color x.color)) base (bs.map (!·))
    rw [e] at this
    refine List.Perm.trans ?_ this
    refine (List.Perm.append (hA.filter _) (hB.filter _)).trans (List.perm_append_comm.trans ?_)
    simp only [Bool.not_not]
    exact List.Perm.refl _
  obtain ⟨a', ma, ca⟩ := mean_marks chk hA' f1
  obtain ⟨b', mb, cb⟩ := mean_marks chk hB' f2
  obtain ⟨cl', h1, h2'⟩ := iteration_two (color_decides hfl chk) hs hlow h2 trivial trivial (fun _ _ => trivial)
    (fun _ _ => trivial) trivial trivial ma mb fuel k
  have hmv : moved nearerColor a b A B = true := by
    apply Classical.byContradiction
    intro hn
    apply hne
    simp only [moved, Bool.or_eq_true, List.any_eq_true, not_or, not_exists, not_and, Bool.not_eq_true] at hn
    apply remark_eq _ _ _ _ hlen
    · intro x hx
      have := hn.1 x (hA.mem_iff.2 hx)
      simpa [nearerColor] using this
    · intro x hx
      have := hn.2 x (hB.mem_iff.2 hx)
      simpa [nearerColor] using this
  rw [hmv] at h1
  exact ⟨cl', k, h1, a', b', _, _, _, h2', by rw [markStep, remark_length _ _ _ _ hlen], hA', hB', by rw [ca, cb]; exact f3⟩

/-- From a given start. -/
theorem color_circles_from {o : Outside} {chk : Bool} {base points : List ColorCount} {L : List (List Bool)}
    (hfl : o.fl.Lawful) (hs : IsSort o.sort) (hlow : 0 < o.lower 2) {a b : ColorCount} {A B : List ColorCount}
    {bs : List Bool} (hA : points.drop (points.length - points.length / 2) = a :: A)
    (hB : points.take (points.length - points.length / 2) = b :: B) (hb1 : bs.length = base.length)
    (hb2 : (a :: A).Perm (pick base bs)) (hb3 : (b :: B).Perm (pick base (bs.map (!·))))
    (hL : ∀ bs ∈ L, fit (pick base bs) = true ∧ fit (pick base (bs.map (!·))) = true ∧
      lively base L bs (markMean base bs) (markMean base (bs.map (!·))) = true)
    (hstart : lively base L bs a.color b.color = true) : Circles (colorEnv o chk) points 2 := by
  refine ⟨init_zero hA hB rfl rfl, Lively o base L, fun fuel => ?_, lively_step hfl hs hlow hL⟩
  obtain ⟨cl, h1, h2'⟩ := init_two (color_decides hfl chk) hs hlow hA hB rfl rfl trivial trivial fuel
  exact ⟨cl, h1, a, b, _, _, bs, h2', hb1, hb2, hb3, hstart⟩

theorem color_circles {o : Outside} {chk : Bool} {base points : List ColorCount} {L : List (List Bool)} (hfl : o.fl.Lawful)
    (hs : IsSort o.sort) (hlow : 0 < o.lower 2) (hp : points.Perm base) (h2 : 2 ≤ base.length)
    (hL : ∀ bs ∈ L, fit (pick base bs) = true ∧ fit (pick base (bs.map (!·))) = true ∧
      lively base L bs (markMean base bs) (markMean base (bs.map (!·))) = true)
    (hstart : ∀ bs ∈ allMarks base.length, (pick base bs).length = base.length / 2 → ∀ a ∈ pick base bs,
      ∀ b ∈ pick base (bs.map (!·)), lively base L bs a.color b.color = true) : Circles (colorEnv o chk) points 2 := by
  have hlen := hp.length_eq
  obtain ⟨a, A, hA⟩ : ∃ a A, points.drop (points.length - points.length / 2) = a :: A := by
    apply List.exists_cons_of_ne_nil
    intro e
    have := congrArg List.length e
    simp at this
    omega
  obtain ⟨b, B, hB⟩ : ∃ b B, points.take (points.length - points.length / 2) = b :: B := by
    apply List.exists_cons_of_ne_nil
    intro e
    have := congrArg List.length e
    simp at this
    omega
  have hsplit : ((a :: A) ++ (b :: B)).Perm base := by
    rw [← hA, ← hB]
    refine List.perm_append_comm.trans ?_
    rw [List.take_append_drop]
    exact hp
  obtain ⟨bs, hb1, hb2, hb3⟩ := exists_marks hsplit
  refine color_circles_from hfl hs hlow hA hB hb1 hb2 hb3 hL ?_
  apply hstart bs (hb1 ▸ mem_allMarks bs)
  · rw [← hb2.length_eq, ← hA, List.length_drop]
    omega
  · exact hb2.mem_iff.1 (by simp)
  · exact hb3.mem_iff.1 (by simp)

/-! ## Pixels -/

/-- A state of a run on pixels: the centroids and the points of the two clusters. -/
abbrev PosState := (ColorPos × ColorPos) × List ColorPos × List ColorPos

/-- The distance computed in IEEE 754 arithmetic without overflow checks. -/
def ieeeDist (a b : ColorPos) : Rat := (ColorPos.dist Ieee.ops false a b).getD 0

/-- The pixel `x` is nearer to `t` than to `c`, as computed. -/
def nearerPos (t c x : ColorPos) : Bool := decide (ieeeDist t x < ieeeDist c x)

/-- For these points the shortcuts keep only points that are not nearer to the other centroid. -/
def faithful (l : List ColorPos) : Bool :=
  l.all fun c => l.all fun t => l.all fun x =>
    decide (Ieee.ops.div (ieeeDist c t) 2 < ieeeDist c x ∨ ieeeDist c x ≤ ieeeDist t x) &&
    decide (ieeeDist c t ≤ Ieee.ops.mul 2 (ieeeDist c x) ∨ ieeeDist c x ≤ ieeeDist t x)

theorem pos_decides {o : Outside} (ho : o.fl = Ieee.ops) {l : List ColorPos} (hl : faithful l = true) :
    Decides (posEnv o false) (· ∈ l) ieeeDist nearerPos := by
  simp only [faithful, List.all_eq_true, Bool.and_eq_true, decide_eq_true_eq] at hl
  have hfl : (posEnv o false).fl = Ieee.ops := ho
  refine ⟨fun a b _ _ => ?_, fun c t x hc ht hx h => ?_, fun c t x hc ht hx h => ?_, fun c t x _ _ _ => by simp [nearerPos]⟩
  · obtain ⟨d, hd⟩ := pos_dist_false (fl := Ieee.ops) a b
    show ColorPos.dist o.fl false a b = _
    rw [ho, ieeeDist, hd]
    rfl
  · rw [hfl] at h
    simp only [nearerPos, decide_eq_false_iff_not, not_lt]
    rcases (hl c hc t ht x hx).1 with h' | h'
    · exact absurd h (not_le.2 h')
    · exact h'
  · rw [hfl] at h
    simp only [nearerPos, decide_eq_false_iff_not, not_lt]
    rcases (hl c hc t ht x hx).2 with h' | h'
    · exact absurd h' (not_le.2 h)
    · exact h'

/-- A step from the state `s` moves something and leads to a state of `S`. -/
def posLively (l : List ColorPos) (S : List PosState) (s : PosState) : Bool :=
  match s with
  | ((a, b), A, B) =>
    match ColorPos.mean false (nextA nearerPos a b A B), ColorPos.mean false (nextB nearerPos a b A B) with
    | .ok a', .ok b' =>
      l.contains a && l.contains b && A.all l.contains && B.all l.contains && moved nearerPos a b A B &&
        S.contains ((a', b'), nextA nearerPos a b A B, nextB nearerPos a b A B)
    | _, _ => false

theorem pos_circles {o : Outside} (ho : o.fl = Ieee.ops) (hs : IsSort o.sort) (hlow : 0 < o.lower 2)
    {l points A B : List ColorPos} {a b a' b' : ColorPos} {S : List PosState} (hl : faithful l = true)
    (hA : points.drop (points.length - points.length / 2) = a :: A)
    (hB : points.take (points.length - points.length / 2) = b :: B) (hma : ColorPos.mean false [a] = .ok a')
    (hmb : ColorPos.mean false [b] = .ok b') (hS : ∀ s ∈ S, posLively l S s = true)
    (h0 : ((a', b'), a :: A, b :: B) ∈ S) : Circles (posEnv o false) points 2 := by
  have hd := pos_decides ho hl
  have hmem : ∀ {a b A B}, ((a, b), A, B) ∈ S → a ∈ l ∧ b ∈ l := by
    intro a b A B h
    have := hS _ h
    simp only [posLively] at this
    split at this
    · simp only [Bool.and_eq_true, List.contains_iff_mem] at this
      exact ⟨this.1.1.1.1.1, this.1.1.1.1.2⟩
    · cases this
  refine ⟨init_zero hA hB hma hmb, fun cl => ∃ a b A B, Two ieeeDist cl a b A B ∧ ((a, b), A, B) ∈ S, fun fuel => ?_,
    fun fuel cl k hq => ?_⟩
  · obtain ⟨cl, h1, h2⟩ := init_two hd hs hlow hA hB hma hmb (hmem h0).1 (hmem h0).2 fuel
    exact ⟨cl, h1, _, _, _, _, h2, h0⟩
  · obtain ⟨a, b, A, B, h2, hin⟩ := hq
    have hv := hS _ hin
    simp only [posLively] at hv
    split at hv
    · rename_i a' b' ma mb
      simp only [Bool.and_eq_true, List.contains_iff_mem, List.all_eq_true] at hv
      obtain ⟨⟨⟨⟨⟨pa, pb⟩, pA⟩, pB⟩, hmv⟩, hnext⟩ := hv
      obtain ⟨cl', h1, h2'⟩ := iteration_two hd hs hlow h2 pa pb pA pB (hmem hnext).1 (hmem hnext).2 ma mb fuel k
      rw [hmv] at h1
      exact ⟨cl', k, h1, _, _, _, _, h2', hnext⟩
    · cases hv

end Cniic
