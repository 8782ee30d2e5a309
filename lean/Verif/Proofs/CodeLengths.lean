import Verif.Proofs.Depth

/-! # Proofs: which symbols get short codes -/

namespace Cniic
open Spec

section
variable {T : Type}

/-- No lengths of a prefix code cost less. -/
def BestLengths (w : T → Nat) (t : BinTrie T) : Prop :=
  ∀ len : T → Nat, Kraft ((symbols t).map len) → icost w t ≤ ((symbols t).map fun s => w s * len s).sum

/-- No tree for the same symbols costs less. -/
def BestTree (w : T → Nat) (t : BinTrie T) : Prop := ∀ t', (symbols t').Perm (symbols t) → icost w t ≤ icost w t'

section
variable [DecidableEq T]

theorem icost_codes {t : BinTrie T} (hnd : (symbols t).Nodup) (w : T → Nat) :
    icost w t = ((symbols t).map fun s => w s * (codeOf t s).length).sum := by
  unfold icost symbols
  rw [List.map_map]
  congr 1
  apply List.map_congr_left
  intro p hp
  show _ = w p.2 * _
  rw [← codeOf_unique hnd (p := p.1) (x := p.2) hp]

theorem codes_lengths {t : BinTrie T} (hnd : (symbols t).Nodup) :
    (symbols t).map (fun s => (codeOf t s).length) = (leaves t).map fun p => p.1.length := by
  unfold symbols
  rw [List.map_map]
  apply List.map_congr_left
  intro p hp
  show (codeOf t p.2).length = _
  rw [← codeOf_unique hnd (p := p.1) (x := p.2) hp]

theorem BestLengths.tree {w : T → Nat} {t : BinTrie T} (hnd : (symbols t).Nodup) (h : BestLengths w t) : BestTree w t := by
  intro t' hp
  have hnd' := hp.nodup_iff.2 hnd
  have := h (fun s => (codeOf t' s).length) (by
    refine Kraft.perm (hp.map _) ?_
    rw [codes_lengths hnd']
    have hL : ∀ l ∈ (leaves t').map (fun p => p.1.length), l ≤ height t' := by
      intro l hl
      obtain ⟨p, hp, rfl⟩ := List.mem_map.1 hl
      exact path_le_height t' p hp
    exact Kraft.of_one hL (Nat.le_of_eq (leaves_kraft t' _ (path_le_height t'))))
  rw [icost_codes hnd' w]
  rwa [← sum_perm (hp.map fun s => w s * (codeOf t' s).length)] at this

end

/-! ## Trees that differ in the order of children only -/

theorem wsum_perm (w : T → Nat) {t t' : BinTrie T} (h : (symbols t).Perm (symbols t')) : wsum w t = wsum w t' := by
  have := sum_perm (h.map w)
  unfold symbols at this
  rw [List.map_map, List.map_map] at this
  exact this

/-- The same symbols at the same cost. -/
def SameCost (w : T → Nat) (t t' : BinTrie T) : Prop := (symbols t).Perm (symbols t') ∧ icost w t = icost w t'

theorem SameCost.refl (w : T → Nat) (t : BinTrie T) : SameCost w t t := ⟨.refl _, rfl⟩

theorem SameCost.best {w : T → Nat} {t t' : BinTrie T} (h : SameCost w t t') (hb : BestTree w t) : BestTree w t' := by
  intro s hs
  rw [← h.2]
  exact hb s (hs.trans h.1.symm)

theorem SameCost.branch {w : T → Nat} {a a' b b' : BinTrie T} (h : SameCost w a a') (h' : SameCost w b b') :
    SameCost w (.branch a b) (.branch a' b') := by
  refine ⟨?_, ?_⟩
  · rw [symbols_branch, symbols_branch]
    exact h.1.append h'.1
  · rw [icost_branch, icost_branch, h.2, h'.2, wsum_perm w h.1, wsum_perm w h'.1]

theorem sameCost_swap (w : T → Nat) (a b : BinTrie T) : SameCost w (.branch a b) (.branch b a) := by
  refine ⟨?_, ?_⟩
  · rw [symbols_branch, symbols_branch]
    exact List.perm_append_comm
  · rw [icost_branch, icost_branch]
    omega

/-- The first step towards a leaf. -/
theorem leaf_step (w : T → Nat) {t : BinTrie T} {c : Bool} {p : List Bool} {x : T} (h : (c :: p, x) ∈ leaves t) :
    ∃ a b, SameCost w t (.branch a b) ∧ (p, x) ∈ leaves a := by
  cases t with
  | leaf v => simp [leaves] at h
  | branch l r =>
    simp only [leaves, List.mem_append, List.mem_map, Prod.mk.injEq, List.cons.injEq] at h
    rcases h with ⟨q, hq, ⟨-, rfl⟩, rfl⟩ | ⟨q, hq, ⟨-, rfl⟩, rfl⟩
    · exact ⟨l, r, .refl _ _, hq⟩
    · exact ⟨r, l, sameCost_swap _ _ _, hq⟩

theorem leaf_here {t : BinTrie T} {x : T} (h : ([], x) ∈ leaves t) : t = .leaf x := by
  cases t with
  | leaf v => simpa [leaves, eq_comm] using h
  | branch l r => simp [leaves] at h

theorem leaf_weight (w : T → Nat) {t : BinTrie T} {p : List Bool} {x : T} (h : (p, x) ∈ leaves t) : w x ≤ wsum w t := by
  unfold wsum
  obtain ⟨l1, l2, e⟩ := List.append_of_mem h
  rw [e, List.map_append, List.sum_append, List.map_cons, List.sum_cons]
  show w x ≤ _ + (w x + _)
  omega

theorem BestTree.left {w : T → Nat} {a b : BinTrie T} (h : BestTree w (.branch a b)) : BestTree w a := by
  intro a' hp
  have := h (.branch a' b) (by rw [symbols_branch, symbols_branch]; exact hp.append_right _)
  rw [icost_branch, icost_branch, wsum_perm w hp] at this
  omega

/-- A node is not heavier than the sibling of its parent. -/
theorem BestTree.uncle {w : T → Nat} {a b c : BinTrie T} (h : BestTree w (.branch (.branch a b) c)) : wsum w a ≤ wsum w c := by
  have := h (.branch (.branch c b) a) (by
    simp only [symbols_branch, List.append_assoc]
    exact ((List.perm_append_comm).append_left _).trans
      (((List.perm_append_comm).trans (by simp only [List.append_assoc]; exact .refl _)))
    )
  simp only [icost_branch, wsum_branch] at this
  omega

/-! ## The bounds -/

/-- A symbol with a long code is rare. -/
theorem BestTree.share {w : T → Nat} {x : T} : ∀ (n : Nat) (p : List Bool) (t : BinTrie T), p.length = n → BestTree w t →
    (∀ s ∈ symbols t, 0 < w s) → (p, x) ∈ leaves t → w x * fib (n + 1) + fib n ≤ wsum w t
  | 0, p, t, hn, _, _, hm => by
    have : p = [] := List.length_eq_zero_iff.1 hn
    subst this
    have := leaf_here hm
    subst this
    simp [wsum, leaves, fib]
  | 1, p, t, hn, _, hpos, hm => by
    match p, hn with
    | [c], _ =>
      obtain ⟨a, b, hal, ha⟩ := leaf_step w hm
      rw [wsum_perm w hal.1, wsum_branch]
      have h1 := leaf_weight w ha
      obtain ⟨q, hq⟩ := List.exists_mem_of_ne_nil _ (leaves_ne_nil b)
      have h2 := leaf_weight w (p := q.1) (x := q.2) hq
      have h3 := hpos q.2 (hal.1.mem_iff.2 (by
        rw [symbols_branch]; exact List.mem_append_right _ (List.mem_map_of_mem hq)))
      simp only [fib]
      omega
  | n + 2, p, t, hn, hb, hpos, hm => by
    match p, hn with
    | c :: d :: q, hn =>
      have hq : q.length = n := by simpa using hn
      obtain ⟨u, v, hal, hu⟩ := leaf_step w hm
      obtain ⟨a, b, hal', ha⟩ := leaf_step w hu
      have hbu := hal.best hb
      have hbb := (hal'.branch (.refl w v)).best hbu
      have hposu : ∀ s ∈ symbols u, 0 < w s := fun s hs => hpos s (hal.1.mem_iff.2 (by
        rw [symbols_branch]; exact List.mem_append_left _ hs))
      have hposa : ∀ s ∈ symbols a, 0 < w s := fun s hs => hposu s (hal'.1.mem_iff.2 (by
        rw [symbols_branch]; exact List.mem_append_left _ hs))
      have h1 := BestTree.share (n + 1) (d :: q) u (by simp [hq]) hbu.left hposu hu
      have h2 := BestTree.share n q a hq hbb.left.left hposa ha
      have h3 := hbb.uncle
      have e1 : fib (n + 1 + 1) = fib n + fib (n + 1) := fib_add_two n
      have e2 : fib (n + 2 + 1) = fib (n + 1) + fib (n + 1 + 1) := fib_add_two (n + 1)
      have e3 : fib (n + 2) = fib n + fib (n + 1) := fib_add_two n
      rw [wsum_perm w hal.1, wsum_branch, e2, e3, Nat.mul_add]
      rw [e1] at h1
      omega

/-- A symbol with a code of one bit has a third of the weight, unless there are only two. -/
theorem BestTree.third {w : T → Nat} {t : BinTrie T} {c : Bool} {x : T} (hb : BestTree w t) (hm : ([c], x) ∈ leaves t)
    (h3 : 3 ≤ (symbols t).length) : wsum w t ≤ 3 * w x := by
  obtain ⟨a, b, hal, ha⟩ := leaf_step w hm
  have := leaf_here ha
  subst this
  have hb' := ((sameCost_swap w _ _).best (hal.best hb))
  rw [wsum_perm w hal.1, wsum_branch]
  have hx : wsum w (.leaf x) = w x := by simp [wsum, leaves]
  cases b with
  | leaf y =>
    have := hal.1.length_eq
    rw [symbols_branch] at this
    simp [symbols, leaves] at this h3
    omega
  | branch l r =>
    have h1 := hb'.uncle
    have h2 := (((sameCost_swap w l r).branch (.refl w _)).best hb').uncle
    rw [wsum_branch]
    omega

/-- The heaviest symbol has a code of at most one bit if it has more than two fifths of the weight. -/
theorem BestTree.two_fifths {w : T → Nat} {t : BinTrie T} {p : List Bool} {x : T} (hnd : (symbols t).Nodup) (hb : BestTree w t)
    (hm : (p, x) ∈ leaves t) (hmax : ∀ y ∈ symbols t, y ≠ x → w y < w x) (h : 2 * wsum w t < 5 * w x) : p.length ≤ 1 := by
  match p with
  | [] => simp
  | [_] => simp
  | c :: d :: q =>
    exfalso
    obtain ⟨u, v, hal, hu⟩ := leaf_step w hm
    obtain ⟨a, b, hal', ha⟩ := leaf_step w hu
    have hbb := (hal'.branch (.refl w v)).best (hal.best hb)
    have hw : wsum w t = wsum w a + wsum w b + wsum w v := by
      rw [wsum_perm w hal.1, wsum_branch, wsum_perm w hal'.1, wsum_branch]
    have hxa := leaf_weight w ha
    have hun := hbb.uncle
    have hnd' := hal.1.nodup_iff.1 hnd
    rw [symbols_branch] at hnd'
    have key : ∀ v1 v2, SameCost w v (.branch v1 v2) → wsum w v2 ≤ wsum w v1 → False := by
      intro v1 v2 hv hle
      have hbv := ((SameCost.refl w (.branch a b)).branch hv).best hbb
      have := hbv (.branch a (.branch v1 (.branch v2 b))) (by
        simp only [symbols_branch, List.append_assoc]
        refine List.Perm.append_left _ ?_
        refine List.Perm.trans ?_ List.perm_append_comm
        rw [List.append_assoc])
      simp only [icost_branch, wsum_branch] at this
      have hv' := wsum_perm w hv.1
      rw [wsum_branch] at hv'
      omega
    cases v with
    | leaf y =>
      have hy : wsum w (.leaf y) = w y := by simp [wsum, leaves]
      have hxu : x ∈ symbols u := List.mem_map_of_mem (f := Prod.snd) hu
      have hne : y ≠ x := by
        rintro rfl
        exact (List.nodup_append.1 hnd').2.2 y hxu y (by simp [symbols, leaves]) rfl
      have := hmax y (hal.1.mem_iff.2 (by rw [symbols_branch]; simp [symbols, leaves])) hne
      omega
    | branch v1 v2 =>
      rcases Nat.le_total (wsum w v2) (wsum w v1) with hle | hle
      · exact key v1 v2 (.refl _ _) hle
      · exact key v2 v1 (sameCost_swap _ _ _) hle

/-- Two leaves next to each other at the bottom. -/
theorem bottom_pair (t : BinTrie T) (h : 0 < height t) :
    ∃ q y z l1 l2, leaves t = l1 ++ (q ++ [false], y) :: (q ++ [true], z) :: l2 ∧ q.length + 1 = height t := by
  induction t with
  | leaf v => simp [height] at h
  | branch l r ihl ihr =>
    by_cases hle : height r ≤ height l
    · by_cases h0 : height l = 0
      · cases l with
        | branch _ _ => simp [height] at h0
        | leaf y =>
          cases r with
          | branch _ _ => simp [height] at hle
          | leaf z => exact ⟨[], y, z, [], [], rfl, rfl⟩
      · obtain ⟨q, y, z, l1, l2, e, hq⟩ := ihl (by omega)
        refine ⟨false :: q, y, z, l1.map fun p => (false :: p.1, p.2),
          l2.map (fun p => (false :: p.1, p.2)) ++ (leaves r).map fun p => (true :: p.1, p.2), ?_, ?_⟩
        · simp [leaves, e]
        · simp only [List.length_cons, height]; omega
    · obtain ⟨q, y, z, l1, l2, e, hq⟩ := ihr (by omega)
      refine ⟨true :: q, y, z, (leaves l).map (fun p => (false :: p.1, p.2)) ++ l1.map fun p => (true :: p.1, p.2),
        l2.map fun p => (true :: p.1, p.2), ?_, ?_⟩
      · simp [leaves, e]
      · simp only [List.length_cons, height]; omega

section
variable [DecidableEq T]

/-- Changing the lengths of some symbols only. -/
theorem relength {S : List T} (w : T → Nat) (len len' : T → Nat) {R A : List T} (hp : S.Perm (A ++ R))
    (heq : ∀ s ∈ R, len' s = len s) : (S.map len').Perm (A.map len' ++ R.map len) ∧
      (S.map fun s => w s * len' s).sum = (A.map fun s => w s * len' s).sum + (R.map fun s => w s * len s).sum := by
  have e : R.map len' = R.map len := List.map_congr_left heq
  have e' : (R.map fun s => w s * len' s) = R.map fun s => w s * len s :=
    List.map_congr_left fun s hs => by rw [heq s hs]
  refine ⟨?_, ?_⟩
  · rw [← e, ← List.map_append]
    exact hp.map _
  · rw [sum_perm (hp.map _), List.map_append, List.sum_append, e']

theorem perm_pair {S : List T} {x y : T} (hx : x ∈ S) (hy : y ∈ S) (hne : x ≠ y) : ∃ R, S.Perm ([x, y] ++ R) := by
  have h1 := List.perm_cons_erase hx
  have h2 : y ∈ S.erase x := (List.mem_erase_of_ne (Ne.symm hne)).2 hy
  exact ⟨(S.erase x).erase y, h1.trans ((List.perm_cons_erase h2).cons x)⟩

theorem perm_triple {S : List T} {x y z : T} (hx : x ∈ S) (hy : y ∈ S) (hz : z ∈ S) (hxy : x ≠ y) (hxz : x ≠ z) (hyz : y ≠ z) :
    ∃ R, S.Perm ([x, y, z] ++ R) := by
  have h1 := List.perm_cons_erase hx
  obtain ⟨R, h2⟩ := perm_pair ((List.mem_erase_of_ne (Ne.symm hxy)).2 hy) ((List.mem_erase_of_ne (Ne.symm hxz)).2 hz) hyz
  exact ⟨R, h1.trans (h2.cons x)⟩

theorem kraft_of_tree {t : BinTrie T} (hnd : (symbols t).Nodup) :
    Kraft ((symbols t).map fun s => (codeOf t s).length) := by
  rw [codes_lengths hnd]
  refine Kraft.of_one (L := height t) ?_ (Nat.le_of_eq (leaves_kraft t _ (path_le_height t)))
  intro l hl
  obtain ⟨p, hp, rfl⟩ := List.mem_map.1 hl
  exact path_le_height t p hp

theorem BestLengths.monotone {w : T → Nat} {t : BinTrie T} (hnd : (symbols t).Nodup) (hb : BestLengths w t) {x y : T}
    (hx : x ∈ symbols t) (hy : y ∈ symbols t) (h : w y < w x) : (codeOf t x).length ≤ (codeOf t y).length := by
  have hne : x ≠ y := by rintro rfl; omega
  obtain ⟨R, hR⟩ := perm_pair hx hy hne
  have hn := hR.nodup_iff.1 hnd
  simp only [List.cons_append, List.nil_append, List.nodup_cons, List.mem_cons, not_or] at hn
  let len : T → Nat := fun s => (codeOf t s).length
  let len' : T → Nat := fun s => if s = x then len y else if s = y then len x else len s
  have hxl : len' x = len y := by simp [len']
  have hyl : len' y = len x := by simp [len', Ne.symm hne]
  have hR' : ∀ s ∈ R, len' s = len s := by
    intro s hs
    have h1 : s ≠ x := by rintro rfl; exact hn.1.2 hs
    have h2 : s ≠ y := by rintro rfl; exact hn.2.1 hs
    simp [len', h1, h2]
  obtain ⟨h1, h2⟩ := relength w len len' hR hR'
  obtain ⟨h3, h4⟩ := relength w len len hR fun _ _ => rfl
  have hk : Kraft ((symbols t).map len') := by
    refine Kraft.perm h1.symm (Kraft.perm ?_ (kraft_of_tree hnd))
    refine h3.trans ?_
    simp only [List.map_cons, List.map_nil, hxl, hyl, List.cons_append, List.nil_append]
    exact .swap _ _ _
  have := hb len' hk
  rw [icost_codes hnd, show ((symbols t).map fun s => w s * (codeOf t s).length) = (symbols t).map fun s => w s * len s from rfl,
    h4, h2] at this
  simp only [List.map_cons, List.map_nil, List.sum_cons, List.sum_nil, hxl, hyl] at this
  show len x ≤ len y
  apply Nat.le_of_not_lt
  intro hlt
  obtain ⟨d, hd⟩ := Nat.exists_eq_add_of_lt hlt
  obtain ⟨e, he⟩ := Nat.exists_eq_add_of_lt h
  rw [hd, he] at this
  have ex : (w y + e + 1) * (len y + d + 1) + (w y * len y + 0) =
      (w y + e + 1) * len y + (w y * (len y + d + 1) + 0) + (e + 1) * (d + 1) := by
    simp only [Nat.add_mul, Nat.mul_add, Nat.one_mul, Nat.mul_one]
    omega
  rw [ex] at this
  have hp : 0 < (e + 1) * (d + 1) := Nat.mul_pos (by omega) (by omega)
  omega

/-- No leaf is two steps above the bottom if no weight reaches the sum of two others. -/
theorem BestLengths.even {w : T → Nat} {t : BinTrie T} (hnd : (symbols t).Nodup) (hb : BestLengths w t)
    (heven : ∀ x ∈ symbols t, ∀ y ∈ symbols t, ∀ z ∈ symbols t, y ≠ z → w x < w y + w z) {x : T} (hx : x ∈ symbols t) :
    height t ≤ (codeOf t x).length + 1 := by
  apply Nat.le_of_not_lt
  intro hlt
  obtain ⟨q, y, z, l1, l2, e, hq⟩ := bottom_pair t (by omega)
  have hmy : (q ++ [false], y) ∈ leaves t := by rw [e]; simp
  have hmz : (q ++ [true], z) ∈ leaves t := by rw [e]; simp
  have hy : y ∈ symbols t := List.mem_map_of_mem (f := Prod.snd) hmy
  have hz : z ∈ symbols t := List.mem_map_of_mem (f := Prod.snd) hmz
  let len : T → Nat := fun s => (codeOf t s).length
  have hly : len y = height t := by
    show (codeOf t y).length = _
    rw [← codeOf_unique hnd hmy]; simpa using hq
  have hlz : len z = height t := by
    show (codeOf t z).length = _
    rw [← codeOf_unique hnd hmz]; simpa using hq
  have hlx : len x + 1 < height t := hlt
  have hxy : x ≠ y := by rintro rfl; omega
  have hxz : x ≠ z := by rintro rfl; omega
  have hyz : y ≠ z := by
    rintro rfl
    have h1 := codeOf_unique hnd hmy
    have h2 := codeOf_unique hnd hmz
    have := h1.trans h2.symm
    simp at this
  obtain ⟨R, hR⟩ := perm_triple hx hy hz hxy hxz hyz
  have hn := hR.nodup_iff.1 hnd
  simp only [List.cons_append, List.nil_append, List.nodup_cons, List.mem_cons, not_or] at hn
  let len' : T → Nat := fun s => if s = x then len x + 1 else if s = y then len y - 1 else if s = z then len x + 1 else len s
  have hx' : len' x = len x + 1 := by simp [len']
  have hy' : len' y = len y - 1 := by simp [len', Ne.symm hxy]
  have hz' : len' z = len x + 1 := by simp [len', Ne.symm hxz, Ne.symm hyz]
  have hR' : ∀ s ∈ R, len' s = len s := by
    intro s hs
    have h1 : s ≠ x := by rintro rfl; exact hn.1.2.2 hs
    have h2 : s ≠ y := by rintro rfl; exact hn.2.1.2 hs
    have h3 : s ≠ z := by rintro rfl; exact hn.2.2.1 hs
    simp [len', h1, h2, h3]
  obtain ⟨h1, h2⟩ := relength w len len' hR hR'
  obtain ⟨h3, h4⟩ := relength w len len hR fun _ _ => rfl
  have hle : ∀ s ∈ symbols t, len s ≤ height t := fun s hs => path_le_height t _ (codeOf_mem hs)
  have hk : Kraft ((symbols t).map len') := by
    refine Kraft.perm h1.symm (Kraft.of_one (L := height t) ?_ ?_)
    · intro l hl
      simp only [List.map_cons, List.map_nil, List.cons_append, List.nil_append, List.mem_cons, hx', hy', hz', hly] at hl
      rcases hl with rfl | rfl | rfl | hl
      · omega
      · omega
      · omega
      · obtain ⟨s, hs, rfl⟩ := List.mem_map.1 hl
        exact hle s (hR.mem_iff.2 (by simp [hs]))
    · have h0 := kraft_of_tree hnd (height t) (by
        intro l hl
        obtain ⟨s, hs, rfl⟩ := List.mem_map.1 hl
        exact hle s hs)
      rw [show ((symbols t).map fun s => (codeOf t s).length) = (symbols t).map len from rfl, kraft_perm h3] at h0
      simp only [List.map_cons, List.map_nil, List.cons_append, List.nil_append, kraft_cons, hx', hy', hz', hly, hlz,
        Nat.sub_self] at h0 ⊢
      have e1 : height t - (height t - 1) = 1 := by omega
      have e2 : 2 ^ (height t - len x) = 2 ^ (height t - (len x + 1)) + 2 ^ (height t - (len x + 1)) := by
        rw [show height t - len x = height t - (len x + 1) + 1 by omega, Nat.pow_succ]
        omega
      rw [e1]
      rw [e2] at h0
      omega
  have := hb len' hk
  rw [icost_codes hnd, show ((symbols t).map fun s => w s * (codeOf t s).length) = (symbols t).map fun s => w s * len s from rfl,
    h4, h2] at this
  simp only [List.map_cons, List.map_nil, List.sum_cons, List.sum_nil, hx', hy', hz', hly, hlz] at this
  obtain ⟨d, hd⟩ := Nat.exists_eq_add_of_lt hlx
  rw [hd] at this
  rw [show len x + 1 + d + 1 - 1 = len x + 1 + d by omega] at this
  simp only [Nat.mul_add, Nat.mul_one] at this
  have := heven x hx y hy z hz hyz
  omega

theorem kraft_between {L : Nat} {ls : List Nat} (h : ∀ l ∈ ls, l ≤ L ∧ L ≤ l + 1) : ls.length ≤ kraft L ls ∧ kraft L ls ≤ 2 * ls.length := by
  induction ls with
  | nil => simp [kraft]
  | cons l ls ih =>
    obtain ⟨i1, i2⟩ := ih fun x hx => h x (by simp [hx])
    have hl := h l (by simp)
    rw [kraft_cons, List.length_cons]
    rcases (show L - l = 0 ∨ L - l = 1 by omega) with e | e <;> rw [e] <;> omega

/-- The lengths are then as equal as they can be. -/
theorem BestLengths.flat {w : T → Nat} {t : BinTrie T} (hnd : (symbols t).Nodup) (hb : BestLengths w t)
    (heven : ∀ x ∈ symbols t, ∀ y ∈ symbols t, ∀ z ∈ symbols t, y ≠ z → w x < w y + w z) {x : T} (hx : x ∈ symbols t) :
    (symbols t).length < 2 ^ ((codeOf t x).length + 1) ∧ 2 ^ (codeOf t x).length < 2 * (symbols t).length := by
  have hall : ∀ s ∈ symbols t, (codeOf t s).length ≤ height t ∧ height t ≤ (codeOf t s).length + 1 := fun s hs =>
    ⟨path_le_height t _ (codeOf_mem hs), hb.even hnd heven hs⟩
  have hkr : kraft (height t) ((symbols t).map fun s => (codeOf t s).length) = 2 ^ height t := by
    rw [codes_lengths hnd]
    exact leaves_kraft t _ (path_le_height t)
  obtain ⟨p, hp, ep⟩ := path_eq_height t
  have hy : p.2 ∈ symbols t := List.mem_map_of_mem (f := Prod.snd) hp
  have ly : (codeOf t p.2).length = height t := by rw [← codeOf_unique hnd (p := p.1) (x := p.2) hp, ep]
  have split : ∀ s ∈ symbols t, 2 ^ height t = 2 ^ (height t - (codeOf t s).length) +
      kraft (height t) (((symbols t).erase s).map fun s => (codeOf t s).length) := fun s hs => by
    rw [← hkr, kraft_perm ((List.perm_cons_erase hs).map _), List.map_cons, kraft_cons]
  have bound : ∀ s ∈ symbols t, (symbols t).length - 1 ≤ kraft (height t) (((symbols t).erase s).map fun s => (codeOf t s).length) ∧
      kraft (height t) (((symbols t).erase s).map fun s => (codeOf t s).length) ≤ 2 * ((symbols t).length - 1) := fun s hs => by
    have := kraft_between (L := height t) (ls := ((symbols t).erase s).map fun s => (codeOf t s).length) (by
      intro l hl
      obtain ⟨r, hr, rfl⟩ := List.mem_map.1 hl
      exact hall r (List.mem_of_mem_erase hr))
    rwa [List.length_map, List.length_erase_of_mem hs] at this
  have hpos : 0 < (symbols t).length := List.length_pos_of_mem hx
  have hup : 2 ^ height t < 2 * (symbols t).length := by
    have h1 := split _ hy
    have h2 := bound _ hy
    rw [ly, Nat.sub_self] at h1
    omega
  have hX := hall x hx
  refine ⟨?_, Nat.lt_of_le_of_lt (Nat.pow_le_pow_right (by omega) hX.1) hup⟩
  have h1 := split _ hx
  have h2 := bound _ hx
  rcases (show height t = (codeOf t x).length ∨ height t = (codeOf t x).length + 1 by omega) with e | e
  · have := Nat.two_pow_pos (height t)
    rw [← e, Nat.pow_succ]
    rw [← e, Nat.sub_self] at h1
    omega
  · have e2 : height t - (codeOf t x).length = 1 := by omega
    rw [e2] at h1
    rw [← e]
    omega

/-! ## The tree built by `build` -/

/-- What `build` returns: a best tree for the items, and the lengths of its codes in the table. -/
theorem build_best (M : MinHeap T) {ho : List (T × Nat) → List (T × Nat)} (hho : IsOrder ho) {items : List T}
    {enc : Enc T} {dec : BinTrie T} (hb : build M (ho (countFreqs items)) = some (enc, dec)) :
    (symbols dec).Nodup ∧ (∀ x, x ∈ symbols dec ↔ x ∈ items) ∧ BestLengths (fun x => items.count x) dec ∧
      wsum (fun x => items.count x) dec = items.length ∧
      ∀ x a, enc.get x = some a → x ∈ symbols dec ∧ a.len = (codeOf dec x).length := by
  have hpk := (hho (countFreqs items)).map (·.1)
  have hne : ho (countFreqs items) ≠ [] := by
    intro h0
    rw [h0] at hb
    have hl := M.contents_fromIter ([] : List (Suffix T))
    have : M.len (M.fromIter ([] : List (Suffix T))) = 0 := by rw [M.len_eq, hl.length_eq]; rfl
    simp [build, buildDec, this] at hb
  obtain ⟨enc', dec', hb', hs, hget, hget', hopt⟩ := build_spec M (ho (countFreqs items)) hne
    (hpk.nodup_iff.2 (countFreqs_nodup items))
  rw [hb] at hb'
  obtain ⟨rfl, rfl⟩ := Prod.mk.inj (Option.some.inj hb')
  have hnd : (symbols dec).Nodup := hs.nodup_iff.2 (hpk.nodup_iff.2 (countFreqs_nodup items))
  have hsum : ∀ g : T → Nat, ((symbols dec).map fun s => items.count s * g s).sum =
      ((ho (countFreqs items)).map fun p => p.2 * g p.1).sum := by
    intro g
    rw [sum_perm (hs.map _), List.map_map]
    congr 1
    apply List.map_congr_left
    intro p hp
    show items.count p.1 * _ = _
    rw [countFreqs_count items p ((hho _).mem_iff.1 hp)]
  refine ⟨hnd, fun x => by rw [hs.mem_iff, hpk.mem_iff, mem_countFreqs], ?_, ?_, ?_⟩
  · intro len hk
    rw [icost_codes hnd, hsum, hsum]
    refine hopt len (Kraft.perm ?_ hk)
    have := hs.map len
    rwa [List.map_map] at this
  · have h1 := hsum fun _ => 1
    rw [sum_perm ((hho _).map _), countFreqs_sum items fun _ => 1] at h1
    unfold symbols at h1
    rw [List.map_map] at h1
    have h0 : ∀ l : List T, (l.map fun _ => 1).sum = l.length := fun l => by
      induction l with
      | nil => rfl
      | cons y l ih => rw [List.map_cons, List.sum_cons, ih, List.length_cons, Nat.add_comm]
    rw [h0] at h1
    rw [← h1]
    unfold wsum
    congr 1
    apply List.map_congr_left
    intro p _
    exact (Nat.mul_one _).symm
  · intro x a ha
    by_cases hx : x ∈ symbols dec
    · refine ⟨hx, ?_⟩
      obtain ⟨a', h1, h2, -⟩ := fromSlice_msb (codeOf dec x)
      rw [hget x hx, h1] at ha
      rw [← Option.some.inj ha, h2]
    · rw [hget' x hx] at ha
      cases ha

end

end
end Cniic
