import Verif.Proofs.HufTrie

/-!
# Kraft sums, the exchange argument, and the tree built by `build`
-/

namespace Cniic
open Spec

/-! ## Sums over lists -/

theorem sum_perm {l l' : List Nat} (h : l.Perm l') : l.sum = l'.sum := by
  induction h with
  | nil => rfl
  | cons x _ ih => simp [ih]
  | swap x y l => simp; omega
  | trans _ _ ih1 ih2 => exact ih1.trans ih2

theorem kraft_perm {L : Nat} {l l' : List Nat} (h : l.Perm l') : kraft L l = kraft L l' :=
  sum_perm (h.map _)

theorem kraft_cons (L l : Nat) (ls : List Nat) : kraft L (l :: ls) = 2 ^ (L - l) + kraft L ls := by
  simp [kraft]

theorem kraft_append (L : Nat) (a b : List Nat) : kraft L (a ++ b) = kraft L a + kraft L b := by
  simp [kraft]

theorem kraft_scale {L : Nat} {ls : List Nat} (h : ∀ l ∈ ls, l ≤ L) (d : Nat) :
    kraft (L + d) ls = 2 ^ d * kraft L ls := by
  induction ls with
  | nil => simp [kraft]
  | cons l ls ih =>
    have hl := h l (by simp)
    rw [kraft_cons, kraft_cons, ih fun x hx => h x (by simp [hx]), Nat.mul_add, ← Nat.pow_add]
    congr 2; omega

/-- Kraft's inequality, independent of the scale. -/
def Kraft (lens : List Nat) : Prop := ∀ L, (∀ l ∈ lens, l ≤ L) → kraft L lens ≤ 2 ^ L

theorem Kraft.of_one {lens : List Nat} {L : Nat} (hL : ∀ l ∈ lens, l ≤ L)
    (h : kraft L lens ≤ 2 ^ L) : Kraft lens := by
  intro L' hL'
  rcases Nat.le_total L L' with hle | hle
  · obtain ⟨d, rfl⟩ := Nat.exists_eq_add_of_le hle
    rw [kraft_scale hL, Nat.pow_add, Nat.mul_comm]
    exact Nat.mul_le_mul_right _ h
  · obtain ⟨d, rfl⟩ := Nat.exists_eq_add_of_le hle
    rw [kraft_scale hL', Nat.pow_add, Nat.mul_comm] at h
    exact Nat.le_of_mul_le_mul_right h (Nat.two_pow_pos d)

theorem Kraft.perm {l l' : List Nat} (h : l.Perm l') (hk : Kraft l) : Kraft l' := by
  intro L hL
  rw [← kraft_perm h]
  exact hk L fun x hx => hL x (h.mem_iff.1 hx)

/-- Kraft's inequality for prefix codes. -/
theorem kraft_of_prefix_free (L : Nat) (cs : List (List Bool))
    (hp : cs.Pairwise fun a b => ¬ a <+: b ∧ ¬ b <+: a) (hL : ∀ c ∈ cs, c.length ≤ L) :
    kraft L (cs.map List.length) ≤ 2 ^ L := by
  have single : ∀ L : Nat, ∀ cs : List (List Bool),
      cs.Pairwise (fun a b => ¬ a <+: b ∧ ¬ b <+: a) → [] ∈ cs → cs = [[]] := by
    intro L cs hp hn
    cases cs with
    | nil => simp at hn
    | cons c cs =>
      rw [List.pairwise_cons] at hp
      cases cs with
      | nil => simp at hn; simp [hn]
      | cons d cs =>
        exfalso
        rcases List.mem_cons.1 hn with h | h
        · subst h; exact (hp.1 d (by simp)).1 List.nil_prefix
        · exact (hp.1 [] h).2 List.nil_prefix
  induction L generalizing cs with
  | zero =>
    cases cs with
    | nil => simp [kraft]
    | cons c cs' =>
      have : c = [] := List.length_eq_zero_iff.1 (by have := hL c (by simp); omega)
      subst this
      rw [single 0 _ hp (by simp)]; simp [kraft]
  | succ L ih =>
    by_cases hn : [] ∈ cs
    · rw [single 0 _ hp hn]; simp [kraft]
    · let f : Bool → List Bool → Option (List Bool) := fun b c =>
        match c with
        | [] => none
        | x :: t => if x = b then some t else none
      have hf : ∀ {b c t}, f b c = some t → c = b :: t := by
        intro b c t h
        cases c with
        | nil => simp [f] at h
        | cons x xs =>
          simp only [f] at h
          split at h
          · rename_i hx; simp at h; simp [hx, h]
          · cases h
      have hsub : ∀ b, kraft L ((cs.filterMap (f b)).map List.length) ≤ 2 ^ L := by
        intro b
        apply ih
        · rw [List.pairwise_filterMap]
          refine hp.imp ?_
          intro a a' haa t ht t' ht'
          rw [hf ht, hf ht'] at haa
          simpa using haa
        · intro c hc
          obtain ⟨a, ha, hfa⟩ := List.mem_filterMap.1 hc
          have := hL a ha
          rw [hf hfa] at this
          simpa using this
      have hsplit : ∀ cs : List (List Bool), [] ∉ cs →
          kraft (L + 1) (cs.map List.length) =
            kraft L ((cs.filterMap (f false)).map List.length) +
            kraft L ((cs.filterMap (f true)).map List.length) := by
        intro cs hn
        induction cs with
        | nil => simp [kraft]
        | cons c cs ihc =>
          have hn' : [] ∉ cs := fun h => hn (by simp [h])
          cases c with
          | nil => simp at hn
          | cons x t =>
            cases x <;> simp [f, kraft_cons, ihc hn'] <;> omega
      rw [hsplit cs hn, Nat.pow_succ]
      have := hsub false
      have := hsub true
      omega

theorem Kraft.of_prefixFree {T : Type} {S : List T} {code : T → List Bool} (hnd : S.Nodup)
    (h : PrefixFree S code) : Kraft (S.map fun x => (code x).length) := by
  intro L hL
  have := kraft_of_prefix_free L (S.map code) (by
    rw [List.pairwise_map]
    refine hnd.imp_of_mem ?_
    intro a b ha hb hab
    exact ⟨fun hp => hab (h a ha b hb hp), fun hp => hab (h b hb a ha hp).symm⟩) (by
    intro c hc
    obtain ⟨x, hx, rfl⟩ := List.mem_map.1 hc
    exact hL _ (List.mem_map.2 ⟨x, hx, rfl⟩))
  simpa [List.map_map, Function.comp_def] using this

/-! ## The exchange argument -/

/-- Total cost of a list of (weight, length) pairs. -/
def cost (P : List (Nat × Nat)) : Nat := (P.map fun p => p.1 * p.2).sum

theorem cost_perm {P Q : List (Nat × Nat)} (h : P.Perm Q) : cost P = cost Q := sum_perm (h.map _)

theorem cost_cons (w l : Nat) (P : List (Nat × Nat)) : cost ((w, l) :: P) = w * l + cost P := by
  simp [cost]

theorem perm_cons_of_mem_fst {P : List (Nat × Nat)} {w : Nat} (h : w ∈ P.map (·.1)) :
    ∃ l Q, P.Perm ((w, l) :: Q) := by
  obtain ⟨⟨w', l⟩, hm, rfl⟩ := List.mem_map.1 h
  exact ⟨l, _, List.perm_cons_erase hm⟩

theorem perm_cons_of_mem_snd {P : List (Nat × Nat)} {l : Nat} (h : l ∈ P.map (·.2)) :
    ∃ w Q, P.Perm ((w, l) :: Q) := by
  obtain ⟨⟨w, l'⟩, hm, rfl⟩ := List.mem_map.1 h
  exact ⟨w, _, List.perm_cons_erase hm⟩

/-- A minimal weight can be given a maximal length without increasing the cost. -/
theorem swap_min {Q : List (Nat × Nat)} {m L : Nat} (hm : m ∈ Q.map (·.1))
    (hmin : ∀ p ∈ Q, m ≤ p.1) (hL : L ∈ Q.map (·.2)) (hmax : ∀ p ∈ Q, p.2 ≤ L) :
    ∃ R, (((m, L) :: R).map (·.1)).Perm (Q.map (·.1)) ∧
      (((m, L) :: R).map (·.2)).Perm (Q.map (·.2)) ∧ cost ((m, L) :: R) ≤ cost Q := by
  obtain ⟨l, Q1, h1⟩ := perm_cons_of_mem_fst hm
  by_cases hl : l = L
  · subst hl
    exact ⟨Q1, (h1.map _).symm, (h1.map _).symm, by rw [cost_perm h1]; exact Nat.le_refl _⟩
  · have hL1 : L ∈ Q1.map (·.2) := by
      have := (h1.map (·.2)).mem_iff.1 hL
      simp only [List.map_cons, List.mem_cons] at this
      rcases this with h | h
      · exact absurd h.symm hl
      · exact h
    obtain ⟨x, Q2, h2⟩ := perm_cons_of_mem_snd hL1
    have h12 : Q.Perm ((m, l) :: (x, L) :: Q2) := h1.trans (h2.cons _)
    refine ⟨(x, l) :: Q2, ?_, ?_, ?_⟩
    · have := (h12.map (·.1)).symm
      simpa using this
    · have := (h12.map (·.2)).symm
      refine List.Perm.trans ?_ this
      simp only [List.map_cons]
      exact List.Perm.swap _ _ _
    · rw [cost_perm h12, cost_cons, cost_cons, cost_cons, cost_cons]
      have hx : m ≤ x := hmin (x, L) (h12.mem_iff.2 (by simp))
      have hlL : l ≤ L := hmax (m, l) (h12.mem_iff.2 (by simp))
      obtain ⟨d, rfl⟩ := Nat.exists_eq_add_of_le hx
      obtain ⟨e, rfl⟩ := Nat.exists_eq_add_of_le hlL
      simp only [Nat.add_mul, Nat.mul_add]
      omega

theorem exists_max {ls : List Nat} (h : ls ≠ []) : ∃ L ∈ ls, ∀ l ∈ ls, l ≤ L := by
  induction ls with
  | nil => simp at h
  | cons x xs ih =>
    cases xs with
    | nil => exact ⟨x, by simp, by simp⟩
    | cons y ys =>
      obtain ⟨L, hL, hmax⟩ := ih (by simp)
      rcases Nat.le_total x L with hx | hx
      · refine ⟨L, List.mem_cons_of_mem _ hL, fun l hl => ?_⟩
        rcases List.mem_cons.1 hl with rfl | hl
        · exact hx
        · exact hmax l hl
      · refine ⟨x, by simp, fun l hl => ?_⟩
        rcases List.mem_cons.1 hl with rfl | hl
        · exact Nat.le_refl _
        · exact Nat.le_trans (hmax l hl) hx

/-- One step of Huffman's algorithm: the two smallest weights can be merged. -/
theorem merge_min (n : Nat) (P : List (Nat × Nat)) (hn : (P.map (·.2)).sum ≤ n) (a b : Nat)
    (ws : List Nat) (hw : (P.map (·.1)).Perm (a :: b :: ws)) (ha : a ≤ b) (ha' : ∀ w ∈ ws, a ≤ w)
    (hb : ∀ w ∈ ws, b ≤ w) (hk : Kraft (P.map (·.2))) :
    ∃ P', (P'.map (·.1)).Perm ((a + b) :: ws) ∧ Kraft (P'.map (·.2)) ∧
      cost P' + (a + b) ≤ cost P := by
  induction n generalizing P with
  | zero =>
    -- all lengths are 0 but there are at least two of them
    exfalso
    have hlen := hw.length_eq
    have h0 : ∀ l ∈ P.map (·.2), l ≤ 0 := by
      intro l hl
      obtain ⟨as, bs, hsplit⟩ := List.append_of_mem hl
      rw [hsplit] at hn
      simp only [List.sum_append, List.sum_cons] at hn
      omega
    have hk0 := hk 0 h0
    have hall : ∀ ls : List Nat, kraft 0 ls = ls.length := by
      intro ls
      induction ls with
      | nil => rfl
      | cons x xs ih => rw [kraft_cons, ih]; simp; omega
    rw [hall] at hk0
    simp at hlen hk0
    omega
  | succ n ih =>
    have hPne : P.map (·.2) ≠ [] := by
      intro h
      have hlen := hw.length_eq
      have := congrArg List.length h
      simp at hlen this
      simp [this] at hlen
    obtain ⟨L, hLmem, hLmax⟩ := exists_max hPne
    obtain ⟨x, Q, hPQ⟩ := perm_cons_of_mem_snd hLmem
    have hmaxP : ∀ p ∈ P, p.2 ≤ L := fun p hp => hLmax _ (List.mem_map.2 ⟨p, hp, rfl⟩)
    by_cases hLQ : L ∈ Q.map (·.2)
    · -- at least two maximal lengths: exchange twice, then merge
      have haP : a ∈ P.map (·.1) := hw.mem_iff.2 (by simp)
      have hminP : ∀ p ∈ P, a ≤ p.1 := by
        intro p hp
        have := hw.mem_iff.1 (List.mem_map.2 ⟨p, hp, rfl⟩)
        simp only [List.mem_cons] at this
        rcases this with h | h | h
        · omega
        · omega
        · exact ha' _ h
      obtain ⟨R, hR1, hR2, hRc⟩ := swap_min haP hminP hLmem hmaxP
      have hRw : (R.map (·.1)).Perm (b :: ws) := by
        have := hR1.trans hw
        simp only [List.map_cons] at this
        exact (List.perm_cons _).1 this
      have hRl : (R.map (·.2)).Perm (Q.map (·.2)) := by
        have := hR2.trans (hPQ.map (·.2))
        simp only [List.map_cons] at this
        exact (List.perm_cons _).1 this
      have hminR : ∀ p ∈ R, b ≤ p.1 := by
        intro p hp
        have := hRw.mem_iff.1 (List.mem_map.2 ⟨p, hp, rfl⟩)
        simp only [List.mem_cons] at this
        rcases this with h | h
        · omega
        · exact hb _ h
      have hmaxR : ∀ p ∈ R, p.2 ≤ L := by
        intro p hp
        have h1 := hRl.mem_iff.1 (List.mem_map.2 ⟨p, hp, rfl⟩)
        obtain ⟨q, hq, hqe⟩ := List.mem_map.1 h1
        rw [← hqe]
        exact hmaxP q (hPQ.mem_iff.2 (by simp [hq]))
      obtain ⟨S, hS1, hS2, hSc⟩ := swap_min (hRw.mem_iff.2 (by simp)) hminR
        (hRl.mem_iff.2 hLQ) hmaxR
      have hSw : (S.map (·.1)).Perm ws := by
        have := hS1.trans hRw
        simp only [List.map_cons] at this
        exact (List.perm_cons _).1 this
      have hlens : (P.map (·.2)).Perm (L :: L :: S.map (·.2)) := by
        refine hR2.symm.trans ?_
        simp only [List.map_cons]
        refine List.Perm.cons _ ?_
        exact hS2.symm
      have hLpos : 1 ≤ L := by
        rcases Nat.eq_zero_or_pos L with h0 | h0
        · exfalso
          subst h0
          have := (hk.perm hlens) 0 (fun l hl => by
            have := hlens.mem_iff.2 hl
            exact hLmax l this)
          simp [kraft_cons] at this
          omega
        · exact h0
      refine ⟨(a + b, L - 1) :: S, ?_, ?_, ?_⟩
      · simp only [List.map_cons]; exact hSw.cons _
      · have hSmax : ∀ l ∈ S.map (·.2), l ≤ L := fun l hl =>
          hLmax l (hlens.mem_iff.2 (by simp [hl]))
        apply Kraft.of_one (L := L)
        · intro l hl
          simp only [List.map_cons, List.mem_cons] at hl
          rcases hl with rfl | hl
          · omega
          · exact hSmax l hl
        · have := (hk.perm hlens) L (fun l hl => hLmax l (hlens.mem_iff.2 hl))
          simp only [List.map_cons, kraft_cons] at this ⊢
          have h1 : L - (L - 1) = 1 := by omega
          rw [h1]; simp at this; omega
      · rw [cost_cons] at hRc hSc ⊢
        obtain ⟨K, rfl⟩ : ∃ K, L = K + 1 := ⟨L - 1, by omega⟩
        simp only [Nat.add_sub_cancel, Nat.mul_add, Nat.add_mul, Nat.mul_one] at *
        omega
    · -- a single maximal length can be shortened
      have hQlt : ∀ l ∈ Q.map (·.2), l < L := by
        intro l hl
        obtain ⟨q, hq, rfl⟩ := List.mem_map.1 hl
        have h1 := hmaxP q (hPQ.mem_iff.2 (by simp [hq]))
        have h2 : q.2 ≠ L := fun h => hLQ (List.mem_map.2 ⟨q, hq, h⟩)
        omega
      have hlens := hPQ.map (·.2)
      simp only [List.map_cons] at hlens
      have hQne : Q ≠ [] := by
        rintro rfl
        have h1 := hw.length_eq
        have h2 := hPQ.length_eq
        simp at h1 h2; omega
      have hLpos : 1 ≤ L := by
        cases Q with
        | nil => exact absurd rfl hQne
        | cons q Q => have := hQlt q.2 (by simp); omega
      have hkL := (hk.perm hlens) L (fun l hl => hLmax l (hlens.mem_iff.2 hl))
      have heven : ∀ ls : List Nat, (∀ l ∈ ls, l < L) → kraft L ls % 2 = 0 := by
        intro ls hls
        induction ls with
        | nil => simp [kraft]
        | cons y ys ihy =>
          rw [kraft_cons, Nat.add_mod, ihy fun l hl => hls l (by simp [hl])]
          have : y < L := hls y (by simp)
          obtain ⟨d, hd⟩ : ∃ d, L - y = d + 1 := ⟨L - y - 1, by omega⟩
          rw [hd, Nat.pow_succ]; omega
      have hev := heven _ hQlt
      have hpow : 2 ^ L % 2 = 0 := by
        obtain ⟨d, rfl⟩ : ∃ d, L = d + 1 := ⟨L - 1, by omega⟩
        rw [Nat.pow_succ]; omega
      rw [kraft_cons, Nat.sub_self] at hkL
      obtain ⟨P', h1, h2, h3⟩ := ih ((x, L - 1) :: Q) (by
          have := sum_perm hlens
          simp only [List.map_cons, List.sum_cons] at this ⊢
          omega)
        (by
          have := (hPQ.map (·.1)).symm.trans hw
          simpa using this)
        (by
          apply Kraft.of_one (L := L)
          · intro l hl
            simp only [List.map_cons, List.mem_cons] at hl
            rcases hl with rfl | hl
            · omega
            · exact Nat.le_of_lt (hQlt l hl)
          · simp only [List.map_cons, kraft_cons]
            have h1 : L - (L - 1) = 1 := by omega
            rw [h1]; omega)
      refine ⟨P', h1, h2, ?_⟩
      rw [cost_perm hPQ, cost_cons]
      rw [cost_cons] at h3
      have : x * (L - 1) ≤ x * L := Nat.mul_le_mul_left _ (by omega)
      omega

/-! ## The tree built by the loop -/

section
variable {T : Type}

/-- Total weight of the leaves. -/
def wsum (w : T → Nat) (t : BinTrie T) : Nat := ((leaves t).map fun p => w p.2).sum

/-- Total weighted depth of the leaves. -/
def icost (w : T → Nat) (t : BinTrie T) : Nat := ((leaves t).map fun p => w p.2 * p.1.length).sum

theorem wsum_branch (w : T → Nat) (l r : BinTrie T) : wsum w (.branch l r) = wsum w l + wsum w r := by
  simp [wsum, leaves, Function.comp_def]

theorem sum_map_add {α : Type} (l : List α) (f g : α → Nat) :
    (l.map fun x => f x + g x).sum = (l.map f).sum + (l.map g).sum := by
  induction l with
  | nil => rfl
  | cons x xs ih => simp only [List.map_cons, List.sum_cons, ih]; omega

theorem icost_branch (w : T → Nat) (l r : BinTrie T) :
    icost w (.branch l r) = icost w l + icost w r + (wsum w l + wsum w r) := by
  simp only [icost, wsum, leaves, List.map_append, List.map_map, List.sum_append,
    Function.comp_def, List.length_cons, Nat.mul_add, Nat.mul_one, sum_map_add]
  omega

/-- The symbols at the leaves. -/
def symbols (t : BinTrie T) : List T := (leaves t).map (·.2)

theorem symbols_branch (l r : BinTrie T) : symbols (.branch l r) = symbols l ++ symbols r := by
  simp [symbols, leaves, Function.comp_def]

theorem flatMap_perm {α β : Type} {l l' : List α} (h : l.Perm l') (f : α → List β) :
    (l.flatMap f).Perm (l'.flatMap f) := by
  induction h with
  | nil => exact .refl _
  | cons x _ ih => simp only [List.flatMap_cons]; exact (List.Perm.refl _).append ih
  | swap x y l =>
    simp only [List.flatMap_cons, ← List.append_assoc]
    exact List.perm_append_comm.append_right _
  | trans _ _ ih1 ih2 => exact ih1.trans ih2

theorem buildLoop_spec (M : MinHeap T) (w : T → Nat) (n : Nat) (h : M.H)
    (hn : (M.contents h).length ≤ n) (hne : M.contents h ≠ [])
    (hw : ∀ s ∈ M.contents h, s.freq = wsum w s.tree) :
    ∃ t, buildLoop M h = some t ∧
      (symbols t).Perm ((M.contents h).flatMap fun s => symbols s.tree) ∧
      ∀ P : List (Nat × Nat), (P.map (·.1)).Perm ((M.contents h).map (·.freq)) →
        Kraft (P.map (·.2)) →
        icost w t ≤ ((M.contents h).map fun s => icost w s.tree).sum + cost P := by
  induction n generalizing h with
  | zero => exact absurd (List.length_eq_zero_iff.1 (by omega)) hne
  | succ n ih =>
    rw [buildLoop]
    by_cases hlen : M.len h > 1
    · rw [if_pos hlen]
      rw [M.len_eq] at hlen
      split
      · rename_i hl
        have := M.pop_none _ hl; simp [this] at hlen
      · rename_i left h1 hl
        obtain ⟨p1, m1⟩ := M.pop_some _ _ _ hl
        have l1 := p1.length_eq
        simp only [List.length_cons] at l1
        split
        · rename_i hr
          have := M.pop_none _ hr
          simp only [this, List.length_nil] at l1; omega
        · rename_i right h2 hr
          obtain ⟨p2, m2⟩ := M.pop_some _ _ _ hr
          have l2 := p2.length_eq
          simp only [List.length_cons] at l2
          let new : Suffix T := { freq := left.freq + right.freq
                                  tree := .branch left.tree right.tree }
          have p3 : (M.contents (M.push h2 new)).Perm (new :: M.contents h2) :=
            M.contents_push h2 new
          have l3 := p3.length_eq
          simp only [List.length_cons] at l3
          have p12 : (M.contents h).Perm (left :: right :: M.contents h2) :=
            p1.trans (p2.cons _)
          have hwl : left.freq = wsum w left.tree := hw left (p12.mem_iff.2 (by simp))
          have hwr : right.freq = wsum w right.tree := hw right (p12.mem_iff.2 (by simp))
          obtain ⟨t, ht, hs, hopt⟩ := ih (M.push h2 new) (by omega)
            (by intro hcon; simp [hcon] at l3)
            (by
              intro s hs
              have := p3.mem_iff.1 hs
              rcases List.mem_cons.1 this with rfl | hs'
              · simp only [new, wsum_branch, hwl, hwr]
              · exact hw s (p12.mem_iff.2 (by simp [hs'])))
          refine ⟨t, ht, ?_, ?_⟩
          · refine hs.trans ((flatMap_perm p3 _).trans ?_)
            refine List.Perm.trans ?_ (flatMap_perm p12 _).symm
            simp [new, symbols_branch]
          · intro P hP hK
            have hP' := hP.trans (p12.map (·.freq))
            simp only [List.map_cons] at hP'
            have hlr : left.freq ≤ right.freq := m1 right (p12.mem_iff.2 (by simp))
            obtain ⟨P', q1, q2, q3⟩ := merge_min _ P (Nat.le_refl _) left.freq right.freq
              ((M.contents h2).map (·.freq)) hP' hlr
              (by
                intro x hx
                obtain ⟨s, hs, rfl⟩ := List.mem_map.1 hx
                exact m1 s (p12.mem_iff.2 (by simp [hs])))
              (by
                intro x hx
                obtain ⟨s, hs, rfl⟩ := List.mem_map.1 hx
                exact m2 s (p2.mem_iff.2 (by simp [hs]))) hK
            have hfin := hopt P' (q1.trans (by
              have := (p3.map (·.freq)).symm
              simpa [new] using this)) q2
            have e1 := sum_perm (p3.map fun s => icost w s.tree)
            have e2 := sum_perm (p12.map fun s => icost w s.tree)
            simp only [List.map_cons, List.sum_cons] at e1 e2
            have e3 : icost w new.tree = icost w left.tree + icost w right.tree +
                (left.freq + right.freq) := by
              simp only [new, icost_branch, hwl, hwr]
            omega
    · rw [if_neg hlen]
      rw [M.len_eq] at hlen
      have hlen1 : (M.contents h).length = 1 := by
        have : (M.contents h).length ≠ 0 := fun hc => hne (List.length_eq_zero_iff.1 hc)
        omega
      cases hp : M.pop h with
      | none => exact absurd (M.pop_none _ hp) hne
      | some r =>
        obtain ⟨s, h'⟩ := r
        obtain ⟨p1, _⟩ := M.pop_some _ _ _ hp
        have l1 := p1.length_eq
        simp only [List.length_cons] at l1
        have hnil : M.contents h' = [] := List.length_eq_zero_iff.1 (by omega)
        rw [hnil] at p1
        refine ⟨s.tree, rfl, ?_, ?_⟩
        · have := (flatMap_perm p1 fun s => symbols s.tree).symm
          simpa using this
        · intro P _ _
          have := sum_perm (p1.map fun s => icost w s.tree)
          simp only [List.map_cons, List.map_nil, List.sum_cons, List.sum_nil] at this
          omega

/-! ## Counting frequencies -/

variable [DecidableEq T]

theorem bumpFreq_sum (x : T) (m : List (T × Nat)) (g : T → Nat) :
    ((bumpFreq x m).map fun p => p.2 * g p.1).sum = (m.map fun p => p.2 * g p.1).sum + g x := by
  induction m with
  | nil => simp [bumpFreq]
  | cons p m ih =>
    obtain ⟨y, n⟩ := p
    unfold bumpFreq
    by_cases h : y = x
    · subst h; simp [Nat.add_mul]; omega
    · simp only [if_neg h, List.map_cons, List.sum_cons, ih]; omega

theorem bumpFreq_keys (x : T) (m : List (T × Nat)) :
    (bumpFreq x m).map (·.1) = if x ∈ m.map (·.1) then m.map (·.1) else m.map (·.1) ++ [x] := by
  induction m with
  | nil => simp [bumpFreq]
  | cons p m ih =>
    obtain ⟨y, n⟩ := p
    unfold bumpFreq
    by_cases h : y = x
    · subst h; simp
    · have h' : x ≠ y := fun e => h e.symm
      simp only [if_neg h, List.map_cons, ih, List.mem_cons, h', false_or]
      split <;> simp

theorem countFreqs_aux (items : List T) (m : List (T × Nat)) (hnd : (m.map (·.1)).Nodup) :
    let m' := items.foldl (fun m x => bumpFreq x m) m
    (m'.map (·.1)).Nodup ∧ (∀ x, x ∈ m'.map (·.1) ↔ x ∈ items ∨ x ∈ m.map (·.1)) ∧
    ∀ g : T → Nat, (m'.map fun p => p.2 * g p.1).sum =
      (items.map g).sum + (m.map fun p => p.2 * g p.1).sum := by
  induction items generalizing m with
  | nil => simp [hnd]
  | cons x xs ih =>
    have hnd' : ((bumpFreq x m).map (·.1)).Nodup := by
      rw [bumpFreq_keys]
      split
      · exact hnd
      · rename_i hx
        rw [List.nodup_append]
        refine ⟨hnd, by simp, ?_⟩
        intro a ha b hb
        simp at hb; subst hb
        exact fun e => hx (e ▸ ha)
    obtain ⟨h1, h2, h3⟩ := ih (bumpFreq x m) hnd'
    refine ⟨h1, ?_, ?_⟩
    · intro y
      rw [List.foldl_cons, h2 y, bumpFreq_keys]
      split
      · rename_i hx
        constructor
        · rintro (h | h)
          · exact .inl (by simp [h])
          · exact .inr h
        · rintro (h | h)
          · rcases List.mem_cons.1 h with rfl | h
            · exact .inr hx
            · exact .inl h
          · exact .inr h
      · simp only [List.mem_append, List.mem_cons, List.not_mem_nil, or_false]
        constructor
        · rintro (h | h | h)
          · exact .inl (.inr h)
          · exact .inr h
          · exact .inl (.inl h)
        · rintro ((h | h) | h)
          · exact .inr (.inr h)
          · exact .inl h
          · exact .inr (.inl h)
    · intro g
      rw [List.foldl_cons, h3 g, bumpFreq_sum, List.map_cons, List.sum_cons]; omega

theorem countFreqs_nodup (items : List T) : ((countFreqs items).map (·.1)).Nodup :=
  (countFreqs_aux items [] (by simp)).1

theorem mem_countFreqs (items : List T) (x : T) :
    x ∈ (countFreqs items).map (·.1) ↔ x ∈ items := by
  have := (countFreqs_aux items [] (by simp)).2.1 x
  simpa [countFreqs] using this

theorem countFreqs_sum (items : List T) (g : T → Nat) :
    ((countFreqs items).map fun p => p.2 * g p.1).sum = (items.map g).sum := by
  have := (countFreqs_aux items [] (by simp)).2.2 g
  simpa [countFreqs] using this

/-- The frequency of a symbol is its number of occurrences. -/
theorem countFreqs_count (items : List T) : ∀ p ∈ countFreqs items, p.2 = items.count p.1 := by
  intro p hp
  have h := countFreqs_sum items (fun y => if y = p.1 then 1 else 0)
  have hr : (items.map fun y => if y = p.1 then 1 else 0).sum = items.count p.1 := by
    clear h hp
    induction items with
    | nil => rfl
    | cons x xs ih =>
      simp only [List.map_cons, List.sum_cons, ih, List.count_cons, beq_iff_eq]; omega
  have hl : ∀ m : List (T × Nat), (m.map (·.1)).Nodup → p ∈ m →
      (m.map fun q => q.2 * if q.1 = p.1 then 1 else 0).sum = p.2 := by
    intro m hnd hm
    induction m with
    | nil => simp at hm
    | cons q m ih =>
      simp only [List.map_cons, List.nodup_cons] at hnd
      simp only [List.map_cons, List.sum_cons]
      rcases List.mem_cons.1 hm with rfl | hm'
      · have : (m.map fun q => q.2 * if q.1 = p.1 then 1 else 0).sum = 0 := by
          have hz : ∀ q ∈ m, (q.2 * if q.1 = p.1 then 1 else 0) = 0 := by
            intro q hq
            have : q.1 ≠ p.1 := fun e => hnd.1 (e ▸ List.mem_map.2 ⟨q, hq, rfl⟩)
            simp [this]
          rw [List.map_congr_left hz]
          clear hz hnd hm ih
          induction m with
          | nil => rfl
          | cons _ _ ih => simpa using ih
        rw [this]; simp
      · have : q.1 ≠ p.1 := fun e => hnd.1 (e ▸ List.mem_map.2 ⟨p, hm', rfl⟩)
        rw [ih hnd.2 hm']; simp [this]
  rw [hr, hl _ (countFreqs_nodup items) hp] at h
  exact h

end

end Cniic
