import Verif.Model.Depth
import Verif.Spec.Depth
import Verif.Proofs.Trunc

/-!
# The height of the trees built, and the nesting of the calls that read them
-/

namespace Cniic
open Spec SerSpec

/-! ## Fibonacci numbers -/

theorem fib_mono_succ (n : Nat) : fib n ≤ fib (n + 1) := by
  match n with
  | 0 => decide
  | 1 => decide
  | n + 2 =>
    have h1 := fib_mono_succ n
    have h2 := fib_mono_succ (n + 1)
    show fib n + fib (n + 1) ≤ fib (n + 1) + fib (n + 1 + 1)
    omega

theorem fib_mono {m n : Nat} (h : m ≤ n) : fib m ≤ fib n := by
  induction h with
  | refl => exact Nat.le_refl _
  | step _ ih => exact Nat.le_trans ih (fib_mono_succ _)

theorem fib_add_two (n : Nat) : fib (n + 2) = fib n + fib (n + 1) := rfl

/-! ## Height -/

section
variable {T : Type}

theorem path_le_height (t : BinTrie T) : ∀ p ∈ leaves t, p.1.length ≤ height t := by
  induction t with
  | leaf v => simp [leaves]
  | branch l r ihl ihr =>
    intro p hp
    simp only [leaves, List.mem_append, List.mem_map] at hp
    rcases hp with ⟨q, hq, rfl⟩ | ⟨q, hq, rfl⟩
    · have := ihl q hq; simp only [List.length_cons, height]; omega
    · have := ihr q hq; simp only [List.length_cons, height]; omega

theorem path_eq_height (t : BinTrie T) : ∃ p ∈ leaves t, p.1.length = height t := by
  induction t with
  | leaf v => exact ⟨([], v), by simp [leaves], rfl⟩
  | branch l r ihl ihr =>
    obtain ⟨p, hp, ep⟩ := ihl
    obtain ⟨q, hq, eq⟩ := ihr
    by_cases h : height l ≤ height r
    · exact ⟨(true :: q.1, q.2), by simp only [leaves, List.mem_append, List.mem_map]; exact .inr ⟨q, hq, rfl⟩, by
        simp only [List.length_cons, height]; omega⟩
    · exact ⟨(false :: p.1, p.2), by simp only [leaves, List.mem_append, List.mem_map]; exact .inl ⟨p, hp, rfl⟩, by
        simp only [List.length_cons, height]; omega⟩

theorem height_lt_size (t : BinTrie T) : height t < t.size := by
  induction t with
  | leaf v => simp [height, BinTrie.size]
  | branch l r ihl ihr => simp only [height, BinTrie.size]; omega

/-- What holds of any two entries of the heap: the one is at least as heavy as the lighter part of the other. -/
def Balanced (a b : Suffix T) : Prop := fib (height a.tree + 1) ≤ b.freq ∧ fib (height b.tree + 1) ≤ a.freq

theorem Balanced.symm {a b : Suffix T} (h : Balanced a b) : Balanced b a := ⟨h.2, h.1⟩

theorem buildLoop_height (M : MinHeap T) (n : Nat) (h : M.H) (hn : (M.contents h).length ≤ n)
    (hfib : ∀ s ∈ M.contents h, fib (height s.tree + 2) ≤ s.freq)
    (hpair : (M.contents h).Pairwise Balanced) {t : BinTrie T} (ht : buildLoop M h = some t) :
    fib (height t + 2) ≤ ((M.contents h).map (·.freq)).sum := by
  induction n generalizing h with
  | zero =>
    have h0 : M.contents h = [] := List.length_eq_zero_iff.1 (by omega)
    rw [buildLoop, if_neg (by rw [M.len_eq, h0]; simp)] at ht
    cases hp : M.pop h with
    | none => rw [hp] at ht; simp at ht
    | some r =>
      have := (M.pop_some h r.1 r.2 hp).1
      rw [h0] at this
      exact absurd this.symm.eq_nil (by simp)
  | succ n ih =>
    rw [buildLoop] at ht
    by_cases hlen : M.len h > 1
    · rw [if_pos hlen] at ht
      split at ht
      · simp at ht
      · rename_i left h1 hl
        obtain ⟨p1, m1⟩ := M.pop_some _ _ _ hl
        split at ht
        · simp at ht
        · rename_i right h2 hr
          obtain ⟨p2, m2⟩ := M.pop_some _ _ _ hr
          have l1 := p1.length_eq
          have l2 := p2.length_eq
          simp only [List.length_cons] at l1 l2
          let new : Suffix T := { freq := left.freq + right.freq
                                  tree := .branch left.tree right.tree }
          have p3 : (M.contents (M.push h2 new)).Perm (new :: M.contents h2) := M.contents_push h2 new
          have l3 := p3.length_eq
          simp only [List.length_cons] at l3
          have p12 : (M.contents h).Perm (left :: right :: M.contents h2) := p1.trans (p2.cons _)
          have hb := (List.Perm.pairwise_iff (R := Balanced) (fun h => h.symm) p12).1 hpair
          simp only [List.pairwise_cons, List.mem_cons, forall_eq_or_imp] at hb
          obtain ⟨⟨⟨hlr1, hlr2⟩, hlo⟩, hro, hoo⟩ := hb
          have hfl := hfib left (p12.mem_iff.2 (by simp))
          have hfr := hfib right (p12.mem_iff.2 (by simp))
          have hnew : fib (height new.tree + 2) ≤ new.freq := by
            show fib (max (height left.tree) (height right.tree) + 1 + 2) ≤ left.freq + right.freq
            rw [fib_add_two]
            rcases Nat.le_total (height left.tree) (height right.tree) with hle | hle
            · rw [Nat.max_eq_right hle]; show fib (height right.tree + 1) + fib (height right.tree + 2) ≤ _; omega
            · rw [Nat.max_eq_left hle]; show fib (height left.tree + 1) + fib (height left.tree + 2) ≤ _; omega
          have := ih (M.push h2 new) (by omega)
            (by
              intro s hs
              rcases List.mem_cons.1 (p3.mem_iff.1 hs) with rfl | hs'
              · exact hnew
              · exact hfib s (p12.mem_iff.2 (by simp [hs'])))
            ((List.Perm.pairwise_iff (R := Balanced) (fun h => h.symm) p3).2 (by
              rw [List.pairwise_cons]
              refine ⟨?_, hoo⟩
              intro u hu
              have hul : left.freq ≤ u.freq := m1 u (p12.mem_iff.2 (by simp [hu]))
              have hur : right.freq ≤ u.freq := m2 u (p2.mem_iff.2 (by simp [hu]))
              refine ⟨?_, ?_⟩
              · show fib (max (height left.tree) (height right.tree) + 1 + 1) ≤ u.freq
                rcases Nat.le_total (height left.tree) (height right.tree) with hle | hle
                · rw [Nat.max_eq_right hle]; exact Nat.le_trans hfr hur
                · rw [Nat.max_eq_left hle]; exact Nat.le_trans hfl hul
              · have := (hlo u hu).2
                show _ ≤ left.freq + right.freq
                omega)) ht
          have e1 := sum_perm (p3.map (·.freq))
          have e2 := sum_perm (p12.map (·.freq))
          simp only [List.map_cons, List.sum_cons] at e1 e2
          have e3 : new.freq = left.freq + right.freq := rfl
          omega
    · rw [if_neg hlen] at ht
      cases hp : M.pop h with
      | none => rw [hp] at ht; simp at ht
      | some r =>
        obtain ⟨s, h'⟩ := r
        obtain ⟨p1, -⟩ := M.pop_some _ _ _ hp
        rw [hp] at ht
        simp only [Option.some.injEq] at ht
        subst ht
        have h1 := hfib s (p1.mem_iff.2 (by simp))
        have h2 := sum_perm (p1.map (·.freq))
        simp only [List.map_cons, List.sum_cons] at h2
        omega

theorem buildDec_height (M : MinHeap T) (fs : List (T × Nat)) (hpos : ∀ p ∈ fs, 1 ≤ p.2) {t : BinTrie T}
    (ht : buildDec M fs = some t) : fib (height t + 2) ≤ (fs.map (·.2)).sum := by
  unfold buildDec at ht
  simp only at ht
  split at ht
  · have hp : (M.contents (M.fromIter (fs.map Suffix.ofItem))).Perm (fs.map Suffix.ofItem) := M.contents_fromIter _
    have key : ∀ s ∈ fs.map Suffix.ofItem, s.tree.size = 1 ∧ height s.tree = 0 ∧ 1 ≤ s.freq := by
      intro s hs
      obtain ⟨p, hpm, rfl⟩ := List.mem_map.1 hs
      exact ⟨rfl, rfl, hpos p hpm⟩
    have := buildLoop_height M _ _ (Nat.le_refl _)
      (by
        intro s hs
        obtain ⟨-, h0, h1⟩ := key s (hp.mem_iff.1 hs)
        rw [h0]; exact h1)
      ((List.Perm.pairwise_iff (R := Balanced) (fun h => h.symm) hp).2 (by
        rw [List.pairwise_iff_forall_sublist]
        intro a b hab
        obtain ⟨-, ha0, ha1⟩ := key a (hab.subset (by simp))
        obtain ⟨-, hb0, hb1⟩ := key b (hab.subset (by simp))
        exact ⟨by rw [ha0]; exact hb1, by rw [hb0]; exact ha1⟩)) ht
    rw [sum_perm (hp.map (·.freq)), List.map_map] at this
    exact this
  · simp at ht

end

section
variable {T : Type} [DecidableEq T]

theorem build_height (M : MinHeap T) {ho : List (T × Nat) → List (T × Nat)} (hho : IsOrder ho) (items : List T)
    {enc : Enc T} {dec : BinTrie T} (hb : build M (ho (countFreqs items)) = some (enc, dec)) :
    fib (height dec + 2) ≤ items.length := by
  unfold build at hb
  split at hb
  · simp at hb
  · rename_i t ht
    split at hb
    · simp at hb
    · simp only [Option.some.injEq, Prod.mk.injEq] at hb
      obtain ⟨-, rfl⟩ := hb
      have h := buildDec_height M _ (by
        intro p hp
        have hp' := (hho _).mem_iff.1 hp
        rw [countFreqs_count items p hp']
        exact List.count_pos_iff.2 ((mem_countFreqs items p.1).1 (List.mem_map.2 ⟨p, hp', rfl⟩))) ht
      rw [sum_perm ((hho (countFreqs items)).map (·.2))] at h
      have e := countFreqs_sum items (fun _ => 1)
      simp only [Nat.mul_one] at e
      rw [e] at h
      have hl : (items.map fun _ => 1).sum = items.length := by
        clear e h ht
        induction items with
        | nil => rfl
        | cons x xs ih => simp only [List.map_cons, List.sum_cons, ih, List.length_cons]; omega
      rw [hl] at h
      exact h
end

/-! ## Nested calls -/

section
variable {T : Type} [Ser T] [SerSpec T] [LawfulSer T]

/-- Reading a tree takes one more nested call than its height. -/
theorem deFuel_height (t : BinTrie T) (h : TreeValid t) (depth : Nat) (rest : List UInt8) :
    (height t < depth → BinTrie.deFuel listNext depth (treeBytes t ++ rest) = (.ok t, rest)) ∧
    (depth ≤ height t → (BinTrie.deFuel listNext depth (treeBytes t ++ rest) : Ret Unit (BinTrie T) × _).1 = .panic) := by
  induction t generalizing depth rest with
  | leaf v =>
    cases depth with
    | zero => exact ⟨by simp [height], fun _ => rfl⟩
    | succ f =>
      refine ⟨fun _ => ?_, by simp [height]⟩
      rw [BinTrie.deFuel, treeBytes, List.cons_append]
      rw [Proc.bind_ok (de_u8 0 (SerSpec.bytes v ++ rest))]
      simp only [if_pos]
      rw [Proc.bind_ok (LawfulSer.de_bytes v (h ([], v) (by simp [leaves])) rest)]; rfl
  | branch l r ihl ihr =>
    rw [treeValid_branch] at h
    cases depth with
    | zero => exact ⟨by simp [height], fun _ => rfl⟩
    | succ f =>
      rw [BinTrie.deFuel, treeBytes, List.cons_append]
      rw [Proc.bind_ok (de_u8 1 (treeBytes l ++ treeBytes r ++ rest))]
      have h10 : ¬ ((1 : UInt8) = 0) := by decide
      simp only [if_neg h10, if_pos, height]
      rw [List.append_assoc]
      constructor
      · intro hd
        rw [Proc.bind_ok ((ihl h.1 f _).1 (by omega)), Proc.bind_ok ((ihr h.2 f _).1 (by omega))]; rfl
      · intro hd
        by_cases hl : height l < f
        · rw [Proc.bind_ok ((ihl h.1 f _).1 hl)]
          have := (ihr h.2 f rest).2 (by omega)
          rcases hr : (BinTrie.deFuel listNext f (treeBytes r ++ rest) : Ret Unit (BinTrie T) × _) with ⟨_ | _ | _, s⟩ <;>
            rw [hr] at this <;> simp at this
          simp only [Proc.bind_def, hr]
        · have := (ihl h.1 f (treeBytes r ++ rest)).2 (by omega)
          rcases hr : (BinTrie.deFuel listNext f (treeBytes l ++ (treeBytes r ++ rest)) : Ret Unit (BinTrie T) × _) with
            ⟨_ | _ | _, s⟩ <;> rw [hr] at this <;> simp at this
          simp only [Proc.bind_def, hr]

/-- On any input the limit only shows as an overflow. -/
theorem deFuel_or (depth fuel : Nat) (hle : depth ≤ fuel) (l : List UInt8) :
    (BinTrie.deFuel listNext depth l : Ret Unit (BinTrie T) × _) = BinTrie.deFuel listNext fuel l ∨
      (BinTrie.deFuel listNext depth l : Ret Unit (BinTrie T) × _).1 = .panic := by
  induction depth generalizing fuel l with
  | zero => exact .inr rfl
  | succ d ih =>
    obtain ⟨f, rfl⟩ : ∃ f, fuel = f + 1 := ⟨fuel - 1, by omega⟩
    cases l with
    | nil => exact .inl rfl
    | cons b bs =>
      simp only [BinTrie.deFuel]
      rw [Proc.bind_ok (de_u8 b bs), Proc.bind_ok (de_u8 b bs)]
      by_cases h0 : b = 0
      · simp only [if_pos h0]; exact .inl trivial
      · by_cases h1 : b = 1
        · simp only [if_neg h0, if_pos h1]
          rcases ih f (by omega) bs with e | e
          · simp only [Proc.bind_def]
            rw [e]
            rcases (BinTrie.deFuel listNext f bs : Ret Unit (BinTrie T) × _) with ⟨a | a | _, s⟩
            · simp only
              rcases ih f (by omega) s with e' | e'
              · rw [e']; exact .inl rfl
              · right
                rcases hr : (BinTrie.deFuel listNext d s : Ret Unit (BinTrie T) × _) with ⟨_ | _ | _, s'⟩ <;>
                  rw [hr] at e' <;> simp at e' ⊢
            · exact .inl rfl
            · exact .inl rfl
          · right
            rcases hr : (BinTrie.deFuel listNext d bs : Ret Unit (BinTrie T) × _) with ⟨_ | _ | _, s'⟩ <;>
              rw [hr] at e <;> simp at e
            simp only [Proc.bind_def, hr]
        · simp only [if_neg h0, if_neg h1]; exact .inl trivial

omit [SerSpec T] [LawfulSer T] in
/-- As many branches in a row as there is room for. -/
theorem deFuel_ones (depth : Nat) (rest : List UInt8) :
    (BinTrie.deFuel listNext depth (List.replicate depth 1 ++ rest) : Ret Unit (BinTrie T) × _).1 = .panic := by
  induction depth with
  | zero => rfl
  | succ d ih =>
    rw [BinTrie.deFuel, List.replicate_succ, List.cons_append, Proc.bind_ok (de_u8 1 _)]
    have h10 : ¬ ((1 : UInt8) = 0) := by decide
    simp only [if_neg h10, if_pos]
    rcases hr : (BinTrie.deFuel listNext d (List.replicate d 1 ++ rest) : Ret Unit (BinTrie T) × _) with ⟨_ | _ | _, s⟩ <;>
      rw [hr] at ih <;> simp at ih
    simp only [Proc.bind_def, hr]

omit [SerSpec T] [LawfulSer T] in
/-- Branches without end are no tree. -/
theorem deFuel_only_ones (fuel n : Nat) (h : n < fuel) :
    (BinTrie.deFuel listNext fuel (List.replicate n 1) : Ret Unit (BinTrie T) × _).1 = .err () := by
  induction n generalizing fuel with
  | zero =>
    obtain ⟨f, rfl⟩ : ∃ f, fuel = f + 1 := ⟨fuel - 1, by omega⟩
    rfl
  | succ n ih =>
    obtain ⟨f, rfl⟩ : ∃ f, fuel = f + 1 := ⟨fuel - 1, by omega⟩
    rw [BinTrie.deFuel, List.replicate_succ, Proc.bind_ok (de_u8 1 _)]
    have h10 : ¬ ((1 : UInt8) = 0) := by decide
    simp only [if_neg h10, if_pos]
    have := ih f (by omega)
    rcases hr : (BinTrie.deFuel listNext f (List.replicate n 1) : Ret Unit (BinTrie T) × _) with ⟨_ | _ | _, s⟩ <;>
      rw [hr] at this <;> simp at this
    simp only [Proc.bind_def, hr]

omit [SerSpec T] [LawfulSer T] in
/-- Writing a tree nests as deep as reading it. -/
theorem serDepth_height (t : BinTrie T) (depth : Nat) (hd : height t < depth) : t.serDepth depth = t.ser := by
  induction t generalizing depth with
  | leaf v =>
    cases depth with
    | zero => simp [height] at hd
    | succ f => rfl
  | branch l r ihl ihr =>
    cases depth with
    | zero => simp at hd
    | succ f =>
      simp only [height] at hd
      simp only [BinTrie.serDepth, BinTrie.ser, ihl f (by omega), ihr f (by omega)]

/-- With less room writing a tree overflows. -/
theorem serDepth_overflow (t : BinTrie T) (h : TreeValid t) (depth : Nat) (hd : depth ≤ height t) (k : Sink)
    (hk : ∀ i, k.fault i = none) : (t.serDepth depth k).1 = .panic := by
  have first : ∀ {m : W Unit} {f : Unit → W Unit} (k : Sink), (m k).1 = .panic → ((m >>= f) k).1 = .panic := by
    intro m f k hm
    rcases hr : m k with ⟨r, k'⟩
    rw [hr] at hm
    simp only at hm
    subst hm
    rw [Proc.bind_panic hr]
  have after : ∀ {m : W Unit} {f : Unit → W Unit} {bs} (k : Sink), Emits Emits.errOnly m bs () → (∀ i, k.fault i = none) →
      (∀ k' : Sink, (∀ i, k'.fault i = none) → (f () k').1 = .panic) → ((m >>= f) k).1 = .panic := by
    intro m f bs k hm hk hf
    obtain ⟨n, ⟨_, he⟩ | ⟨_, hf', _⟩⟩ := hm k
    · rw [Proc.bind_ok he]
      exact hf _ hk
    · exact absurd (hk _) hf'
  induction t generalizing depth k with
  | leaf v =>
    cases depth with
    | zero => rfl
    | succ f => simp [height] at hd
  | branch l r ihl ihr =>
    cases depth with
    | zero => rfl
    | succ f =>
      simp only [height] at hd
      rw [treeValid_branch] at h
      rw [BinTrie.serDepth]
      refine after k (LawfulSer.emits (1 : UInt8) trivial) hk fun k' hk' => ?_
      by_cases hl : f ≤ height l
      · exact first _ (ihl h.1 f hl _ hk')
      · rw [serDepth_height l f (by omega)]
        exact after k' (emits_tree l h.1) hk' fun k'' hk'' => ihr h.2 f (by omega) _ hk''

end

/-! ## Decoders -/

theorem decodeAllDepth_or {T : Type} [Ser T] [SerSpec T] [LawfulSer T] (depth : Nat) (l : List UInt8) :
    (decodeAllDepth depth l : Ret Unit (DecStream T) × _) = decodeAll l ∨
      (decodeAllDepth depth l : Ret Unit (DecStream T) × _).1 = .panic := by
  have hor : (BinTrie.deFuel listNext depth l : Ret Unit (BinTrie T) × _) = BinTrie.deFuel listNext (l.length + 1) l ∨
      (BinTrie.deFuel listNext depth l : Ret Unit (BinTrie T) × _).1 = .panic := by
    rcases Nat.le_total depth (l.length + 1) with h | h
    · exact deFuel_or depth _ h l
    · exact .inl (deFuel_mono l (Nat.lt_succ_self _) h)
  rcases hr : (BinTrie.deFuel listNext depth l : Ret Unit (BinTrie T) × _) with ⟨a | a | _, s⟩
  · rw [hr] at hor
    rcases hor with e | e
    · left
      have h1 : decodeAllDepth depth l = (.ok (⟨a, bitReader s⟩ : DecStream T), []) := Proc.bind_ok hr
      have h2 : decodeAll l = (.ok (⟨a, bitReader s⟩ : DecStream T), []) :=
        Proc.bind_ok (show BinTrie.de l = _ from e.symm)
      rw [h1, h2]
    · simp at e
  · rw [hr] at hor
    rcases hor with e | e
    · left
      unfold decodeAllDepth decodeAll
      exact (Proc.bind_err hr).trans (Proc.bind_err (show BinTrie.de l = _ from e.symm)).symm
    · simp at e
  · right
    unfold decodeAllDepth
    exact congrArg Prod.fst (Proc.bind_panic hr)

theorem decodeAllDepth_tree {T : Type} [Ser T] [SerSpec T] [LawfulSer T] (t : BinTrie T) (h : TreeValid t)
    (payload : List UInt8) (depth : Nat) (hd : height t < depth) :
    decodeAllDepth depth (treeBytes t ++ payload) = (.ok ⟨t, bitReader payload⟩, []) := by
  unfold decodeAllDepth
  exact Proc.bind_ok ((deFuel_height t h depth payload).1 hd)

/-- The limit only shows as an overflow. -/
theorem hufmanDecodeDepth_or (depth : Nat) (l : List UInt8) :
    hufmanDecodeDepth depth l = hufmanDecode l ∨ hufmanDecodeDepth depth l = .panic := by
  unfold hufmanDecodeDepth hufmanDecode Proc.run
  simp only [Proc.bind_def]
  rcases (createImageBufferStandard listNext l) with ⟨⟨d, im⟩ | _ | _, s⟩
  · simp only
    rcases decodeAllDepth_or (T := Rgb UInt8) depth s with e | e
    · rw [e]; exact .inl rfl
    · right
      rcases hr : (decodeAllDepth depth s : Ret Unit (DecStream (Rgb UInt8)) × _) with ⟨_ | _ | _, s'⟩ <;>
        rw [hr] at e <;> simp at e ⊢
  · exact .inl rfl
  · exact .inl rfl

theorem deltaDecodeDepth_or (depth : Nat) (chk : Bool) (scan : Scan) (l : List UInt8) :
    deltaDecodeDepth depth chk scan l = deltaDecode chk scan l ∨ deltaDecodeDepth depth chk scan l = .panic := by
  unfold deltaDecodeDepth deltaDecode Proc.run
  simp only [Proc.bind_def]
  rcases (createImageBufferStandard listNext l) with ⟨⟨d, im⟩ | _ | _, s⟩
  · simp only [Proc.unwrap]
    rcases decodeAllDepth_or (T := SignedColor) depth s with e | e
    · rw [e]; exact .inl rfl
    · right
      rcases hr : (decodeAllDepth depth s : Ret Unit (DecStream SignedColor) × _) with ⟨_ | _ | _, s'⟩ <;>
        rw [hr] at e <;> simp at e ⊢
  · exact .inl rfl
  · exact .inl rfl

/-- What follows the size decides. -/
theorem hufmanDecodeDepth_eq (depth : Nat) (img : Img) (ha : Addressable img) (rest : List UInt8) :
    ((decodeAllDepth depth rest : Ret Unit (DecStream (Rgb UInt8)) × _) = decodeAll rest →
      hufmanDecodeDepth depth (bytes (img.width, img.height) ++ rest) =
        hufmanDecode (bytes (img.width, img.height) ++ rest)) ∧
    ((decodeAllDepth depth rest : Ret Unit (DecStream (Rgb UInt8)) × _).1 = .panic →
      hufmanDecodeDepth depth (bytes (img.width, img.height) ++ rest) = .panic) := by
  unfold hufmanDecodeDepth hufmanDecode Proc.run
  rw [Proc.bind_ok (createBuffer_eq img ha rest), Proc.bind_ok (createBuffer_eq img ha rest)]
  simp only [Proc.bind_def]
  constructor
  · intro e
    rw [e]
  · intro e
    rcases hr : (decodeAllDepth depth rest : Ret Unit (DecStream (Rgb UInt8)) × _) with ⟨_ | _ | _, s'⟩ <;>
      rw [hr] at e <;> simp at e ⊢

theorem deltaDecodeDepth_eq (depth : Nat) (chk : Bool) (scan : Scan) (img : Img) (ha : Addressable img)
    (rest : List UInt8) :
    ((decodeAllDepth depth rest : Ret Unit (DecStream SignedColor) × _) = decodeAll rest →
      deltaDecodeDepth depth chk scan (bytes (img.width, img.height) ++ rest) =
        deltaDecode chk scan (bytes (img.width, img.height) ++ rest)) ∧
    ((decodeAllDepth depth rest : Ret Unit (DecStream SignedColor) × _).1 = .panic →
      deltaDecodeDepth depth chk scan (bytes (img.width, img.height) ++ rest) = .panic) := by
  unfold deltaDecodeDepth deltaDecode Proc.run
  rw [Proc.bind_ok (createBuffer_eq img ha rest), Proc.bind_ok (createBuffer_eq img ha rest)]
  simp only [Proc.bind_def, Proc.unwrap]
  constructor
  · intro e
    rw [e]
  · intro e
    rcases hr : (decodeAllDepth depth rest : Ret Unit (DecStream SignedColor) × _) with ⟨_ | _ | _, s'⟩ <;>
      rw [hr] at e <;> simp at e ⊢

end Cniic
