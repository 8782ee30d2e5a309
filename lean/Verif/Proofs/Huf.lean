import Verif.Proofs.HufOpt

/-!
# Huffman encoding and decoding
-/

namespace Cniic
open Spec

section
variable {T : Type} [DecidableEq T]

/-- The code of a symbol: the path to its leaf. -/
def codeOf (t : BinTrie T) (x : T) : List Bool :=
  (((leaves t).find? fun p => p.2 = x).map (·.1)).getD []

theorem codeOf_mem {t : BinTrie T} {x : T} (hx : x ∈ symbols t) : (codeOf t x, x) ∈ leaves t := by
  obtain ⟨p, hp, rfl⟩ := List.mem_map.1 hx
  unfold codeOf
  cases hf : (leaves t).find? fun q => q.2 = p.2 with
  | none =>
    have := List.find?_eq_none.1 hf p hp
    simp at this
  | some q =>
    have h1 := List.mem_of_find?_eq_some hf
    have h2 := List.find?_some hf
    simp at h2
    simp only [Option.map_some, Option.getD_some]
    rw [← h2]; exact h1

/-- With distinct symbols at the leaves, the path determines the leaf and conversely. -/
theorem codeOf_unique {t : BinTrie T} (hnd : (symbols t).Nodup) {p : List Bool} {x : T}
    (hp : (p, x) ∈ leaves t) : p = codeOf t x := by
  have hx : x ∈ symbols t := List.mem_map.2 ⟨_, hp, rfl⟩
  have hc := codeOf_mem hx
  have key : ∀ l : List (List Bool × T), (l.map (·.2)).Nodup → (p, x) ∈ l →
      (codeOf t x, x) ∈ l → p = codeOf t x := by
    intro l hnd h1 h2
    induction l with
    | nil => simp at h1
    | cons q l ih =>
      simp only [List.map_cons, List.nodup_cons, List.mem_map] at hnd
      rcases List.mem_cons.1 h1 with e1 | h1 <;> rcases List.mem_cons.1 h2 with e2 | h2
      · rw [← e2] at e1; exact (Prod.mk.inj e1).1
      · exfalso; apply hnd.1; exact ⟨_, h2, by rw [← e1]⟩
      · exfalso; apply hnd.1; exact ⟨_, h1, by rw [← e2]⟩
      · exact ih hnd.2 h1 h2
  exact key _ hnd hp hc

theorem codeOf_prefixFree (t : BinTrie T) : PrefixFree (symbols t) (codeOf t) := by
  intro x hx y hy h
  exact (leaves_prefix (codeOf_mem hx) (codeOf_mem hy) h).2

/-! ## The encoder table -/

theorem insertAll_spec (items : List (List Bit × T)) (codes : List (T × BitArray))
    (hnd : (items.map (·.2)).Nodup) :
    ∃ codes', Enc.insertAll items codes = some codes' ∧
      (∀ p ∈ items, (Enc.mk codes').get p.2 = BitArray.fromSlice p.1 .msbFirst) ∧
      ∀ x, x ∉ items.map (·.2) → (Enc.mk codes').get x = (Enc.mk codes).get x := by
  induction items generalizing codes with
  | nil => exact ⟨codes, rfl, by simp, by simp⟩
  | cons p items ih =>
    obtain ⟨bits, s⟩ := p
    simp only [List.map_cons, List.nodup_cons] at hnd
    obtain ⟨a, ha, _⟩ := fromSlice_msb bits
    obtain ⟨codes', h1, h2, h3⟩ := ih ((s, a) :: codes) hnd.2
    refine ⟨codes', by simp [Enc.insertAll, ha, h1], ?_, ?_⟩
    · intro q hq
      rcases List.mem_cons.1 hq with rfl | hq
      · rw [h3 s hnd.1, ha]
        simp [Enc.get]
      · exact h2 q hq
    · intro x hx
      simp only [List.map_cons, List.mem_cons, not_or] at hx
      rw [h3 x hx.2]
      have : ¬ s = x := fun e => hx.1 e.symm
      simp [Enc.get, this]

theorem ofTrie_spec (t : BinTrie T) (hnd : (symbols t).Nodup) :
    ∃ enc, Enc.ofTrie t = some enc ∧
      (∀ x ∈ symbols t, enc.get x = BitArray.fromSlice (codeOf t x) .msbFirst) ∧
      ∀ x, x ∉ symbols t → enc.get x = none := by
  have hd := drain_of_yields (BinTrieIter.yields_new t) (fuel := t.size + 1)
    (by rw [leaves_length]; omega)
  obtain ⟨codes, h1, h2, h3⟩ := insertAll_spec (leaves t) [] hnd
  refine ⟨⟨codes⟩, by simp [Enc.ofTrie, hd, h1], ?_, ?_⟩
  · intro x hx
    exact h2 _ (codeOf_mem hx)
  · intro x hx
    rw [h3 x hx]; rfl

theorem appends_encode {t : BinTrie T} {enc : Enc T} {x : T} {w : BitWriter} (hw : w.Ok)
    (hget : enc.get x = BitArray.fromSlice (codeOf t x) .msbFirst) :
    w.Appends (enc.encode x w) (codeOf t x) := by
  obtain ⟨a, ha, hlen, happ⟩ := fromSlice_msb (codeOf t x)
  simp only [Enc.encode, hget, ha]
  by_cases h0 : a.len = 0
  · have : codeOf t x = [] := List.length_eq_zero_iff.1 (by omega)
    simp only [h0, beq_self_eq_true, if_true, this]
    exact BitWriter.Appends.pure hw
  · have : (a.len == 0) = false := by simpa using h0
    simp only [this]
    exact happ w hw

theorem emits_encodeSymbols_panic {t : BinTrie T} {enc : Enc T} {w : BitWriter} (hw : w.Ok)
    (items : List T)
    (hget : ∀ x ∈ items, enc.get x = BitArray.fromSlice (codeOf t x) .msbFirst) :
    ∃ out w', Emits (· = .asPanic) (encodeSymbols enc w items) out w' ∧ w'.Ok ∧
      w.pending ++ items.flatMap (codeOf t) = bitsOf out ++ w'.pending := by
  induction items generalizing w with
  | nil => exact ⟨[], w, Emits.pure _, hw, by simp [bitsOf]⟩
  | cons x xs ih =>
    obtain ⟨o1, w1, e1, k1, p1⟩ := appends_encode hw (hget x (by simp))
    obtain ⟨o2, w2, e2, k2, p2⟩ := ih k1 fun y hy => hget y (by simp [hy])
    refine ⟨o1 ++ o2, w2, Emits.bind e1.unwrap_panic e2, k2, ?_⟩
    rw [List.flatMap_cons, ← List.append_assoc, p1, List.append_assoc, p2]
    simp [bitsOf]

theorem emits_encodeSymbols {t : BinTrie T} {enc : Enc T} {w : BitWriter} (hw : w.Ok)
    (items : List T)
    (hget : ∀ x ∈ items, enc.get x = BitArray.fromSlice (codeOf t x) .msbFirst) :
    ∃ out w', Emits Emits.anyWay (encodeSymbols enc w items) out w' ∧ w'.Ok ∧
      w.pending ++ items.flatMap (codeOf t) = bitsOf out ++ w'.pending := by
  obtain ⟨out, w', h1, h2, h3⟩ := emits_encodeSymbols_panic hw items hget
  exact ⟨out, w', h1.mono fun _ _ => trivial, h2, h3⟩

/-! ## `build` -/

omit [DecidableEq T] in
theorem sum_map_zero {α : Type} (l : List α) (f : α → Nat) (h : ∀ x ∈ l, f x = 0) :
    (l.map f).sum = 0 := by
  induction l with
  | nil => rfl
  | cons x xs ih => simp [h x (by simp), ih fun y hy => h y (by simp [hy])]

theorem symbols_ofItems (fs : List (T × Nat)) :
    (fs.map Suffix.ofItem).flatMap (fun s => symbols s.tree) = fs.map (·.1) := by
  induction fs with
  | nil => rfl
  | cons p fs ih => simp only [List.map_cons, List.flatMap_cons, ih]; rfl

omit [DecidableEq T] in
theorem Emits.anyOf {α : Type} {m : W α} {bs a} (h : Emits Emits.errOnly m bs a) :
    Emits Emits.anyWay m bs a := h.mono fun _ _ => trivial

theorem build_spec (M : MinHeap T) (fs : List (T × Nat)) (hne : fs ≠ [])
    (hnd : (fs.map (·.1)).Nodup) :
    ∃ enc dec, build M fs = some (enc, dec) ∧ (symbols dec).Perm (fs.map (·.1)) ∧
      (∀ x ∈ symbols dec, enc.get x = BitArray.fromSlice (codeOf dec x) .msbFirst) ∧
      (∀ x, x ∉ symbols dec → enc.get x = none) ∧
      ∀ len : T → Nat, Kraft (fs.map fun p => len p.1) →
        (fs.map fun p => p.2 * (codeOf dec p.1).length).sum ≤
          (fs.map fun p => p.2 * len p.1).sum := by
  let h := M.fromIter (fs.map Suffix.ofItem)
  have hp : (M.contents h).Perm (fs.map Suffix.ofItem) := M.contents_fromIter _
  have hlen := hp.length_eq
  rw [List.length_map] at hlen
  have hpos : 0 < fs.length := List.length_pos_iff.2 hne
  let w : T → Nat := fun x => ((fs.find? fun p => p.1 = x).map (·.2)).getD 0
  have hwf : ∀ p ∈ fs, w p.1 = p.2 := by
    intro p hpm
    have key : ∀ l : List (T × Nat), (l.map (·.1)).Nodup → p ∈ l →
        ((l.find? fun q => q.1 = p.1).map (·.2)).getD 0 = p.2 := by
      intro l hl hm
      induction l with
      | nil => simp at hm
      | cons q l ih =>
        simp only [List.map_cons, List.nodup_cons] at hl
        rcases List.mem_cons.1 hm with rfl | hm'
        · simp
        · have : ¬ q.1 = p.1 := fun e => hl.1 (e ▸ List.mem_map.2 ⟨p, hm', rfl⟩)
          rw [List.find?_cons_of_neg (by simpa using this)]
          exact ih hl.2 hm'
    exact key fs hnd hpm
  obtain ⟨t, ht, hs, hopt⟩ := buildLoop_spec M w _ h (Nat.le_refl _)
    (by intro hc; rw [hc] at hlen; simp at hlen; omega)
    (by
      intro s hs
      have := hp.mem_iff.1 hs
      obtain ⟨p, hpm, rfl⟩ := List.mem_map.1 this
      simp [Suffix.ofItem, wsum, leaves, hwf p hpm])
  have hsym : (symbols t).Perm (fs.map (·.1)) := by
    have := hs.trans (flatMap_perm hp _)
    rwa [symbols_ofItems] at this
  have hsnd : (symbols t).Nodup := hsym.nodup_iff.2 hnd
  obtain ⟨enc, h1, h2, h3⟩ := ofTrie_spec t hsnd
  have hdec : buildDec M fs = some t := by
    have : M.len h > 0 := by rw [M.len_eq]; omega
    simp only [buildDec]
    rw [if_pos this]; exact ht
  refine ⟨enc, t, by simp [build, hdec, h1], hsym, h2, h3, ?_⟩
  intro len hk
  have hcost := hopt (fs.map fun p => (p.2, len p.1))
    (by
      rw [List.map_map]
      refine List.Perm.trans ?_ (hp.map (·.freq)).symm
      rw [List.map_map]
      exact List.Perm.refl _)
    (by rw [List.map_map]; exact hk)
  have hz : ((M.contents h).map fun s => icost w s.tree).sum = 0 := by
    rw [sum_perm (hp.map fun s => icost w s.tree), List.map_map]
    have hz' : ∀ p ∈ fs, ((fun s : Suffix T => icost w s.tree) ∘ Suffix.ofItem) p = 0 := by
      intro p _
      simp [icost, Suffix.ofItem, leaves]
    exact sum_map_zero fs _ hz'
  rw [hz, Nat.zero_add] at hcost
  have hl : icost w t = (fs.map fun p => p.2 * (codeOf t p.1).length).sum := by
    have e1 : icost w t = ((symbols t).map fun x => w x * (codeOf t x).length).sum := by
      unfold icost symbols
      rw [List.map_map]
      congr 1
      apply List.map_congr_left
      intro p hpm
      simp only [Function.comp]
      rw [← codeOf_unique hsnd (p := p.1) (x := p.2) hpm]
    rw [e1, sum_perm (hsym.map _), List.map_map]
    congr 1
    apply List.map_congr_left
    intro p hpm
    simp only [Function.comp, hwf p hpm]
  rw [hl] at hcost
  refine Nat.le_trans hcost (Nat.le_of_eq ?_)
  simp [cost, Function.comp_def]

/-- Everything about the output of `encode_all` on a non-empty input. -/
theorem encodeAll_spec [Ser T] [SerSpec T] [LawfulSer T] (M : MinHeap T)
    (ho : List (T × Nat) → List (T × Nat)) (hperm : ∀ l, (ho l).Perm l) (items : List T)
    (hne : items ≠ []) (hv : ∀ x ∈ items, SerSpec.valid x) :
    ∃ enc dec payload k,
      build M (ho (countFreqs items)) = some (enc, dec) ∧
      (symbols dec).Nodup ∧ (∀ x, x ∈ symbols dec ↔ x ∈ items) ∧
      (symbols dec).Perm ((countFreqs items).map (·.1)) ∧
      TreeValid dec ∧
      Emits Emits.anyWay (encodeAll M ho items) (treeBytes dec ++ payload) () ∧
      k < 8 ∧ bitsOf payload = items.flatMap (codeOf dec) ++ List.replicate k false ∧
      (∀ x ∈ symbols dec, enc.get x = BitArray.fromSlice (codeOf dec x) .msbFirst) ∧
      (∀ x, x ∉ symbols dec → enc.get x = none) ∧
      (∀ len : T → Nat, Kraft ((countFreqs items).map fun p => len p.1) →
        payloadBits (codeOf dec) items ≤ (items.map len).sum) := by
  have hpk := (hperm (countFreqs items)).map (·.1)
  obtain ⟨enc, dec, hb, hs, hget, hget', hopt⟩ := build_spec M (ho (countFreqs items))
    (by
      intro h0
      have hl := (hperm (countFreqs items)).length_eq
      rw [h0] at hl
      obtain ⟨x, hx⟩ := List.exists_mem_of_ne_nil _ hne
      have := (mem_countFreqs items x).2 hx
      have h00 : countFreqs items = [] := List.length_eq_zero_iff.1 hl.symm
      simp [h00] at this)
    (hpk.nodup_iff.2 (countFreqs_nodup items))
  have hmem : ∀ x, x ∈ symbols dec ↔ x ∈ items := fun x => by
    rw [hs.mem_iff, hpk.mem_iff, mem_countFreqs]
  have hnd : (symbols dec).Nodup := hs.nodup_iff.2 (hpk.nodup_iff.2 (countFreqs_nodup items))
  have htv : TreeValid dec := fun p hp => hv _ ((hmem _).1 (List.mem_map.2 ⟨p, hp, rfl⟩))
  obtain ⟨o1, w1, e1, k1, p1⟩ := emits_encodeSymbols (t := dec) BitWriter.ok_new items
    (fun x hx => hget x ((hmem x).2 hx))
  obtain ⟨o2, w2, k, e2, hk, _, _, p2⟩ := BitWriter.emits_padAndFlush k1
  refine ⟨enc, dec, o1 ++ o2, k, hb, hnd, hmem, hs.trans hpk, htv, ?_, hk, ?_, hget, hget', ?_⟩
  · simp only [encodeAll, hb]
    have := Emits.bind (Emits.anyOf (emits_tree dec htv))
      (f := fun _ => (do
        let w ← encodeSymbols enc (BitWriter.new .msbFirst) items
        let _ ← w.padAndFlush
        pure ()))
      (Emits.bind e1 (Emits.bind (Emits.anyOf e2) (Emits.pure ())))
    simpa using this
  · rw [BitWriter.pending_new, List.nil_append] at p1
    rw [show bitsOf (o1 ++ o2) = bitsOf o1 ++ bitsOf o2 by simp [bitsOf], p2, p1, List.append_assoc]
  · intro len hkr
    have h1 := hopt len (by
      have := Kraft.perm ((hperm (countFreqs items)).map fun p => len p.1).symm hkr
      exact this)
    rw [sum_perm ((hperm (countFreqs items)).map fun p => p.2 * (codeOf dec p.1).length),
      sum_perm ((hperm (countFreqs items)).map fun p => p.2 * len p.1),
      countFreqs_sum items (fun x => (codeOf dec x).length), countFreqs_sum items len] at h1
    exact h1

end

/-! ## Decoding -/

section
variable {T : Type}

theorem decodeAll_tree [Ser T] [SerSpec T] [LawfulSer T] (t : BinTrie T) (h : TreeValid t)
    (payload : List UInt8) :
    decodeAll (treeBytes t ++ payload) = (.ok ⟨t, bitReader payload⟩, []) := by
  unfold decodeAll
  exact Proc.bind_ok (de_tree t h payload)

theorem decStream_step {t : BinTrie T} {r : BitReader} {p : List Bool} {x : T} {rest : List Bool}
    (hp : (p, x) ∈ leaves t) (h : Yields (BitReader.next .msbFirst) r (p ++ rest)) :
    ∃ r', DecStream.next ⟨t, r⟩ = (.ok x, ⟨t, r'⟩) ∧
      Yields (BitReader.next .msbFirst) r' rest := by
  obtain ⟨r', h1, h2⟩ := lookup_leaf hp h
  exact ⟨r', by simp [DecStream.next, h1], h2⟩

theorem decStream_supplies [DecidableEq T] {t : BinTrie T} {r : BitReader} {items : List T}
    {rest : List Bool} (hs : ∀ x ∈ items, x ∈ symbols t)
    (h : Yields (BitReader.next .msbFirst) r (items.flatMap (codeOf t) ++ rest)) :
    Supplies DecStream.next ⟨t, r⟩ items := by
  induction items generalizing r with
  | nil => trivial
  | cons x xs ih =>
    rw [List.flatMap_cons, List.append_assoc] at h
    obtain ⟨r', h1, h2⟩ := decStream_step (codeOf_mem (hs x (by simp))) h
    exact ⟨_, h1, ih (fun y hy => hs y (by simp [hy])) h2⟩

theorem leftmost (t : BinTrie T) : ∃ c z, (List.replicate c false, z) ∈ leaves t := by
  induction t with
  | leaf v => exact ⟨0, v, by simp [leaves]⟩
  | branch l r ihl _ =>
    obtain ⟨c, z, h⟩ := ihl
    refine ⟨c + 1, z, ?_⟩
    simp only [leaves, List.mem_append, List.mem_map]
    exact .inl ⟨_, h, rfl⟩

theorem branch_paths {t : BinTrie T} (hb : 1 < t.size) : ∀ p ∈ leaves t, p.1 ≠ [] := by
  cases t with
  | leaf v => simp [BinTrie.size] at hb
  | branch l r =>
    intro p hp
    simp only [leaves, List.mem_append, List.mem_map] at hp
    rcases hp with ⟨q, _, rfl⟩ | ⟨q, _, rfl⟩ <;> simp

/-- Decoding only zero bits with a tree of at least two leaves. -/
theorem decStream_zeros {t : BinTrie T} (hb : 1 < t.size) {c : Nat} {z : T}
    (hz : (List.replicate c false, z) ∈ leaves t) (k : Nat) {r : BitReader}
    (h : Yields (BitReader.next .msbFirst) r (List.replicate k false)) :
    Yields DecStream.next ⟨t, r⟩ (List.replicate (k / c) z) := by
  have hc : 0 < c := by
    have := branch_paths hb _ hz
    rcases Nat.eq_zero_or_pos c with rfl | hc
    · simp at this
    · exact hc
  induction k using Nat.strongRecOn generalizing r with
  | _ k ih =>
    by_cases hk : c ≤ k
    · rw [show k = c + (k - c) by omega, ← List.replicate_append_replicate] at h
      obtain ⟨r', h1, h2⟩ := decStream_step hz h
      have := ih (k - c) (by omega) h2
      rw [Nat.div_eq_sub_div hc hk, List.replicate_succ]
      exact ⟨_, h1, this⟩
    · rw [Nat.div_eq_of_lt (by omega)]
      refine ⟨fun s => ∃ r j, j < c ∧ s = ⟨t, r⟩ ∧
        Yields (BitReader.next .msbFirst) r (List.replicate j false), ⟨r, k, by omega, rfl, h⟩, ?_⟩
      rintro s ⟨r, j, hj, rfl, hr⟩
      obtain ⟨r', h1, h2⟩ := lookup_short (t := t) (by
        intro p hp hpre
        have hrep : p.1 <+: List.replicate c false :=
          hpre.trans ⟨List.replicate (c - j) false, by
            rw [List.replicate_append_replicate]; congr 1; omega⟩
        have := (leaves_prefix (p := p.1) (x := p.2) hp hz hrep).1
        have h3 := hpre.length_le
        rw [this] at h3
        simp at h3; omega) hr
      refine ⟨by simp [DecStream.next, h1], r', 0, hc, by simp [DecStream.next, h1], h2⟩

theorem decStream_yields [DecidableEq T] {t : BinTrie T} (hb : 1 < t.size) {items : List T} {k : Nat}
    {c : Nat} {z : T} (hz : (List.replicate c false, z) ∈ leaves t)
    (hs : ∀ x ∈ items, x ∈ symbols t) {r : BitReader}
    (h : Yields (BitReader.next .msbFirst) r
      (items.flatMap (codeOf t) ++ List.replicate k false)) :
    Yields DecStream.next ⟨t, r⟩ (items ++ List.replicate (k / c) z) := by
  induction items generalizing r with
  | nil => exact decStream_zeros hb hz k h
  | cons x xs ih =>
    rw [List.flatMap_cons, List.append_assoc] at h
    obtain ⟨r', h1, h2⟩ := decStream_step (codeOf_mem (hs x (by simp))) h
    exact ⟨_, h1, ih (fun y hy => hs y (by simp [hy])) h2⟩

/-- A tree with a single leaf decodes to that symbol without consuming bits. -/
theorem decStream_single (x : T) (r : BitReader) (n : Nat) :
    Supplies DecStream.next ⟨.leaf x, r⟩ (List.replicate n x) := by
  induction n with
  | zero => trivial
  | succ n ih => exact ⟨_, rfl, ih⟩

end

/-! ## A concrete priority queue -/

/-- Removes the first element of minimal frequency. -/
def extractMin {T : Type} : List (Suffix T) → Option (Suffix T × List (Suffix T))
  | [] => none
  | x :: xs =>
    match extractMin xs with
    | none => some (x, xs)
    | some (m, rest) => if x.freq ≤ m.freq then some (x, xs) else some (m, x :: rest)

theorem extractMin_none {T : Type} (l : List (Suffix T)) (h : extractMin l = none) : l = [] := by
  cases l with
  | nil => rfl
  | cons x xs =>
    simp only [extractMin] at h
    split at h
    · cases h
    · split at h <;> cases h

theorem extractMin_some {T : Type} (l : List (Suffix T)) (x : Suffix T) (l' : List (Suffix T))
    (h : extractMin l = some (x, l')) : l.Perm (x :: l') ∧ ∀ y ∈ l, x.freq ≤ y.freq := by
  induction l generalizing x l' with
  | nil => cases h
  | cons a as ih =>
    simp only [extractMin] at h
    split at h
    · rename_i hn
      have := extractMin_none _ hn; subst this
      cases h; exact ⟨.refl _, by simp⟩
    · rename_i m rest hm
      obtain ⟨p, hmin⟩ := ih m rest hm
      split at h
      · rename_i hle
        cases h
        refine ⟨.refl _, fun y hy => ?_⟩
        rcases List.mem_cons.1 hy with rfl | hy
        · exact Nat.le_refl _
        · exact Nat.le_trans hle (hmin y hy)
      · rename_i hle
        cases h
        refine ⟨(p.cons a).trans (List.Perm.swap _ _ _), fun y hy => ?_⟩
        rcases List.mem_cons.1 hy with rfl | hy
        · omega
        · exact hmin y hy

/-- A priority queue satisfying the interface: an unordered list.  It shows that the interface can
be met, and is used in the examples. -/
def listHeap (T : Type) : MinHeap T where
  H := List (Suffix T)
  fromIter := id
  push h x := x :: h
  pop := extractMin
  len := List.length
  contents := id
  contents_fromIter _ := .refl _
  contents_push _ _ := .refl _
  len_eq _ := rfl
  pop_none := extractMin_none
  pop_some := extractMin_some

end Cniic
