import Verif.Proofs.Huf

/-!
# Properties of Huffman coding (C08 - C14)

Everything is stated for an arbitrary symbol type with a lawful serializer, an arbitrary priority
queue satisfying the interface of `BinaryHeap`, and an arbitrary iteration order of the hash map.
-/

namespace Cniic
open Spec SerSpec

variable {T : Type} [DecidableEq T]

section
variable [Ser T] [SerSpec T] [LawfulSer T]

/-- **C08.** The encoding of any non-empty sequence decodes to a stream that starts with exactly this
sequence. -/
theorem C08_huffman_round_trip (M : MinHeap T) (ho : List (T × Nat) → List (T × Nat))
    (hho : IsOrder ho) (items : List T) (hne : items ≠ []) (hv : ∀ x ∈ items, valid x) :
    ∃ bytes ds, Emits Emits.anyWay (encodeAll M ho items) bytes () ∧
      decodeAll bytes = (.ok ds, []) ∧ Supplies DecStream.next ds items := by
  obtain ⟨enc, dec, payload, k, hb, hnd, hmem, _, htv, he, hk, hbits, _⟩ :=
    encodeAll_spec M ho hho items hne hv
  refine ⟨_, _, he, decodeAll_tree dec htv payload, ?_⟩
  apply decStream_supplies (rest := List.replicate k false) (fun x hx => (hmem x).2 hx)
  rw [← hbits]; exact yields_bitReader payload

/-- Encoding nothing panics. -/
theorem C08_empty_input_panics (M : MinHeap T) (ho : List (T × Nat) → List (T × Nat))
    (hho : IsOrder ho) (s : Sink) : encodeAll M ho [] s = (.panic, s) := by
  have h0 : ho (countFreqs []) = [] := (hho _).eq_nil
  have hlen : M.len (M.fromIter []) = 0 := by
    rw [M.len_eq, (M.contents_fromIter []).eq_nil]; rfl
  simp [encodeAll, build, buildDec, h0, hlen]

example : IsOrder (id : List (Char × Nat) → List (Char × Nat)) ∧
    IsOrder (List.reverse : List (Char × Nat) → List (Char × Nat)) ∧
    ∀ x ∈ ['a', 'b', 'a', 'c'], valid x :=
  ⟨fun _ => .refl _, fun l => l.reverse_perm, by
    intro x hx; simp at hx; rcases hx with rfl | rfl | rfl | rfl <;> (show _ ≤ 255; decide)⟩

/-- **C09**, several symbols: after the encoded symbols come at most 7 copies of one symbol of the
input, the one whose code consists of zeros only, and then the stream ends for good. -/
theorem C09_past_the_end (M : MinHeap T) (ho : List (T × Nat) → List (T × Nat))
    (hho : IsOrder ho) (items : List T) (hv : ∀ x ∈ items, valid x)
    (h2 : ∃ x ∈ items, ∃ y ∈ items, x ≠ y) :
    ∃ bytes ds z n, Emits Emits.anyWay (encodeAll M ho items) bytes () ∧
      decodeAll bytes = (.ok ds, []) ∧ z ∈ items ∧ n < 8 ∧
      Yields DecStream.next ds (items ++ List.replicate n z) := by
  obtain ⟨x, hx, y, hy, hxy⟩ := h2
  have hne : items ≠ [] := List.ne_nil_of_mem hx
  obtain ⟨enc, dec, payload, k, hb, hnd, hmem, _, htv, he, hk, hbits, _⟩ :=
    encodeAll_spec M ho hho items hne hv
  obtain ⟨c, z, hz⟩ := leftmost dec
  have hsize : 1 < dec.size := by
    rw [← leaves_length, show (leaves dec).length = (symbols dec).length by simp [symbols]]
    have hx' := (hmem x).2 hx
    have hy' := (hmem y).2 hy
    generalize symbols dec = l at hx' hy'
    match l, hx', hy' with
    | [], h, _ => simp at h
    | [a], h, h' => simp at h h'; exact absurd (h.trans h'.symm) hxy
    | _ :: _ :: l, _, _ => simp
  refine ⟨_, _, z, k / c, he, decodeAll_tree dec htv payload,
    (hmem z).1 (List.mem_map.2 ⟨_, hz, rfl⟩), ?_, ?_⟩
  · exact Nat.lt_of_le_of_lt (Nat.div_le_self _ _) hk
  · apply decStream_yields hsize hz (fun x hx => (hmem x).2 hx)
    rw [← hbits]; exact yields_bitReader payload

/-- **C09**, one symbol: the payload is empty, and the decoded stream repeats the symbol for ever.
So the number of symbols must be known from elsewhere. -/
theorem C09_single_symbol (M : MinHeap T) (ho : List (T × Nat) → List (T × Nat))
    (hho : IsOrder ho) (x : T) (hv : valid x) (n : Nat) :
    Emits Emits.anyWay (encodeAll M ho (List.replicate (n + 1) x)) (0 :: bytes x) () ∧
    ∃ ds, decodeAll (0 :: bytes x) = (.ok ds, []) ∧
      ∀ m, Supplies DecStream.next ds (List.replicate m x) := by
  have hne : List.replicate (n + 1) x ≠ [] := by simp
  obtain ⟨enc, dec, payload, k, hb, hnd, hmem, _, htv, he, hk, hbits, _⟩ :=
    encodeAll_spec M ho hho (List.replicate (n + 1) x) hne (by
      intro y hy; rw [(List.mem_replicate.1 hy).2]; exact hv)
  have hdec : dec = .leaf x := by
    have hx := (hmem x).2 (by simp)
    have hall : ∀ y ∈ symbols dec, y = x := fun y hy => (List.mem_replicate.1 ((hmem y).1 hy)).2
    have hlen : (symbols dec).length = dec.size := by simp [symbols, leaves_length]
    cases dec with
    | leaf v => rw [hall v (by simp [symbols, leaves])]
    | branch l r =>
      exfalso
      rw [symbols_branch] at hnd hall
      obtain ⟨p, hp⟩ := List.exists_mem_of_ne_nil _ (leaves_ne_nil l)
      obtain ⟨q, hq⟩ := List.exists_mem_of_ne_nil _ (leaves_ne_nil r)
      have h1 : p.2 ∈ symbols l := List.mem_map.2 ⟨p, hp, rfl⟩
      have h2 : q.2 ∈ symbols r := List.mem_map.2 ⟨q, hq, rfl⟩
      have := (List.nodup_append.1 hnd).2.2 p.2 h1 q.2 h2
      exact this ((hall _ (by simp [h1])).trans (hall _ (by simp [h2])).symm)
  subst hdec
  have hcode : (List.replicate (n + 1) x).flatMap (codeOf (.leaf x)) = [] := by
    rw [List.flatMap_eq_nil_iff]
    intro y hy
    rw [(List.mem_replicate.1 hy).2]
    simp [codeOf, leaves]
  rw [hcode, List.nil_append] at hbits
  have hpay : payload = [] := by
    have hl : (bitsOf payload).length = 8 * payload.length := by
      clear hbits he
      induction payload with
      | nil => rfl
      | cons b bs ih => simp only [bitsOf, List.flatMap_cons, List.length_append, bitsMsb_length,
          List.length_cons] at *; omega
    rw [hbits] at hl
    simp at hl
    exact List.length_eq_zero_iff.1 (by omega)
  subst hpay
  have hd := decodeAll_tree (.leaf x) htv []
  rw [List.append_nil] at he hd
  exact ⟨he, _, hd, fun m => decStream_single x _ m⟩

/-- **C12.** Size of the encoding: one tag byte per node of the tree (`2n-1` nodes for `n` distinct
symbols), the serialized distinct symbols, and the payload bits rounded up to whole bytes. -/
theorem C12_output_size (M : MinHeap T) (ho : List (T × Nat) → List (T × Nat))
    (hho : IsOrder ho) (items : List T) (hne : items ≠ []) (hv : ∀ x ∈ items, valid x) :
    ∃ enc dec code out, build M (ho (countFreqs items)) = some (enc, dec) ∧
      (∀ x ∈ items, enc.get x = BitArray.fromSlice (code x) .msbFirst) ∧
      Emits Emits.anyWay (encodeAll M ho items) out () ∧
      ∀ S : List T, S.Nodup → (∀ x, x ∈ S ↔ x ∈ items) →
        out.length = (2 * S.length - 1) + (S.map fun x => (bytes x).length).sum +
          (payloadBits code items + 7) / 8 := by
  obtain ⟨enc, dec, payload, k, hb, hnd, hmem, _, htv, he, hk, hbits, hget, _⟩ :=
    encodeAll_spec M ho hho items hne hv
  refine ⟨enc, dec, codeOf dec, _, hb, fun x hx => hget x ((hmem x).2 hx), he, ?_⟩
  intro S hS hSm
  have hperm : S.Perm (symbols dec) :=
    (List.perm_ext_iff_of_nodup hS hnd).2 fun x => by rw [hSm, hmem]
  have htree : ∀ t : BinTrie T, (treeBytes t).length + 1 =
      2 * (symbols t).length + ((symbols t).map fun x => (bytes x).length).sum := by
    intro t
    induction t with
    | leaf v => simp [treeBytes, symbols, leaves]; omega
    | branch l r ihl ihr =>
      simp only [treeBytes, symbols_branch, List.length_cons, List.length_append, List.map_append,
        List.sum_append]
      omega
  have hl : ∀ p : List UInt8, (bitsOf p).length = 8 * p.length := by
    intro p
    induction p with
    | nil => rfl
    | cons b bs ih => simp only [bitsOf, List.flatMap_cons, List.length_append, bitsMsb_length,
        List.length_cons] at *; omega
  have hpl := hl payload
  rw [hbits, List.length_append, List.length_replicate, List.length_flatMap] at hpl
  have h1 := htree dec
  rw [sum_perm (hperm.map _), hperm.length_eq]
  have hpos : 0 < (symbols dec).length := by
    have := leaves_ne_nil dec
    simp only [symbols, List.length_map]
    exact List.length_pos_iff.2 this
  rw [List.length_append]
  unfold payloadBits
  omega

/-- **C14.** Reading a code tree from arbitrary bytes never panics and always ends (any larger
recursion budget gives the same result); when it succeeds at least one byte is consumed, and the
bytes consumed are exactly what serializing the tree writes. -/
theorem C14_damaged_trees (l : List UInt8) :
    (BinTrie.de l : Ret Unit (BinTrie T) × List UInt8).1 ≠ .panic ∧
    (∀ budget, l.length < budget →
      (BinTrie.deFuel listNext budget l : Ret Unit (BinTrie T) × List UInt8) = BinTrie.de l) ∧
    ∀ (t : BinTrie T) (rest : List UInt8), BinTrie.de l = (.ok t, rest) →
      rest.length < l.length ∧
      ∃ used, l = used ++ rest ∧ Emits Emits.errOnly t.ser used () := by
  refine ⟨(deFuel_canon _ l (by omega)).1, fun b hb => ?_, fun t rest h => ?_⟩
  · exact deFuel_mono l (by omega) hb
  · obtain ⟨hv, e⟩ := (deFuel_canon _ l (by omega)).2 t rest h
    refine ⟨?_, treeBytes t, e, emits_tree t hv⟩
    rw [e]
    cases t <;> simp [treeBytes] <;> omega

example : (BinTrie.de [1, 0, 65, 0, 66, 9] : Ret Unit (BinTrie UInt8) × List UInt8) =
    (.ok (.branch (.leaf 65) (.leaf 66)), [9]) := rfl

/-- A tree cut short is rejected. -/
theorem C14_truncated_tree (t : BinTrie T) (hv : ∀ x ∈ symbols t, valid x) (bs p : List UInt8)
    (hb : Emits Emits.errOnly t.ser bs ()) (hp : p <+: bs) (hne : p ≠ bs) :
    (BinTrie.de p : Ret Unit (BinTrie T) × List UInt8).1 = .err () := by
  have htv : TreeValid t := fun q hq => hv _ (List.mem_map.2 ⟨q, hq, rfl⟩)
  have hbs : bs = treeBytes t := by
    have h1 := hb.bytesOf
    rw [(emits_tree t htv).bytesOf] at h1
    exact (Ret.ok.inj h1).symm
  subst hbs
  obtain ⟨hnp, hc⟩ := deFuel_canon (T := T) _ p (Nat.lt_succ_self _)
  rcases hd : (BinTrie.de p : Ret Unit (BinTrie T) × List UInt8) with ⟨x | x | _, r⟩
  · obtain ⟨hvx, e⟩ := hc x r hd
    obtain ⟨s, hs⟩ := hp
    have h1 := de_tree t htv []
    rw [List.append_nil, ← hs, e, List.append_assoc, de_tree x hvx] at h1
    obtain ⟨rfl, rfl⟩ := List.append_eq_nil_iff.1 (Prod.mk.inj h1).2
    simp at hs; exact absurd hs hne
  · rfl
  · exact absurd (by rw [show BinTrie.deFuel listNext (p.length + 1) p = BinTrie.de p from rfl, hd])
      hnp

end

/-- **C10.** The code table: every symbol of the input has a code, no other symbol has one, no code
is a prefix of another symbol's code, and the Kraft sum is exactly 1 (written without fractions). -/
theorem C10_complete_prefix_code (M : MinHeap T) (ho : List (T × Nat) → List (T × Nat))
    (hho : IsOrder ho) (items : List T) (hne : items ≠ []) :
    ∃ enc dec code, build M (ho (countFreqs items)) = some (enc, dec) ∧
      (∀ x ∈ items, enc.get x = BitArray.fromSlice (code x) .msbFirst) ∧
      (∀ x, x ∉ items → enc.get x = none) ∧
      PrefixFree items code ∧
      ∀ S : List T, S.Nodup → (∀ x, x ∈ S ↔ x ∈ items) →
        ∀ L, (∀ x ∈ S, (code x).length ≤ L) → kraft L (S.map fun x => (code x).length) = 2 ^ L := by
  have hpk := (hho (countFreqs items)).map (·.1)
  obtain ⟨enc, dec, hb, hs, hget, hget', hopt⟩ := build_spec M (ho (countFreqs items))
    (by
      intro h0
      have hl := (hho (countFreqs items)).length_eq
      rw [h0] at hl
      obtain ⟨x, hx⟩ := List.exists_mem_of_ne_nil _ hne
      have := (mem_countFreqs items x).2 hx
      have h00 : countFreqs items = [] := List.length_eq_zero_iff.1 hl.symm
      simp [h00] at this)
    (hpk.nodup_iff.2 (countFreqs_nodup items))
  have hmem : ∀ x, x ∈ symbols dec ↔ x ∈ items := fun x => by
    rw [hs.mem_iff, hpk.mem_iff, mem_countFreqs]
  have hnd : (symbols dec).Nodup := hs.nodup_iff.2 (hpk.nodup_iff.2 (countFreqs_nodup items))
  refine ⟨enc, dec, codeOf dec, hb, fun x hx => hget x ((hmem x).2 hx),
    fun x hx => hget' x fun h => hx ((hmem x).1 h), ?_, ?_⟩
  · intro x hx y hy h
    exact codeOf_prefixFree dec x ((hmem x).2 hx) y ((hmem y).2 hy) h
  · intro S hS hSm L hL
    have hperm : S.Perm (symbols dec) :=
      (List.perm_ext_iff_of_nodup hS hnd).2 fun x => by rw [hSm, hmem]
    rw [kraft_perm (hperm.map _)]
    have h1 : (symbols dec).map (fun x => (codeOf dec x).length) =
        (leaves dec).map fun p => p.1.length := by
      unfold symbols
      rw [List.map_map]
      apply List.map_congr_left
      intro p hp
      simp only [Function.comp]
      rw [← codeOf_unique hnd (p := p.1) (x := p.2) hp]
    rw [h1]
    apply leaves_kraft
    intro p hp
    have hx : p.2 ∈ symbols dec := List.mem_map.2 ⟨p, hp, rfl⟩
    have := hL p.2 ((hSm _).2 ((hmem _).1 hx))
    rwa [← codeOf_unique hnd (p := p.1) (x := p.2) hp] at this

/-- **C11.** No prefix code spells the input with fewer bits. -/
theorem C11_optimal (M : MinHeap T) (ho : List (T × Nat) → List (T × Nat))
    (hho : IsOrder ho) (items : List T) (hne : items ≠ []) :
    ∃ enc dec code, build M (ho (countFreqs items)) = some (enc, dec) ∧
      (∀ x ∈ items, enc.get x = BitArray.fromSlice (code x) .msbFirst) ∧
      ∀ code' : T → List Bool, PrefixFree items code' →
        payloadBits code items ≤ payloadBits code' items := by
  have hpk := (hho (countFreqs items)).map (·.1)
  obtain ⟨enc, dec, hb, hs, hget, hget', hopt⟩ := build_spec M (ho (countFreqs items))
    (by
      intro h0
      have hl := (hho (countFreqs items)).length_eq
      rw [h0] at hl
      obtain ⟨x, hx⟩ := List.exists_mem_of_ne_nil _ hne
      have := (mem_countFreqs items x).2 hx
      have h00 : countFreqs items = [] := List.length_eq_zero_iff.1 hl.symm
      simp [h00] at this)
    (hpk.nodup_iff.2 (countFreqs_nodup items))
  have hmem : ∀ x, x ∈ symbols dec ↔ x ∈ items := fun x => by
    rw [hs.mem_iff, hpk.mem_iff, mem_countFreqs]
  refine ⟨enc, dec, codeOf dec, hb, fun x hx => hget x ((hmem x).2 hx), ?_⟩
  intro code' hpf
  have hk : Kraft (((ho (countFreqs items)).map (·.1)).map fun x => (code' x).length) :=
    Kraft.of_prefixFree (hpk.nodup_iff.2 (countFreqs_nodup items)) (by
      intro x hx y hy h
      exact hpf x ((mem_countFreqs _ _).1 (hpk.mem_iff.1 hx)) y
        ((mem_countFreqs _ _).1 (hpk.mem_iff.1 hy)) h)
  rw [List.map_map] at hk
  have h1 := hopt (fun x => (code' x).length) hk
  rw [sum_perm ((hho (countFreqs items)).map fun p => p.2 * (codeOf dec p.1).length),
    sum_perm ((hho (countFreqs items)).map fun p => p.2 * (code' p.1).length),
    countFreqs_sum items (fun x => (codeOf dec x).length),
    countFreqs_sum items (fun x => (code' x).length)] at h1
  exact h1

/-- A prefix code to compare with, for a three-symbol input. -/
example : PrefixFree [1, 2, 3] (fun x : Nat => List.replicate x true ++ [false]) := by
  unfold PrefixFree; decide

omit [DecidableEq T] in
/-- **C13.** The explicit-stack iterator yields the leaves from left to right with their paths, then
ends for good, and never panics. -/
theorem C13_enumeration (t : BinTrie T) :
    Yields BinTrieIter.next (BinTrieIter.new t) (leaves t) := BinTrieIter.yields_new t

omit [DecidableEq T] in
/-- **C13**, meaning of the paths: following the path of a leaf in any bit stream leads to this leaf
and consumes exactly the path. -/
theorem C13_paths_lead_to_leaves (t : BinTrie T) (p : List Bool) (x : T) (hp : (p, x) ∈ leaves t)
    {σ : Type} (next : Rd σ Bit) (s : σ) (rest : List Bool) (h : Yields next s (p ++ rest)) :
    ∃ s', t.lookup next s = (.ok x, s') ∧ Yields next s' rest := lookup_leaf hp h

omit [DecidableEq T] in
/-- **C13**, no leaf is visited twice: different positions have incomparable paths. -/
theorem C13_paths_distinct (t : BinTrie T) : (leaves t).Pairwise fun a b => ¬ a.1 <+: b.1 ∧
    ¬ b.1 <+: a.1 := by
  induction t with
  | leaf v => simp [leaves]
  | branch l r ihl ihr =>
    simp only [leaves, List.pairwise_append, List.pairwise_map]
    refine ⟨by simpa using ihl, by simpa using ihr, ?_⟩
    intro a ha b hb
    obtain ⟨a', _, rfl⟩ := List.mem_map.1 ha
    obtain ⟨b', _, rfl⟩ := List.mem_map.1 hb
    simp

example : leaves (BinTrie.branch (.leaf 'a') (.branch (.leaf 'b') (.leaf 'c'))) =
    [([false], 'a'), ([true, false], 'b'), ([true, true], 'c')] := rfl

/-! A complete run: three symbols, two of them distinct.  The five padding bits spell the symbol 9 five
more times, so the bound in C09 is not vacuous. -/

theorem example_build : build (listHeap UInt8) (id (countFreqs [7, 9, 7])) =
    some (⟨[(7, ⟨[], 1, 1, .msbFirst⟩), (9, ⟨[], 1, 0, .msbFirst⟩)]⟩,
      .branch (.leaf 9) (.leaf 7)) := by
  have h : countFreqs [(7 : UInt8), 9, 7] = [(7, 2), (9, 1)] := by decide
  simp [h, build, buildDec, buildLoop, listHeap, extractMin, Suffix.ofItem]
  simp [Enc.ofTrie, BinTrie.size, drain, BinTrieIter.new, BinTrieIter.allTheWayLeft,
    BinTrieIter.next, BinTrieIter.popParents, BinTrieIter.popLoop, Enc.insertAll,
    BitArray.fromSlice, packFull, pushBit]
  decide

example : bytesOf (encodeAll (listHeap UInt8) id [7, 9, 7]) =
    .ok [1, 0, 9, 0, 7, 0b10100000] := by
  unfold encodeAll; rw [example_build]; rfl

example : drain DecStream.next 20
    (⟨.branch (.leaf (9 : UInt8)) (.leaf 7), bitReader [0b10100000]⟩ : DecStream UInt8) =
    .ok ([7, 9, 7] ++ List.replicate 5 9) := by decide

end Cniic
