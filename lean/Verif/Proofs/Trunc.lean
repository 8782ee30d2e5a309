import Verif.Proofs.Hilbertc

/-! # Proofs: truncated files -/

namespace Cniic
open Spec SerSpec

/-! ## Prefixes -/

theorem flatMap_prefix {α β : Type} {f : α → List β} (cs : List α) {p : List β}
    (hp : p <+: cs.flatMap f) (hne : p ≠ cs.flatMap f) :
    ∃ m c q, m < cs.length ∧ cs[m]? = some c ∧ p = (cs.take m).flatMap f ++ q ∧ q <+: f c ∧
      q ≠ f c := by
  induction cs generalizing p with
  | nil => exact absurd (List.prefix_nil.1 hp) hne
  | cons c cs ih =>
    rw [List.flatMap_cons] at hp hne
    by_cases hlt : p.length < (f c).length
    · refine ⟨0, c, p, by simp, rfl, by simp, ?_, ?_⟩
      · rcases prefix_append_cases hp with h | ⟨q, rfl, _⟩
        · exact h
        · simp at hlt; omega
      · rintro rfl; omega
    · obtain ⟨q, rfl, hq⟩ : ∃ q, p = f c ++ q ∧ q <+: cs.flatMap f := by
        rcases prefix_append_cases hp with h | h
        · exact ⟨[], by rw [List.append_nil]; exact h.eq_of_length_le (by omega), List.nil_prefix⟩
        · exact h
      obtain ⟨m, c', q', h1, h2, h3, h4, h5⟩ := ih hq (fun e => hne (by rw [e]))
      exact ⟨m + 1, c', q', by simpa using h1, by simpa using h2, by simp [h3], h4, h5⟩

/-! ## Huffman streams -/

theorem decStream_short {T : Type} [DecidableEq T] {t : BinTrie T} {items : List T}
    (hs : ∀ x ∈ items, x ∈ symbols t) {bits : List Bool} (hp : bits <+: items.flatMap (codeOf t))
    (hne : bits ≠ items.flatMap (codeOf t)) {r : BitReader}
    (h : Yields (BitReader.next .msbFirst) r bits) :
    ∃ m, m < items.length ∧ EndsAfter DecStream.next ⟨t, r⟩ (items.take m) := by
  induction items generalizing bits r with
  | nil => exact absurd (List.prefix_nil.1 hp) hne
  | cons x xs ih =>
    have hx := codeOf_mem (hs x (by simp))
    rw [List.flatMap_cons] at hp hne
    by_cases hlt : bits.length < (codeOf t x).length
    · have hb : bits <+: codeOf t x := by
        rcases prefix_append_cases hp with h | ⟨q, rfl, _⟩
        · exact h
        · simp at hlt; omega
      refine ⟨0, by simp, ?_⟩
      obtain ⟨s', h1, _⟩ := lookup_short (t := t) (bits := bits) (fun q hq hqb => by
        have := (leaves_prefix hq hx (hqb.trans hb)).1
        rw [this] at hqb
        have := hqb.length_le
        omega) h
      simp [EndsAfter, DecStream.next, h1]
    · obtain ⟨q, rfl, hq⟩ : ∃ q, bits = codeOf t x ++ q ∧ q <+: xs.flatMap (codeOf t) := by
        rcases prefix_append_cases hp with h | h
        · exact ⟨[], by rw [List.append_nil]; exact h.eq_of_length_le (by omega), List.nil_prefix⟩
        · exact h
      obtain ⟨r', h1, h2⟩ := decStream_step hx h
      obtain ⟨m, hm, he⟩ := ih (fun y hy => hs y (by simp [hy])) hq (fun e => hne (by rw [e])) h2
      exact ⟨m + 1, by simpa using hm, _, h1, he⟩

theorem bitsOf_append (a b : List UInt8) : bitsOf (a ++ b) = bitsOf a ++ bitsOf b := by
  simp [bitsOf]

theorem bitsOf_length (p : List UInt8) : (bitsOf p).length = 8 * p.length := by
  induction p with
  | nil => rfl
  | cons b bs ih => simp only [bitsOf, List.flatMap_cons, List.length_append, bitsMsb_length,
      List.length_cons] at *; omega

/-- How decoding ends on the strict prefixes of an encoding: no tree, or too few symbols. -/
theorem encodeAll_truncated {T : Type} [DecidableEq T] [Ser T] [SerSpec T] [LawfulSer T]
    (M : MinHeap T) (ho : List (T × Nat) → List (T × Nat)) (hho : IsOrder ho) (items : List T)
    (hne : items ≠ []) (hv : ∀ x ∈ items, valid x) :
    ∃ tree payload, Emits Emits.anyWay (encodeAll M ho items) (tree ++ payload) () ∧
      (∃ ds, decodeAll (tree ++ payload) = (.ok ds, []) ∧ Supplies DecStream.next ds items) ∧
      (∀ p, p <+: tree → p ≠ tree →
        (decodeAll p : Ret Unit (DecStream T) × List UInt8).1 = .err ()) ∧
      (∀ p, p <+: payload → p ≠ payload → ∃ ds m, decodeAll (tree ++ p) = (.ok ds, []) ∧
        m < items.length ∧ EndsAfter DecStream.next ds (items.take m)) := by
  obtain ⟨enc, dec, payload, k, hb, hnd, hmem, _, htv, he, hk, hbits, _⟩ :=
    encodeAll_spec M ho hho items hne hv
  refine ⟨_, _, he, ⟨_, decodeAll_tree dec htv payload, ?_⟩, ?_, ?_⟩
  · apply decStream_supplies (rest := List.replicate k false) (fun x hx => (hmem x).2 hx)
    rw [← hbits]; exact yields_bitReader payload
  · intro p hp hpn
    have htr : (BinTrie.de p : Ret Unit (BinTrie T) × List UInt8).1 = .err () := by
      obtain ⟨hnp, hc⟩ := deFuel_canon (T := T) _ p (Nat.lt_succ_self _)
      rcases hd : (BinTrie.de p : Ret Unit (BinTrie T) × List UInt8) with ⟨x | x | _, r⟩
      · obtain ⟨hvx, e⟩ := hc x r hd
        obtain ⟨s, hs⟩ := hp
        have h1 := de_tree dec htv []
        rw [List.append_nil, ← hs, e, List.append_assoc, de_tree x hvx] at h1
        obtain ⟨rfl, rfl⟩ := List.append_eq_nil_iff.1 (Prod.mk.inj h1).2
        simp at hs; exact absurd hs hpn
      · rfl
      · exact absurd (by
          rw [show BinTrie.deFuel listNext (p.length + 1) p = BinTrie.de p from rfl, hd]) hnp
    unfold decodeAll
    rcases hd : (BinTrie.de p : Ret Unit (BinTrie T) × List UInt8) with ⟨x | x | _, r⟩ <;>
      rw [hd] at htr <;> simp at htr
    exact congrArg Prod.fst (Proc.bind_err hd)
  · intro p hp hpn
    have hlt : p.length < payload.length := by
      have := hp.length_le
      rcases Nat.lt_or_ge p.length payload.length with h | h
      · exact h
      · exact absurd (hp.eq_of_length_le h) hpn
    have hb2 : (bitsOf p).length < (items.flatMap (codeOf dec)).length := by
      have := congrArg List.length hbits
      rw [bitsOf_length, List.length_append, List.length_replicate] at this
      rw [bitsOf_length]
      omega
    have hpre : bitsOf p <+: items.flatMap (codeOf dec) := by
      obtain ⟨t, rfl⟩ := hp
      rw [bitsOf_append] at hbits
      have h1 : bitsOf p <+: items.flatMap (codeOf dec) ++ List.replicate k false :=
        ⟨bitsOf t, hbits⟩
      rcases prefix_append_cases h1 with h | ⟨q, hq, _⟩
      · exact h
      · rw [hq] at hb2; simp at hb2; omega
    obtain ⟨m, hm, hend⟩ := decStream_short (fun x hx => (hmem x).2 hx) hpre
      (fun e => by rw [e] at hb2; omega) (yields_bitReader p)
    exact ⟨_, m, decodeAll_tree dec htv p, hm, hend⟩

/-! ## Streams of pixels -/

theorem Yields.endsAfter {σ α : Type} {next : Rd σ α} {s : σ} {xs : List α} (h : Yields next s xs) :
    EndsAfter next s xs := by
  induction xs generalizing s with
  | nil => obtain ⟨P, hs, hP⟩ := h; exact (hP s hs).1
  | cons x xs ih => obtain ⟨s', h1, h2⟩ := h; exact ⟨s', h1, ih h2⟩

theorem signedColor_valid (c : SignedColor) : valid c := trivial

theorem deser_endsAfter {T : Type} [Ser T] [SerSpec T] [LawfulSer T] {σ : Type} {next : Rd σ UInt8}
    {s : σ} (cs : List T) (hv : ∀ c ∈ cs, valid c) {q : List UInt8}
    (hq : (de listNext q : Ret Unit T × List UInt8).1 = .err ())
    (h : Yields next s (cs.flatMap bytes ++ q)) : EndsAfter (deserStream next : Rd σ T) s cs := by
  induction cs generalizing s with
  | nil =>
    have hs := LawfulSer.sim (α := T) _ _ _ _ (fun _ _ h => ⟨rfl, h⟩) (Sim.of_yields next)
    rw [List.flatMap_nil, List.nil_append] at h
    exact (hs.eq h).trans hq
  | cons x xs ih =>
    rw [List.flatMap_cons, List.append_assoc] at h
    obtain ⟨s', h1, h2⟩ := de_yields (hv x (by simp)) h
    exact ⟨s', h1, ih (fun y hy => hv y (by simp [hy])) h2⟩

theorem listThenPanic_bytes {T : Type} [Ser T] [SerSpec T] [LawfulSer T] {σ : Type}
    {next : Rd σ UInt8} {s : σ} {a : T} (ha : valid a) {rest : List UInt8}
    (h : PanicsAfter next s (bytes a ++ rest)) :
    ∃ s', (de next s : Ret Unit T × σ) = (.ok a, s') ∧ PanicsAfter next s' rest := by
  have hs := LawfulSer.sim (α := T) (fun s l => PanicsAfter next s l)
    (fun p q _ _ => p = true ∨ q = false) next listNext (fun _ _ _ => .inr rfl) (by
      intro s l h
      cases l with
      | nil =>
        simp only [PanicsAfter] at h
        rcases hn : next s with ⟨_ | _ | _, s'⟩ <;> rw [hn] at h <;> simp at h
        exact .inl rfl
      | cons x xs =>
        obtain ⟨s', h1, h2⟩ := h
        rw [h1]; exact ⟨rfl, h2⟩) s _ h
  rw [LawfulSer.de_bytes a ha rest] at hs
  rcases hd : (de next s : Ret Unit T × σ) with ⟨x | x | _, s'⟩ <;> rw [hd] at hs <;>
    simp only at hs
  exact ⟨s', by rw [hs.1], hs.2⟩

/-- Reading a colour from a stream that panics inside it. -/
theorem rgb_de_panics {q : List UInt8} {c : Rgb UInt8} (hq : q <+: bytes c) (hne : q ≠ bytes c) :
    (de listThenPanic q : Ret Unit (Rgb UInt8) × List UInt8).1 = .panic := by
  have hb : bytes c = [3, 0, 0, 0, 0, 0, 0, 0, c.r, c.g, c.b] := rfl
  rw [hb] at hq hne
  have hlt : q.length < 11 := by
    have h1 := hq.length_le
    rcases Nat.lt_or_ge q.length 11 with h | h
    · exact h
    · exact absurd (hq.eq_of_length_le h) hne
  rw [List.prefix_iff_eq_take] at hq
  generalize q.length = n at hq hlt
  subst hq
  have : n = 0 ∨ n = 1 ∨ n = 2 ∨ n = 3 ∨ n = 4 ∨ n = 5 ∨ n = 6 ∨ n = 7 ∨ n = 8 ∨ n = 9 ∨ n = 10 := by
    omega
  rcases this with rfl | rfl | rfl | rfl | rfl | rfl | rfl | rfl | rfl | rfl | rfl <;> rfl

theorem deser_panicsAfter {σ : Type} {next : Rd σ UInt8} {s : σ} (cs : List (Rgb UInt8))
    {q : List UInt8} {c : Rgb UInt8} (hq : q <+: bytes c) (hne : q ≠ bytes c)
    (h : PanicsAfter next s (cs.flatMap bytes ++ q)) :
    PanicsAfter (deserStream next : Rd σ (Rgb UInt8)) s cs := by
  induction cs generalizing s with
  | nil =>
    rw [List.flatMap_nil, List.nil_append] at h
    have hs := LawfulSer.sim (α := Rgb UInt8) _ _ _ _ (fun _ _ h => ⟨rfl, trivial⟩)
      (Sim.of_panicsAfter next)
    exact (hs.eq h).trans (rgb_de_panics hq hne)
  | cons x xs ih =>
    rw [List.flatMap_cons, List.append_assoc] at h
    obtain ⟨s', h1, h2⟩ := listThenPanic_bytes (rgb_valid x) h
    exact ⟨s', h1, ih h2⟩

/-! ## Files -/

theorem prefix_split {α : Type} {p a b : List α} (h : p <+: a ++ b) (hne : p ≠ a ++ b) :
    (p <+: a ∧ p ≠ a) ∨ ∃ q, p = a ++ q ∧ q <+: b ∧ q ≠ b := by
  by_cases ha : a <+: p
  · obtain ⟨q, rfl⟩ := ha
    exact .inr ⟨q, rfl, (List.prefix_append_right_inj a).1 h, fun e => hne (by rw [e])⟩
  · rcases prefix_append_cases h with h1 | ⟨q, rfl, _⟩
    · exact .inl ⟨h1, fun e => ha (e ▸ List.prefix_refl _)⟩
    · exact absurd (List.prefix_append a q) ha

theorem createBuffer_short (img : Img) {p : List UInt8} (hp : p <+: bytes (img.width, img.height))
    (hne : p ≠ bytes (img.width, img.height)) :
    ∃ r, createImageBufferStandard listNext p = (.err (), r) := by
  have := de_truncated (dims_valid img.width img.height) hp hne
  rcases hd : (de listNext p : Ret Unit (UInt32 × UInt32) × List UInt8) with ⟨_ | _ | _, r⟩ <;>
    rw [hd] at this <;> simp at this
  exact ⟨r, by unfold createImageBufferStandard; rw [Proc.bind_err hd]⟩

theorem hufmanDecode_short (img : Img) {p : List UInt8} (hp : p <+: bytes (img.width, img.height))
    (hne : p ≠ bytes (img.width, img.height)) : hufmanDecode p = .err () := by
  obtain ⟨r, h⟩ := createBuffer_short img hp hne
  unfold hufmanDecode Proc.run
  rw [Proc.bind_err h]

theorem deltaDecode_short (chk : Bool) (scan : Scan) (img : Img) {p : List UInt8}
    (hp : p <+: bytes (img.width, img.height)) (hne : p ≠ bytes (img.width, img.height)) :
    deltaDecode chk scan p = .err () := by
  obtain ⟨r, h⟩ := createBuffer_short img hp hne
  unfold deltaDecode Proc.run
  rw [Proc.bind_err h]

theorem hilbertDecode_short (scan : Scan) (m : CompressionMethod) (img : Img) {p : List UInt8}
    (hp : p <+: bytes (img.width, img.height)) (hne : p ≠ bytes (img.width, img.height)) :
    hilbertDecode scan m p = .err () := by
  have := de_truncated (dims_valid img.width img.height) hp hne
  rcases hd : (de listNext p : Ret Unit (UInt32 × UInt32) × List UInt8) with ⟨_ | _ | _, r⟩ <;>
    rw [hd] at this <;> simp at this
  unfold hilbertDecode Proc.run
  exact congrArg Prod.fst (Proc.bind_err hd)

end Cniic
