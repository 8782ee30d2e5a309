import Verif.Model.Position
import Verif.Proofs.Trailing
import Verif.Proofs.DictDepth

/-! # Proofs: where decoding leaves the reader -/

namespace Cniic
open Spec SerSpec

/-- Pulling from state `s` gives the items one after the other and leaves the stream in state `e`. -/
def Reaches {σ α : Type} (next : Rd σ α) (e : σ) : σ → List α → Prop
  | s, [] => s = e
  | s, x :: xs => ∃ s', next s = (.ok x, s') ∧ Reaches next e s' xs

namespace Reaches
variable {σ α : Type} {next : Rd σ α}

theorem of_next_eq {e s t : σ} {x : α} {xs : List α} (h : next s = next t) (ht : Reaches next e t (x :: xs)) :
    Reaches next e s (x :: xs) := by
  obtain ⟨s', h1, h2⟩ := ht
  exact ⟨s', h.trans h1, h2⟩

theorem trans {e m s : σ} {xs ys : List α} (h : Reaches next m s xs) (h' : Reaches next e m ys) :
    Reaches next e s (xs ++ ys) := by
  induction xs generalizing s with
  | nil => cases h; exact h'
  | cons x xs ih =>
    obtain ⟨s', h1, h2⟩ := h
    exact ⟨s', h1, ih h2⟩

theorem append_inv {e s : σ} {xs ys : List α} (h : Reaches next e s (xs ++ ys)) :
    ∃ m, Reaches next m s xs ∧ Reaches next e m ys := by
  induction xs generalizing s with
  | nil => exact ⟨s, rfl, h⟩
  | cons x xs ih =>
    obtain ⟨s', h1, h2⟩ := h
    obtain ⟨m, h3, h4⟩ := ih h2
    exact ⟨m, ⟨s', h1, h3⟩, h4⟩

theorem supplies {e s : σ} {xs : List α} (h : Reaches next e s xs) : Supplies next s xs := by
  induction xs generalizing s with
  | nil => trivial
  | cons x xs ih =>
    obtain ⟨s', h1, h2⟩ := h
    exact ⟨s', h1, ih h2⟩

theorem stops {e s : σ} {xs ys : List α} (h : Reaches next e s xs) (hs : Stops next s (xs ++ ys)) :
    Stops next e ys := by
  induction xs generalizing s with
  | nil => cases h; exact hs
  | cons x xs ih =>
    obtain ⟨s', h1, h2⟩ := h
    apply ih h2
    rcases hs with ⟨t, h3, h4⟩ | ⟨t, h3, h4⟩
    · rw [h1] at h3; cases h3; exact .inl h4
    · rw [h1] at h3; cases h3; exact .inr h4

end Reaches

theorem stops_unique {σ α : Type} {next : Rd σ α} {s : σ} {xs ys : List α} (h : Stops next s xs)
    (h' : Stops next s ys) : xs = ys := by
  induction xs generalizing s ys with
  | nil =>
    cases ys with
    | nil => rfl
    | cons y ys =>
      rcases h with h | h <;> rcases h' with ⟨t, h1, -⟩ | ⟨t, h1, -⟩ <;>
        simp only [EndsAfter, PanicsAfter, h1] at h <;> cases h
  | cons x xs ih =>
    have hx : ∃ s', next s = (.ok x, s') ∧ Stops next s' xs := by
      rcases h with ⟨s', h1, h2⟩ | ⟨s', h1, h2⟩
      · exact ⟨s', h1, .inl h2⟩
      · exact ⟨s', h1, .inr h2⟩
    obtain ⟨s', h1, h2⟩ := hx
    cases ys with
    | nil => rcases h' with h' | h' <;> simp only [EndsAfter, PanicsAfter, h1] at h' <;> cases h'
    | cons y ys =>
      have hy : ∃ s', next s = (.ok y, s') ∧ Stops next s' ys := by
        rcases h' with ⟨s', h1, h2⟩ | ⟨s', h1, h2⟩
        · exact ⟨s', h1, .inl h2⟩
        · exact ⟨s', h1, .inr h2⟩
      obtain ⟨t, h3, h4⟩ := hy
      rw [h1] at h3
      cases h3
      rw [ih h2 h4]

/-! ## Reading values from a stream of bytes -/

/-- Following a stream whose items are known, and where it stands when only `q` is left of them. -/
theorem stops_sim {σ : Type} (next : Rd σ UInt8) (q : List UInt8) (e : σ) :
    Sim (fun s l => Stops next s l ∧ ∀ p, l = p ++ q → Reaches next e s p) (fun _ _ _ _ => True) next listNext := by
  rintro s l ⟨h, hp⟩
  cases l with
  | nil =>
    rcases h with h | h <;> simp only [EndsAfter, PanicsAfter] at h <;>
      rcases hn : next s with ⟨_ | _ | _, s'⟩ <;> rw [hn] at h <;> simp at h <;> trivial
  | cons x xs =>
    obtain ⟨s', h1, h2⟩ : ∃ s', next s = (.ok x, s') ∧ Stops next s' xs := by
      rcases h with ⟨s', h1, h2⟩ | ⟨s', h1, h2⟩
      · exact ⟨s', h1, .inl h2⟩
      · exact ⟨s', h1, .inr h2⟩
    rw [h1]
    refine ⟨rfl, h2, fun p e => ?_⟩
    obtain ⟨s'', h3, h4⟩ := hp (x :: p) (by rw [e]; rfl)
    rw [h1] at h3
    cases h3
    exact h4

theorem reads_reaches {σ α : Type} {next : Rd σ UInt8} {m : Rd σ α} {m' : Rd (List UInt8) α} {e s : σ}
    {p q : List UInt8} {a : α}
    (hm : Sim (fun s l => Stops next s l ∧ ∀ p, l = p ++ q → Reaches next e s p) (fun _ _ _ _ => True) m m')
    (hs : Stops next s (p ++ q)) (hr : Reaches next e s p) (hl : m' (p ++ q) = (.ok a, q)) : m s = (.ok a, e) := by
  have h := hm s (p ++ q) ⟨hs, fun p' h => by rw [← List.append_cancel_right h]; exact hr⟩
  rw [hl] at h
  rcases hd : m s with ⟨a' | a' | _, s'⟩ <;> rw [hd] at h <;> simp only at h
  obtain ⟨rfl, -, h⟩ := h
  have : s' = e := h [] rfl
  rw [this]

theorem rebuildImage_data (img : Img) (ha : Addressable img) (q : List UInt8) :
    rebuildImage listNext (zipData img ++ q) = (.ok img.toRgb, q) := by
  have h0 := rebuildImage_list img ha
  rcases hr : rebuildImage listNext (zipData img) with ⟨a, r⟩
  rw [hr] at h0
  simp only at h0
  subst h0
  have h1 := Local.rebuild _ _ _ hr q
  rw [h1]
  have : r = [] := by
    unfold rebuildImage zipData at hr
    rw [Proc.bind_ok (LawfulSer.de_bytes _ (dims_valid img.width img.height) _), new_eq img ha] at hr
    have := readN_bytes img.rgbPixels (fun c _ => rgb_valid c) []
    rw [List.append_nil, rgbPixels_length] at this
    simp only [orPanic, pure_bind, List.length_replicate] at hr
    rw [Proc.bind_ok this] at hr
    exact ((Prod.mk.inj hr).2).symm
  rw [this]
  rfl

theorem rebuildImage_reaches {σ : Type} {next : Rd σ UInt8} {e s : σ} {q : List UInt8} (img : Img)
    (ha : Addressable img) (hs : Stops next s (zipData img ++ q)) (hr : Reaches next e s (zipData img)) :
    rebuildImage next s = (.ok img.toRgb, e) :=
  reads_reaches (rebuildImage_sim (fun _ _ _ => trivial) (fun _ _ _ => trivial) (stops_sim next q e)) hs hr
    (rebuildImage_data img ha q)

theorem deser_reaches {σ : Type} {next : Rd σ UInt8} {e s : σ} (cs : List (Rgb UInt8)) {q : List UInt8}
    (hs : Stops next s (cs.flatMap bytes ++ q)) (hr : Reaches next e s (cs.flatMap bytes)) :
    Reaches (deserStream next : Rd σ (Rgb UInt8)) e s cs := by
  induction cs generalizing s with
  | nil => exact hr
  | cons c cs ih =>
    rw [List.flatMap_cons] at hr hs
    obtain ⟨m, h1, h2⟩ := hr.append_inv
    rw [List.append_assoc] at hs
    have h3 : (de next s : Ret Unit (Rgb UInt8) × σ) = (.ok c, m) :=
      reads_reaches (LawfulSer.sim _ _ _ _ (fun _ _ _ => trivial) (stops_sim next (cs.flatMap bytes ++ q) m)) hs h1
        (LawfulSer.de_bytes c (rgb_valid c) _)
    exact ⟨m, h3, ih (h1.stops hs) h2⟩

/-! ## The streams -/

theorem dict_pop (xs : List UInt8) (d : DictDecoder) (ys : List UInt8) (h : d.prevDecoded = xs ++ ys) :
    Reaches DictDecoder.next { d with prevDecoded := ys } d xs := by
  induction xs generalizing d with
  | nil =>
    obtain ⟨a, b, m, c⟩ := d
    simp only [List.nil_append] at h
    subst h
    rfl
  | cons x xs ih =>
    refine ⟨{ d with prevDecoded := xs ++ ys }, ?_, ?_⟩
    · rw [DictDecoder.next, h]; rfl
    · exact ih { d with prevDecoded := xs ++ ys } rfl

/-- Reading what the encoder wrote takes all of it and nothing of what follows. -/
theorem dict_reaches {known i syms} (h : Parse known i syms) (hl : known.length ≤ 65535) (rest : List UInt8)
    (d : DictDecoder) (hd : DecInv d known) (he : d.encoded = symBytes syms ++ rest) (hp : d.prevDecoded = []) :
    ∃ e : DictDecoder, e.encoded = rest ∧ Reaches DictDecoder.next e d i := by
  induction h generalizing d with
  | nil => exact ⟨d, by simpa [symBytes] using he, rfl⟩
  | @one known i s x h =>
    obtain ⟨en, pd, mp, ab⟩ := d
    simp only at he hp
    subst hp
    simp only [symBytes, List.flatMap_cons, List.flatMap_nil, List.cons_append, List.nil_append] at he
    subst he
    obtain ⟨d1, h1, h2, -, h3, -⟩ := dec_step hd (x := x) (y := []) (by rw [sym_split]; exact h.expand hl)
      (by rw [sym_split]; rfl)
    have h4 := dict_pop x d1 [] h2
    refine ⟨{ d1 with prevDecoded := [] }, h1, ?_⟩
    have hi : i = x := by simpa using h.split
    subst hi
    cases i with
    | nil => exact absurd rfl h.nonempty
    | cons b x => exact Reaches.of_next_eq h3 h4
  | @two known i s1 x1 i' s2 x2 i'' syms h1 h2 _ ih =>
    obtain ⟨en, pd, mp, ab⟩ := d
    simp only at he hp
    subst hp
    simp only [symBytes, List.flatMap_cons, List.cons_append, List.nil_append] at he
    subst he
    obtain ⟨d1, g1, g2, g3, g4, -⟩ := dec_step hd (x := x1) (y := x2) (by rw [sym_split]; exact h1.expand hl)
      (by rw [sym_split]; exact h2.expand hl)
    have h4 := dict_pop (x1 ++ x2) d1 [] (by simpa using g2)
    obtain ⟨e, k1, k2⟩ := ih (learn_le hl _) { d1 with prevDecoded := [] } ⟨g3.map, g3.len⟩ g1 rfl
    refine ⟨e, k1, ?_⟩
    have h5 := h4.trans k2
    have hi : i = (x1 ++ x2) ++ i'' := by rw [h1.split, h2.split, List.append_assoc]
    rw [hi]
    have hne := h1.nonempty
    cases x1 with
    | nil => exact absurd rfl hne
    | cons b x => exact Reaches.of_next_eq g4 h5

theorem back_pop {N : Nat} (xs : List UInt8) {d : Back.Decoder} {h bytes : List UInt8} (hd : Back.DecInv N d h bytes xs) :
    ∃ e, Back.DecInv N e h bytes [] ∧ Reaches Back.Decoder.next e d xs := by
  induction xs generalizing d with
  | nil => exact ⟨d, hd, rfl⟩
  | cons x xs ih =>
    obtain ⟨d', h1, h2⟩ := hd.pop
    obtain ⟨e, h3, h4⟩ := ih h2
    exact ⟨e, h3, d', h1, h4⟩

theorem symbolMeaning_ne {N : Nat} {h x : List UInt8} {s : Back.Symbol} (hx : symbolMeaning N h s = some x)
    (hne : s ≠ .explicit [] ∧ ∀ len back, s = .lookBack len back → 0 < len ∧ 0 < back) : x ≠ [] := by
  cases s with
  | explicit data =>
    simp only [symbolMeaning, Option.some.injEq] at hx
    subst hx
    exact fun h => hne.1 (by rw [h])
  | lookBack len back =>
    have h3 := hne.2 len back rfl
    simp only [symbolMeaning] at hx
    split at hx
    · simp only [Option.some.injEq] at hx
      subst hx
      intro he
      have := congrArg List.length he
      simp at this; omega
    · cases hx

theorem back_reaches {N : Nat} (hN : 0 < N) (syms : List Back.Symbol) (hf : ∀ s ∈ syms, Fits s)
    {h out : List UInt8} (hm : meaningFrom N h syms = some out)
    (hne : ∀ s ∈ syms, s ≠ .explicit [] ∧ ∀ len back, s = .lookBack len back → 0 < len ∧ 0 < back)
    (rest : List UInt8) {d : Back.Decoder} (hd : Back.DecInv N d h (syms.flatMap symbolBytes ++ rest) []) :
    ∃ e : Back.Decoder, e.iter = rest ∧ Reaches Back.Decoder.next e d out := by
  induction syms generalizing d h out with
  | nil =>
    simp only [meaningFrom, Option.some.injEq] at hm
    subst hm
    exact ⟨d, by simpa using hd.iter, rfl⟩
  | cons s syms ih =>
    simp only [meaningFrom] at hm
    cases hx : symbolMeaning N h s with
    | none => rw [hx] at hm; cases hm
    | some x =>
      rw [hx] at hm
      simp only at hm
      cases hy : meaningFrom N (h ++ x) syms with
      | none => rw [hy] at hm; cases hm
      | some y =>
        rw [hy] at hm
        simp only [Option.some.injEq] at hm
        subst hm
        rw [List.flatMap_cons, List.append_assoc] at hd
        obtain ⟨d', h1, h2⟩ := hd.decode_some hN (hf s (by simp)) hx
        have hxne := symbolMeaning_ne hx (hne s (by simp))
        obtain ⟨m, h3, h4⟩ := back_pop x h2
        obtain ⟨e, h5, h6⟩ := ih (fun t ht => hf t (by simp [ht])) hy (fun t ht => hne t (by simp [ht])) h3
        refine ⟨e, h5, ?_⟩
        have h7 := h4.trans h6
        cases x with
        | nil => exact absurd rfl hxne
        | cons b x => exact Reaches.of_next_eq (Back.next_of_decode hd.dec h1 h2.dec) h7

theorem rle_reaches (runs : List (UInt8 × Rgb UInt8)) (h : ∀ r ∈ runs, 1 ≤ r.1.toNat) (rest : List UInt8) :
    ∃ e : RleDecoder, e.bytes = rest ∧
      Reaches RleDecoder.next e (RleDecoder.new (runs.flatMap runBytes ++ rest)) (expandRuns runs) := by
  have := rleDecoder_runs (P := fun s xs => ∃ e : RleDecoder, e.bytes = rest ∧ Reaches RleDecoder.next e s xs)
    (fun {s s' x xs} h1 h2 => by
      obtain ⟨e, h3, h4⟩ := h2
      exact ⟨e, h3, s', h1, h4⟩) runs h rest (xs := []) (fun cur => ⟨_, rfl, rfl⟩) black
  simpa [RleDecoder.new] using this

/-! ## Codes -/

/-- The bits that the reader of bits still gives. -/
def BitReader.left (r : BitReader) : List Bit := r.front ++ r.bytes.flatMap (bitArray · .msbFirst)

theorem bitReader_left {r r' : BitReader} {b : Bit} (h : BitReader.next .msbFirst r = (.ok b, r')) :
    r.left = b :: r'.left := by
  obtain ⟨front, bytes⟩ := r
  unfold BitReader.next at h
  cases front with
  | cons x xs => cases h; rfl
  | nil =>
    cases bytes with
    | nil => cases h
    | cons n ns =>
      simp only at h
      split at h
      · cases h
      · rename_i e
        cases h
        simp only [BitReader.left, List.nil_append, List.flatMap_cons, e]
        rfl

theorem lookup_left {T : Type} (t : BinTrie T) {r r' : BitReader} {x : T}
    (h : t.lookup (BitReader.next .msbFirst) r = (.ok x, r')) : ∃ c, (c, x) ∈ leaves t ∧ r.left = c ++ r'.left := by
  induction t generalizing r with
  | leaf v => cases h; exact ⟨[], by simp [leaves], rfl⟩
  | branch l m ihl ihm =>
    obtain ⟨b, s, h1, h2⟩ := bind_ok_inv h
    have h3 := bitReader_left h1
    cases b
    · obtain ⟨c, h4, h5⟩ := ihl h2
      exact ⟨false :: c, by simp [leaves, h4], by rw [h3, h5]; rfl⟩
    · obtain ⟨c, h4, h5⟩ := ihm h2
      exact ⟨true :: c, by simp [leaves, h4], by rw [h3, h5]; rfl⟩

theorem decStream_reaches {T : Type} [DecidableEq T] {t : BinTrie T} (hn : (symbols t).Nodup) {r : BitReader}
    {items : List T} (h : Supplies DecStream.next ⟨t, r⟩ items) :
    ∃ r', Reaches DecStream.next ⟨t, r'⟩ ⟨t, r⟩ items ∧ r.left = items.flatMap (codeOf t) ++ r'.left := by
  induction items generalizing r with
  | nil => exact ⟨r, rfl, rfl⟩
  | cons x xs ih =>
    obtain ⟨s', h1, h2⟩ := h
    have h1' := h1
    unfold DecStream.next at h1
    rcases hl : t.lookup (BitReader.next .msbFirst) r with ⟨y, r1⟩
    simp only [hl] at h1
    cases h1
    obtain ⟨r', h3, h4⟩ := ih h2
    obtain ⟨c, h5, h6⟩ := lookup_left t hl
    refine ⟨r', ⟨_, h1', h3⟩, ?_⟩
    have : codeOf t x = c := (codeOf_unique hn h5).symm
    rw [List.flatMap_cons, this, h6, h4, List.append_assoc]

theorem decStream_reaches_more {T : Type} {e s : DecStream T} {xs : List T} (h : Reaches DecStream.next e s xs)
    (rest : List UInt8) : Reaches DecStream.next (e.more rest) (s.more rest) xs := by
  induction xs generalizing s with
  | nil => cases h; rfl
  | cons x xs ih =>
    obtain ⟨s', h1, h2⟩ := h
    exact ⟨_, decStream_more h1 rest, ih h2⟩

theorem left_bytes {r : BitReader} (h : r.left.length < 8) : r.bytes = [] := by
  obtain ⟨front, bytes⟩ := r
  cases bytes with
  | nil => rfl
  | cons b bytes =>
    simp [BitReader.left, bitArray_msb, bitsOf] at h
    omega

/-- What is written for a list of symbols is read to its end and no further. -/
theorem encodeAll_reaches {T : Type} [DecidableEq T] [Ser T] [SerSpec T] [LawfulSer T]
    (M : MinHeap T) (ho : List (T × Nat) → List (T × Nat)) (hho : IsOrder ho) (items : List T)
    (hne : items ≠ []) (hv : ∀ x ∈ items, valid x) :
    ∃ dec payload, TreeValid dec ∧ Emits Emits.anyWay (encodeAll M ho items) (treeBytes dec ++ payload) () ∧
      ∀ rest, ∃ e : DecStream T, e.bits.bytes = rest ∧
        Reaches DecStream.next e ⟨dec, bitReader (payload ++ rest)⟩ items := by
  obtain ⟨enc, dec, payload, k, hb, hnd, hmem, _, htv, he, hk, hbits, _⟩ :=
    encodeAll_spec M ho hho items hne hv
  refine ⟨dec, payload, htv, he, fun rest => ?_⟩
  have hs : Supplies DecStream.next ⟨dec, bitReader payload⟩ items := by
    apply decStream_supplies (rest := List.replicate k false) (fun x hx => (hmem x).2 hx)
    rw [← hbits]; exact yields_bitReader payload
  obtain ⟨r', h1, h2⟩ := decStream_reaches hnd hs
  have h3 : (bitReader payload).left = bitsOf payload := by
    simp [BitReader.left, bitReader, bitArray_msb, bitsOf]
  rw [h3, hbits] at h2
  have h4 : r'.bytes = [] := by
    apply left_bytes
    rw [← List.append_cancel_left h2, List.length_replicate]
    exact hk
  exact ⟨_, by simp [DecStream.more, h4], decStream_reaches_more h1 rest⟩

/-! ## Images -/

theorem hufmanFill_reaches {e s : DecStream (Rgb UInt8)} {items : List (Rgb UInt8)}
    (h : Reaches DecStream.next e s items) : hufmanFill items.length s = (.ok items, e) := by
  induction items generalizing s with
  | nil => cases h; rfl
  | cons x xs ih =>
    obtain ⟨s', h1, h2⟩ := h
    rw [List.length_cons, hufmanFill, h1]
    simp only [ih h2]

theorem paint_reaches {σ : Type} {next : Rd σ (Rgb UInt8)} {e : σ} (cs : List (Nat × Nat)) (img : RgbImage) {s : σ}
    {xs : List (Rgb UInt8)} (hl : xs.length = cs.length)
    (hc : ∀ c ∈ cs, c.1 < img.width.toNat ∧ c.2 < img.height.toNat) (h : Reaches next e s xs) :
    ∃ out, paint next cs img s = (.ok out, e) := by
  induction cs generalizing img s xs with
  | nil =>
    cases xs with
    | nil => cases h; exact ⟨img, rfl⟩
    | cons x xs => simp at hl
  | cons c cs ih =>
    obtain ⟨x, y⟩ := c
    cases xs with
    | nil => simp at hl
    | cons a xs =>
      obtain ⟨s', h1, h2⟩ := h
      rw [paint, h1]
      simp only
      rw [show img.put x y a = _ from put_eq (c := (x, y)) (hc _ (by simp)) _]
      exact ih _ (by simpa using hl) (fun c hm => hc c (by simp [hm])) h2

theorem fromDiff_reaches {σ : Type} (chk : Bool) {next : Rd σ SignedColor} {e s : σ}
    (last : Rgb UInt8) (cs : List (Rgb UInt8)) (h : Reaches next e s (diffs last cs)) :
    ∃ l, Reaches (FromDiff.next chk next) ⟨e, l⟩ ⟨s, .ofRgb last⟩ cs := by
  induction cs generalizing s last with
  | nil => cases h; exact ⟨_, rfl⟩
  | cons c cs ih =>
    obtain ⟨s', h1, h2⟩ := h
    obtain ⟨l, h3⟩ := ih c h2
    exact ⟨l, _, fromDiff_step chk h1, h3⟩

end Cniic
