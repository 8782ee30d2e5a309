import Verif.Proofs.Trunc
import Verif.Proofs.Voronoi
import Verif.Props.ZipDict

/-! # Proofs: bytes after the end of a file -/

namespace Cniic
open Spec SerSpec

/-- A reader that succeeds does not look at what follows the bytes it consumes. -/
def Local {α : Type} (m : Rd (List UInt8) α) : Prop :=
  ∀ l a r, m l = (.ok a, r) → ∀ rest, m (l ++ rest) = (.ok a, r ++ rest)

namespace Local

theorem pure {α : Type} (a : α) : Local (Pure.pure a : Rd (List UInt8) α) := by
  intro l b r h rest
  cases h
  rfl

theorem none {α : Type} : Local (Rd.none : Rd (List UInt8) α) := by
  intro l b r h rest
  cases h

theorem panic {α : Type} : Local (Proc.panic : Rd (List UInt8) α) := by
  intro l b r h rest
  cases h

theorem bind {α β : Type} {m : Rd (List UInt8) α} {f : α → Rd (List UInt8) β} (h : Local m)
    (hf : ∀ a, Local (f a)) : Local (m >>= f) := by
  intro l b r hb rest
  obtain ⟨a, s, h1, h2⟩ := bind_ok_inv hb
  rw [Proc.bind_ok (h l a s h1 rest)]
  exact hf a s b r h2 rest

theorem orPanic {α : Type} (o : Option α) : Local (Cniic.orPanic o : Rd (List UInt8) α) := by
  cases o with
  | none => exact panic
  | some a => exact pure a

theorem de {α : Type} [Ser α] [SerSpec α] [LawfulSer α] : Local (Cniic.de listNext : Rd (List UInt8) α) := by
  intro l a r h rest
  obtain ⟨hv, rfl⟩ := LawfulSer.canon l a r h
  rw [List.append_assoc]
  exact LawfulSer.de_bytes a hv _

theorem readN {α : Type} [Ser α] [SerSpec α] [LawfulSer α] (k : Nat) :
    Local (Cniic.readN listNext k : Rd (List UInt8) (List α)) := by
  intro l xs r h rest
  obtain ⟨hl, hv, rfl⟩ := readN_canon h
  subst hl
  rw [List.append_assoc]
  exact readN_bytes xs hv _

theorem tree {T : Type} [Ser T] [SerSpec T] [LawfulSer T] : Local (BinTrie.de : Rd (List UInt8) (BinTrie T)) := by
  intro l t r h rest
  obtain ⟨hv, rfl⟩ := (deFuel_canon _ l (Nat.lt_succ_self _)).2 t r h
  rw [List.append_assoc]
  exact de_tree t hv _

theorem buffer : Local (createImageBufferStandard listNext) :=
  bind de fun _ => bind (orPanic _) fun _ => pure _

theorem rebuild : Local (rebuildImage listNext) :=
  bind de fun _ => bind (orPanic _) fun _ => bind (readN _) fun _ => pure _

end Local

/-! ## Huffman codes -/

/-- The stream of symbols with more bytes at the end. -/
def DecStream.more {T : Type} (s : DecStream T) (rest : List UInt8) : DecStream T :=
  { s with bits := { s.bits with bytes := s.bits.bytes ++ rest } }

theorem bitReader_more {r r' : BitReader} {b : Bit} (h : BitReader.next .msbFirst r = (.ok b, r')) (rest : List UInt8) :
    BitReader.next .msbFirst { r with bytes := r.bytes ++ rest } = (.ok b, { r' with bytes := r'.bytes ++ rest }) := by
  obtain ⟨front, bytes⟩ := r
  unfold BitReader.next at h ⊢
  cases front with
  | cons x xs => cases h; rfl
  | nil =>
    cases bytes with
    | nil => cases h
    | cons n ns =>
      simp only [List.cons_append] at h ⊢
      split at h
      · cases h
      · rename_i e
        cases h
        rfl

theorem lookup_more {T : Type} (t : BinTrie T) {r r' : BitReader} {x : T}
    (h : t.lookup (BitReader.next .msbFirst) r = (.ok x, r')) (rest : List UInt8) :
    t.lookup (BitReader.next .msbFirst) { r with bytes := r.bytes ++ rest } =
      (.ok x, { r' with bytes := r'.bytes ++ rest }) := by
  induction t generalizing r with
  | leaf v => cases h; rfl
  | branch l m ihl ihm =>
    obtain ⟨b, s, h1, h2⟩ := bind_ok_inv h
    rw [BinTrie.lookup, Proc.bind_ok (bitReader_more h1 rest)]
    cases b
    · exact ihl h2
    · exact ihm h2

theorem decStream_more {T : Type} {s s' : DecStream T} {x : T} (h : DecStream.next s = (.ok x, s'))
    (rest : List UInt8) : DecStream.next (s.more rest) = (.ok x, s'.more rest) := by
  obtain ⟨t, r⟩ := s
  unfold DecStream.next DecStream.more at *
  rcases hl : t.lookup (BitReader.next .msbFirst) r with ⟨y, r'⟩
  simp only [hl] at h
  cases h
  simp only [lookup_more t hl rest]

theorem supplies_more {T : Type} {s : DecStream T} {xs : List T} (h : Supplies DecStream.next s xs)
    (rest : List UInt8) : Supplies DecStream.next (s.more rest) xs := by
  induction xs generalizing s with
  | nil => trivial
  | cons x xs ih =>
    obtain ⟨s', h1, h2⟩ := h
    exact ⟨_, decStream_more h1 rest, ih h2⟩

theorem hufmanFill_ok {n : Nat} {s s' : DecStream (Rgb UInt8)} {xs : List (Rgb UInt8)}
    (h : hufmanFill n s = (.ok xs, s')) : xs.length = n ∧ Supplies DecStream.next s xs := by
  induction n generalizing s xs with
  | zero => cases h; exact ⟨rfl, trivial⟩
  | succ n ih =>
    rw [hufmanFill] at h
    rcases h1 : DecStream.next s with ⟨x | _ | _, s1⟩
    · simp only [h1] at h
      rcases h2 : hufmanFill n s1 with ⟨ys | _ | _, s2⟩ <;> simp only [h2] at h <;> cases h
      obtain ⟨e, h3⟩ := ih h2
      exact ⟨by simp [e], s1, h1, h3⟩
    · simp only [h1] at h
      split at h <;> cases h
    · simp only [h1] at h
      cases h

theorem decodeAll_more {T : Type} [Ser T] [SerSpec T] [LawfulSer T] {l r : List UInt8} {ds : DecStream T}
    (h : decodeAll l = (.ok ds, r)) (rest : List UInt8) :
    r = [] ∧ decodeAll (l ++ rest) = (.ok (ds.more rest), []) := by
  unfold decodeAll at h ⊢
  obtain ⟨t, s, h1, h2⟩ := bind_ok_inv h
  cases h2
  refine ⟨rfl, ?_⟩
  exact (Proc.bind_ok (Local.tree l t s h1 rest)).trans rfl

theorem hufmanDecode_more {l : List UInt8} {out : RgbImage} (h : hufmanDecode l = .ok out) (rest : List UInt8) :
    hufmanDecode (l ++ rest) = .ok out := by
  unfold hufmanDecode Proc.run at h ⊢
  generalize hx : (do
    let (_, img) ← createImageBufferStandard listNext
    let symbols ← decodeAll
    let pixels ← onStream (hufmanFill img.pixels.length) symbols
    pure { img with pixels := pixels } : Rd (List UInt8) RgbImage) l = x at h
  obtain ⟨v, r⟩ := x
  simp only at h
  subst h
  obtain ⟨⟨d, img⟩, s1, h1, hx⟩ := bind_ok_inv hx
  obtain ⟨ds, s2, h2, hx⟩ := bind_ok_inv hx
  obtain ⟨px, s3, h3, hx⟩ := bind_ok_inv hx
  cases hx
  obtain ⟨-, h4⟩ := decodeAll_more h2 rest
  rw [Proc.bind_ok (Local.buffer l _ _ h1 rest)]
  simp only
  rw [Proc.bind_ok h4]
  have h5 : hufmanFill img.pixels.length ds = (.ok px, (hufmanFill img.pixels.length ds).2) := by
    unfold onStream at h3
    exact Prod.ext (Prod.mk.inj h3).1 rfl
  obtain ⟨e, h6⟩ := hufmanFill_ok h5
  have h7 := hufmanFill_supplies (supplies_more h6 rest)
  rw [e] at h7
  simp only [onStream, Proc.bind_def, h7]
  rfl

/-! ## Dictionaries and lookback -/

theorem meaning_more (known : List (List UInt8)) (l rest : List UInt8) :
    (meaning known l).1 <+: (meaning known (l ++ rest)).1 := by
  fun_induction meaning known l with
  | case1 known a b c d l x y hx hy m ih =>
    simp only [List.cons_append, meaning, hx, hy]
    exact (List.prefix_append_right_inj _).2 ih
  | case2 | case3 => exact List.nil_prefix

theorem reads_more {N : Nat} {hist l out : List UInt8} {e : Ending} (h : Reads N hist l out e) (rest : List UInt8) :
    ∃ out' e', Reads N hist (l ++ rest) out' e' ∧ out <+: out' := by
  have any : ∀ hist l, ∃ out' e', Reads N hist (l ++ rest) out' e' ∧ ([] : List UInt8) <+: out' := by
    intro hist l
    obtain ⟨o, e, h⟩ := Back.reads_total N _ hist (l ++ rest) (Nat.le_refl _)
    exact ⟨o, e, h, List.nil_prefix⟩
  induction h with
  | stop _ => exact any _ _
  | shortCopy _ _ => exact any _ _
  | shortLiteral _ _ => exact any _ _
  | dangling _ _ => exact any _ _
  | empty _ _ => exact any _ _
  | symbol h1 h2 h3 _ ih =>
    obtain ⟨o, e, h4, h5⟩ := ih
    rw [List.append_assoc]
    exact ⟨_, e, .symbol h1 h2 h3 h4, (List.prefix_append_right_inj _).2 h5⟩

/-- The stream gives `xs` and then `None` or a panic. -/
def Stops {σ α : Type} (next : Rd σ α) (s : σ) (xs : List α) : Prop :=
  EndsAfter next s xs ∨ PanicsAfter next s xs

theorem rebuildImage_stops {σ : Type} {next : Rd σ UInt8} {s : σ} {xs : List UInt8} (h : Stops next s xs)
    (x : RgbImage) : (rebuildImage next s).1 = .ok x ↔ (rebuildImage listNext xs).1 = .ok x := by
  rcases h with h | h
  · rw [(rebuildImage_sim (fun _ _ h => ⟨rfl, trivial⟩) (fun _ _ h => ⟨rfl, trivial⟩)
      (Sim.of_endsAfter next)).eq h]
  · rw [(rebuildImage_sim (fun _ _ h => ⟨rfl, trivial⟩) (fun _ _ h => ⟨rfl, trivial⟩)
      (Sim.of_panicsAfter next)).eq h]
    have hs := rebuildImage_sim (R := fun a b : List UInt8 => a = b)
      (Q := fun p q _ _ => p = q ∨ q = false) (fun _ _ _ => .inl rfl) (fun _ _ _ => .inl rfl)
      (next := listThenPanic) (next' := listNext) (by
        rintro s _ rfl
        cases s with
        | nil => exact .inr rfl
        | cons x xs => exact ⟨rfl, rfl⟩) xs xs rfl
    rcases h2 : rebuildImage listThenPanic xs with ⟨a | a | _, r⟩ <;>
      rcases h3 : rebuildImage listNext xs with ⟨b | b | _, r'⟩ <;>
      rw [h2, h3] at hs <;> simp at hs ⊢
    rw [hs.1]

theorem dict_stops (l : List UInt8) : Stops DictDecoder.next (zipDictDecode l) (meaning oneByteSeqs l).1 := by
  have h := zipDictDecode_outcome l
  unfold Outcome at h
  split at h
  · exact .inl h.endsAfter
  · exact .inr h

theorem back_stops {l out : List UInt8} {e : Ending} (h : Reads Back.ringSize [] l out e) :
    Stops Back.Decoder.next (Back.zipBackDecode Back.ringSize l) out := by
  have ho := Back.reads_outcome (show 0 < Back.ringSize by decide) h (Back.DecInv.new Back.ringSize l)
  simp only [List.nil_append] at ho
  cases e with
  | none => exact .inl (ho.1 rfl)
  | panic => exact .inr (ho.2 rfl)

theorem rebuildImage_more {a b : List UInt8} (h : a <+: b) {x : RgbImage} (hx : (rebuildImage listNext a).1 = .ok x) :
    (rebuildImage listNext b).1 = .ok x := by
  obtain ⟨t, rfl⟩ := h
  have := Local.rebuild a x _ (Prod.ext hx rfl) t
  rw [this]

theorem zipDecode_more {z : Zip} {l : List UInt8} {out : RgbImage} (h : zipDecode z l = .ok out) (rest : List UInt8) :
    zipDecode z (l ++ rest) = .ok out := by
  cases z with
  | dict =>
    have h1 := (rebuildImage_stops (dict_stops l) out).1 h
    exact (rebuildImage_stops (dict_stops (l ++ rest)) out).2 (rebuildImage_more (meaning_more _ l rest) h1)
  | back =>
    obtain ⟨o, e, hr⟩ := Back.reads_total Back.ringSize _ [] l (Nat.le_refl _)
    obtain ⟨o', e', hr', hp⟩ := reads_more hr rest
    have h1 := (rebuildImage_stops (back_stops hr) out).1 h
    exact (rebuildImage_stops (back_stops hr') out).2 (rebuildImage_more hp h1)

/-! ## Voronoi -/

theorem voronoiDecode_more {chk : Bool} {l : List UInt8} {out : RgbImage} (h : voronoiDecode chk l = .ok out)
    (rest : List UInt8) : voronoiDecode chk (l ++ rest) = .ok out := by
  unfold voronoiDecode Proc.run at h ⊢
  rw [Local.bind Local.de (fun _ => Local.bind (Local.orPanic _) fun _ => Local.bind Local.de fun _ =>
    Local.bind (Local.readN _) fun _ => Local.bind (Local.orPanic _) fun _ => Local.pure _) l out _
    (Prod.ext h rfl) rest]

/-! ## Streams of colours -/

theorem rleDecoder_supplies (runs : List (UInt8 × Rgb UInt8)) (h : ∀ r ∈ runs, 1 ≤ r.1.toNat) (rest : List UInt8) :
    Supplies RleDecoder.next (RleDecoder.new (runs.flatMap runBytes ++ rest)) (expandRuns runs) := by
  have := rleDecoder_runs (P := Supplies RleDecoder.next) (fun {s s' x xs} h1 h2 => ⟨s', h1, h2⟩) runs h rest
    (xs := []) (fun cur => trivial) black
  simpa [RleDecoder.new] using this

theorem deser_supplies {σ : Type} {next : Rd σ UInt8} {s : σ} (cs : List (Rgb UInt8)) {q : List UInt8}
    (h : Stops next s (cs.flatMap bytes ++ q)) : Supplies (deserStream next : Rd σ (Rgb UInt8)) s cs := by
  induction cs generalizing s with
  | nil => trivial
  | cons c cs ih =>
    rw [List.flatMap_cons, List.append_assoc] at h
    rcases h with h | h
    · have hs := LawfulSer.sim (α := Rgb UInt8) (fun s l => EndsAfter next s l)
        (fun p q _ _ => p = q ∧ True) next listNext (fun _ _ _ => ⟨rfl, trivial⟩) (Sim.of_endsAfter next) s _ h
      rw [LawfulSer.de_bytes c (rgb_valid c)] at hs
      rcases hd : (de next s : Ret Unit (Rgb UInt8) × σ) with ⟨a | a | _, s'⟩ <;> rw [hd] at hs <;> simp at hs
      obtain ⟨rfl, hs⟩ := hs
      exact ⟨s', hd, ih (.inl hs)⟩
    · obtain ⟨s', h1, h2⟩ := listThenPanic_bytes (rgb_valid c) h
      exact ⟨s', h1, ih (.inr h2)⟩

end Cniic
