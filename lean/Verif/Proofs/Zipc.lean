import Verif.Proofs.Hufc
import Verif.Proofs.ZipDict
import Verif.Proofs.BackFactor

/-! # Proofs: the zip codecs -/

namespace Cniic
open Spec SerSpec

/-! ## Serializing to memory -/

theorem drainBytes_yields {σ : Type} {next : Rd σ UInt8} {s : σ} {xs : List UInt8}
    (h : Yields next s xs) {fuel : Nat} (hf : xs.length < fuel) :
    drainBytes next fuel s = some xs := by
  induction xs generalizing s fuel with
  | nil =>
    obtain ⟨P, hs, hP⟩ := h
    obtain ⟨fuel, rfl⟩ : ∃ k, fuel = k + 1 := ⟨fuel - 1, by simp at hf; omega⟩
    have := (hP s hs).1
    rcases hn : next s with ⟨_ | _ | _, s'⟩ <;> rw [hn] at this <;> simp at this
    rw [drainBytes, hn]
  | cons x xs ih =>
    obtain ⟨s', h1, h2⟩ := h
    obtain ⟨fuel, rfl⟩ : ∃ k, fuel = k + 1 := ⟨fuel - 1, by simp at hf; omega⟩
    rw [drainBytes, h1]
    simp only [ih h2 (by simpa using hf)]

theorem rgbs_bytes_length (cs : List (Rgb UInt8)) : (cs.flatMap bytes).length = 11 * cs.length := by
  induction cs with
  | nil => rfl
  | cons c cs ih =>
    rw [List.flatMap_cons, List.length_append, rgb_bytes_length, ih, List.length_cons]; omega

theorem drain_rgbs (cs : List (Rgb UInt8)) :
    drainBytes SerStream.next (11 * cs.length + 1) (SerStream.fromIter cs) =
      some (cs.flatMap bytes) := by
  apply drainBytes_yields (yields_serStream cs (fun c _ => rgb_valid c) [])
  rw [List.nil_append, rgbs_bytes_length]; omega

/-- The bytes that are compressed. -/
def zipData (img : Img) : List UInt8 :=
  bytes (img.width, img.height) ++ img.rgbPixels.flatMap bytes

theorem zipInput_eq (img : Img) : zipInput img = some (zipData img) := by
  unfold zipInput zipData
  rw [drain_rgbs, show drainBytes SerStream.next 9 (SerStream.fromIter [(img.width, img.height)]) = _
    from drainBytes_yields (yields_serStream [(img.width, img.height)]
      (fun c hc => by rw [List.mem_singleton.1 hc]; exact dims_valid _ _) []) (by
        rw [List.nil_append, List.flatMap_singleton, dims_length]; omega)]
  simp

/-! ## Rebuilding the image -/

theorem prefix_append_cases {α : Type} {p a b : List α} (h : p <+: a ++ b) :
    p <+: a ∨ ∃ q, p = a ++ q ∧ q <+: b := by
  rcases List.prefix_or_prefix_of_prefix h (List.prefix_append a b) with h1 | ⟨q, rfl⟩
  · exact .inl h1
  · exact .inr ⟨q, rfl, (List.prefix_append_right_inj a).1 h⟩

theorem Sim.panic {σ τ α : Type} {R : σ → τ → Prop} {Q} (hRQ : ∀ s t, R s t → Q true true s t) :
    Sim R Q (Proc.panic : Rd σ α) (Proc.panic : Rd τ α) := fun s t h => hRQ s t h

theorem Sim.orPanic {σ τ α : Type} {R : σ → τ → Prop} {Q} (hRQ : ∀ s t, R s t → Q true true s t)
    (o : Option α) : Sim R Q (orPanic o : Rd σ α) (Cniic.orPanic o : Rd τ α) := by
  cases o with
  | none => exact Sim.panic hRQ
  | some a => exact Sim.pure a

theorem rebuildImage_sim {σ τ : Type} {R : σ → τ → Prop} {Q} {next : Rd σ UInt8} {next' : Rd τ UInt8}
    (h0 : ∀ s t, R s t → Q false false s t) (h1 : ∀ s t, R s t → Q true true s t)
    (h : Sim R Q next next') : Sim R Q (rebuildImage next) (rebuildImage next') :=
  Sim.bind (LawfulSer.sim R Q _ _ h0 h) fun _ => Sim.bind (Sim.orPanic h1 _) fun _ =>
    Sim.bind (readN_sim h0 h _) fun _ => Sim.pure _

theorem rebuildImage_list (img : Img) (ha : Addressable img) :
    (rebuildImage listNext (zipData img)).1 = .ok img.toRgb := by
  unfold rebuildImage zipData
  rw [Proc.bind_ok (LawfulSer.de_bytes _ (dims_valid img.width img.height) _), new_eq img ha]
  have := readN_bytes img.rgbPixels (fun c _ => rgb_valid c) []
  rw [List.append_nil] at this
  simp only [orPanic, pure_bind, List.length_replicate]
  rw [← rgbPixels_length, Proc.bind_ok this]
  rfl

/-- Decoding a strict prefix of the data. -/
theorem rebuildImage_short (img : Img) (ha : Addressable img) {p : List UInt8} (hp : p <+: zipData img)
    (hne : p ≠ zipData img) : (rebuildImage listNext p).1 = .err () := by
  unfold rebuildImage
  have hd := dims_valid img.width img.height
  rcases prefix_append_cases hp with h | ⟨q, rfl, hq⟩
  · by_cases he : p = bytes (img.width, img.height)
    · subst he
      have h0 := LawfulSer.de_bytes _ hd []
      rw [List.append_nil] at h0
      rw [Proc.bind_ok h0, new_eq img ha]
      simp only [orPanic, pure_bind, List.length_replicate]
      rw [← rgbPixels_length]
      have hn := readN_no_panic (α := Rgb UInt8) img.rgbPixels.length []
      rcases hr : (readN listNext img.rgbPixels.length [] : Ret Unit (List (Rgb UInt8)) × _) with
        ⟨x | x | _, r⟩
      · obtain ⟨hl, _, e⟩ := readN_canon hr
        have hb := rgbs_bytes_length x
        have : (x.flatMap bytes).length = 0 := by
          rw [(List.append_eq_nil_iff.1 e.symm).1]; rfl
        exfalso
        apply hne
        unfold zipData
        have h00 : img.rgbPixels.length = 0 := by omega
        rw [List.length_eq_zero_iff.1 h00]; simp
      · rw [Proc.bind_err hr]
      · exact absurd (by rw [hr]) hn
    · have := de_truncated hd h he
      rcases hr : (de listNext p : Ret Unit (UInt32 × UInt32) × _) with ⟨x | x | _, r⟩ <;>
        rw [hr] at this <;> simp at this
      rw [Proc.bind_err hr]
  · rw [Proc.bind_ok (LawfulSer.de_bytes _ hd _), new_eq img ha]
    simp only [orPanic, pure_bind, List.length_replicate]
    rw [← rgbPixels_length]
    have hn := readN_no_panic (α := Rgb UInt8) img.rgbPixels.length q
    rcases hr : (readN listNext img.rgbPixels.length q : Ret Unit (List (Rgb UInt8)) × _) with
      ⟨x | x | _, r⟩
    · obtain ⟨hl, _, e⟩ := readN_canon hr
      exfalso
      apply hne
      unfold zipData
      congr 1
      apply hq.eq_of_length_le
      rw [rgbs_bytes_length, ← hl, ← rgbs_bytes_length, e]; simp
    · rw [Proc.bind_err hr]
    · exact absurd (by rw [hr]) hn

/-- The image is rebuilt from a stream of the bytes that were compressed. -/
theorem rebuildImage_yields {σ : Type} {next : Rd σ UInt8} {s : σ} (img : Img) (ha : Addressable img)
    (h : Yields next s (zipData img)) : (rebuildImage next s).1 = .ok img.toRgb := by
  rw [(rebuildImage_sim (fun _ _ h => ⟨rfl, h⟩) (fun _ _ h => ⟨rfl, h⟩) (Sim.of_yields next)).eq h]
  exact rebuildImage_list img ha

theorem rebuildImage_ends {σ : Type} {next : Rd σ UInt8} {s : σ} (img : Img) (ha : Addressable img)
    {p : List UInt8} (hp : p <+: zipData img) (hne : p ≠ zipData img)
    (h : EndsAfter next s p) : (rebuildImage next s).1 = .err () := by
  rw [(rebuildImage_sim (fun _ _ h => ⟨rfl, trivial⟩) (fun _ _ h => ⟨rfl, trivial⟩)
    (Sim.of_endsAfter next)).eq h]
  exact rebuildImage_short img ha hp hne

theorem rebuildImage_panics {σ : Type} {next : Rd σ UInt8} {s : σ} (img : Img) (ha : Addressable img)
    {p : List UInt8} (hp : p <+: zipData img) (hne : p ≠ zipData img)
    (h : PanicsAfter next s p) (x : RgbImage) : (rebuildImage next s).1 ≠ .ok x := by
  rw [(rebuildImage_sim (fun _ _ h => ⟨rfl, trivial⟩) (fun _ _ h => ⟨rfl, trivial⟩)
    (Sim.of_panicsAfter next)).eq h]
  have h1 := rebuildImage_short img ha hp hne
  -- on `panic` instead of the end, it does not become a success
  have hs := rebuildImage_sim (R := fun a b : List UInt8 => a = b)
    (Q := fun p q _ _ => p = q ∨ q = false) (fun _ _ _ => .inl rfl) (fun _ _ _ => .inl rfl)
    (next := listThenPanic) (next' := listNext) (by
      rintro s _ rfl
      cases s with
      | nil => exact .inr rfl
      | cons x xs => exact ⟨rfl, rfl⟩) p p rfl
  rcases h2 : rebuildImage listThenPanic p with ⟨a | a | _, r⟩ <;>
    rcases h3 : rebuildImage listNext p with ⟨b | b | _, r'⟩ <;>
    rw [h2, h3] at hs <;> rw [h3] at h1 <;> simp at h1 hs ⊢

/-! ## Truncated data -/

theorem symBytes_cons (s : UInt16) (syms : List UInt16) :
    symBytes (s :: syms) = UInt8.ofNat s.toNat :: UInt8.ofNat (s.toNat / 256) :: symBytes syms := rfl

theorem meaning_four (known : List (List UInt8)) (s1 s2 : UInt16) (rest : List UInt8)
    {x y : List UInt8} (h1 : expand known s1.toNat = some x) (h2 : expand known s2.toNat = some y) :
    meaning known (UInt8.ofNat s1.toNat :: UInt8.ofNat (s1.toNat / 256) :: UInt8.ofNat s2.toNat ::
      UInt8.ofNat (s2.toNat / 256) :: rest) =
      (x ++ y ++ (meaning (learn known (x ++ y)) rest).1, (meaning (learn known (x ++ y)) rest).2) := by
  simp only [Spec.meaning]
  rw [sym_split, sym_split, h1, h2]

theorem meaning_short (known : List (List UInt8)) {p : List UInt8} (h : p.length < 4) :
    meaning known p = ([], decide (p.length % 4 < 2)) := by
  match p, h with
  | [], _ => simp [Spec.meaning]
  | [a], _ => simp [Spec.meaning]
  | [a, b], _ => simp [Spec.meaning]
  | [a, b, c], _ => simp [Spec.meaning]
  | _ :: _ :: _ :: _ :: _, h => simp at h; omega

/-- A prefix of the symbols of a greedy parse stands for a prefix of the input; a strict one for a
strict one.  Decoding panics if the last pair is cut after its first symbol. -/
theorem parse_truncated {known i syms} (h : Parse known i syms) (hle : known.length ≤ 65535)
    {p : List UInt8} (hp : p <+: symBytes syms) (hne : p ≠ symBytes syms) :
    (meaning known p).1 <+: i ∧ (meaning known p).1 ≠ i ∧
      (meaning known p).2 = decide (p.length % 4 < 2) := by
  induction h generalizing p with
  | nil => exact absurd (List.prefix_nil.1 hp) hne
  | @one known i s x h =>
    have hi : i ≠ [] := by rw [h.split]; simp [h.nonempty]
    by_cases h4 : p.length < 4
    · rw [meaning_short known h4]
      exact ⟨List.nil_prefix, fun e => hi e.symm, rfl⟩
    · exfalso
      apply hne
      apply hp.eq_of_length_le
      have : (symBytes [s, 65535]).length = 4 := rfl
      omega
  | @two known i s1 x1 i' s2 x2 i'' syms h1 h2 _ ih =>
    have hi : i ≠ [] := by rw [h1.split]; simp [h1.nonempty]
    by_cases h4 : p.length < 4
    · rw [meaning_short known h4]
      exact ⟨List.nil_prefix, fun e => hi e.symm, rfl⟩
    · rw [symBytes_cons, symBytes_cons] at hp hne
      obtain ⟨q, rfl⟩ : ∃ q, p = UInt8.ofNat s1.toNat :: UInt8.ofNat (s1.toNat / 256) ::
          UInt8.ofNat s2.toNat :: UInt8.ofNat (s2.toNat / 256) :: q := by
        match p, h4 with
        | a :: b :: c :: d :: q, _ =>
          simp only [List.cons_prefix_cons] at hp
          obtain ⟨rfl, rfl, rfl, rfl, _⟩ := hp
          exact ⟨q, rfl⟩
        | [], h4 | [_], h4 | [_, _], h4 | [_, _, _], h4 => simp at h4
      simp only [List.cons_prefix_cons, true_and] at hp
      obtain ⟨j1, j2, j3⟩ := ih (learn_le hle _) hp (fun e => hne (by rw [e]))
      rw [meaning_four known s1 s2 q (h1.expand hle) (h2.expand hle)]
      refine ⟨?_, ?_, ?_⟩
      · rw [h1.split, h2.split, ← List.append_assoc]
        exact (List.prefix_append_right_inj _).2 j1
      · rw [h1.split, h2.split, ← List.append_assoc]
        exact fun e => j2 (List.append_cancel_left e)
      · rw [j3]
        simp only [List.length_cons]
        congr 2
        omega

theorem symbolMeaning_nonempty {N : Nat} {hist : List UInt8} {s : Back.Symbol} {x : List UInt8}
    (hne : s ≠ .explicit [] ∧ ∀ len back, s = .lookBack len back → 0 < len ∧ 0 < back)
    (h : symbolMeaning N hist s = some x) : x ≠ [] := by
  cases s with
  | explicit data =>
    simp only [symbolMeaning, Option.some.injEq] at h
    subst h
    rintro rfl
    exact hne.1 rfl
  | lookBack len back =>
    obtain ⟨h1, h2⟩ := hne.2 len back rfl
    simp only [symbolMeaning] at h
    split at h
    · simp only [Option.some.injEq] at h
      subst h
      intro e
      have := congrArg List.length e
      simp only [List.length_take, List.length_drop, List.length_nil] at this
      omega
    · cases h

/-- A strict prefix of the symbols of a factorization stands for a strict prefix of the input. -/
theorem reads_truncated {N : Nat} (syms : List Back.Symbol) {hist input : List UInt8}
    (hfit : ∀ s ∈ syms, Fits s)
    (hne : ∀ s ∈ syms, s ≠ .explicit [] ∧ ∀ len back, s = .lookBack len back → 0 < len ∧ 0 < back)
    (hm : meaningFrom N hist syms = some input) {p : List UInt8}
    (hp : p <+: syms.flatMap symbolBytes) (hpn : p ≠ syms.flatMap symbolBytes) :
    ∃ out e, Reads N hist p out e ∧ out <+: input ∧ out ≠ input := by
  induction syms generalizing hist input p with
  | nil => exact absurd (List.prefix_nil.1 hp) hpn
  | cons s syms ih =>
    have hs := hfit s (by simp)
    simp only [meaningFrom] at hm
    cases hx : symbolMeaning N hist s with
    | none => rw [hx] at hm; simp at hm
    | some x =>
    rw [hx] at hm
    simp only at hm
    cases hy : meaningFrom N (hist ++ x) syms with
    | none => rw [hy] at hm; simp at hm
    | some y =>
    rw [hy] at hm
    simp only [Option.some.injEq] at hm
    subst hm
    have hxn := symbolMeaning_nonempty (hne s (by simp)) hx
    have hin : ([] : List UInt8) ≠ x ++ y := by
      intro e; exact hxn (List.append_eq_nil_iff.1 e.symm).1
    rw [List.flatMap_cons] at hp hpn
    by_cases hlt : p.length < (symbolBytes s).length
    · have hps : p <+: symbolBytes s := by
        rcases prefix_append_cases hp with h | ⟨q, rfl, _⟩
        · exact h
        · simp at hlt; omega
      by_cases h2 : p.length < 2
      · exact ⟨[], .none, .stop h2, List.nil_prefix, hin⟩
      · cases s with
        | explicit data =>
          rcases prefix_append_cases hps with h | ⟨q, rfl, hq⟩
          · obtain rfl : p = le 2 data.length := h.eq_of_length_le (by simpa [le] using h2)
            refine ⟨[], .panic, ?_, List.nil_prefix, hin⟩
            have := Reads.shortLiteral (N := N) (hist := hist) (len := data.length) (tail := []) hs
              (by simp [symbolBytes] at hlt; simpa using hlt)
            simpa using this
          · exact ⟨[], .panic, .shortLiteral hs (by simpa [symbolBytes] using hlt), List.nil_prefix, hin⟩
        | lookBack len back =>
          rcases prefix_append_cases hps with h | ⟨q, rfl, hq⟩
          · obtain rfl : p = le 2 (32768 + len) := h.eq_of_length_le (by simpa [le] using h2)
            refine ⟨[], .none, ?_, List.nil_prefix, hin⟩
            have := Reads.shortCopy (N := N) (hist := hist) (len := len) (tail := []) hs.1 (by simp)
            simpa using this
          · exact ⟨[], .none, .shortCopy hs.1 (by simp [symbolBytes, le] at hlt; omega),
              List.nil_prefix, hin⟩
    · obtain ⟨q, rfl, hq⟩ : ∃ q, p = symbolBytes s ++ q ∧ q <+: syms.flatMap symbolBytes := by
        rcases prefix_append_cases hp with h | h
        · exact ⟨[], by rw [List.append_nil]; exact h.eq_of_length_le (by omega), List.nil_prefix⟩
        · exact h
      obtain ⟨out, e, hr, ho, hon⟩ := ih (fun t ht => hfit t (by simp [ht]))
        (fun t ht => hne t (by simp [ht])) hy hq (fun he => hpn (by rw [he]))
      exact ⟨x ++ out, e, .symbol hs hx hxn hr, (List.prefix_append_right_inj x).2 ho,
        fun he => hon (List.append_cancel_left he)⟩

/-! ## The codecs -/

theorem zipEncode_dict (cap : Back.Caps) (img : Img) :
    zipEncode cap .dict img = zipDictEncode (zipData img) := by
  simp [zipEncode, zipInput_eq]

theorem zipEncode_back (cap : Back.Caps) (img : Img) :
    zipEncode cap .back img = Back.zipBackEncode Back.ringSize cap (zipData img) := by
  simp [zipEncode, zipInput_eq]

end Cniic
