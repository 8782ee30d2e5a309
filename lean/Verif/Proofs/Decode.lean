import Verif.Spec.Decode
import Verif.Proofs.Trailing

/-! # Proofs: decoding arbitrary bytes -/

namespace Cniic
open Spec SerSpec

/-! ## Numbers and sizes -/

theorem num_eq (l : List UInt8) : num l = fromLe l := by
  induction l with
  | nil => rfl
  | cons b bs ih => rw [num, ih]; rfl

theorem num_take_lt (l : List UInt8) (k : Nat) : num (l.take k) < 256 ^ k := by
  rw [num_eq]
  refine Nat.lt_of_lt_of_le (fromLe_lt _) ?_
  exact Nat.pow_le_pow_right (by decide) (by simp; omega)

theorem le_num (l : List UInt8) (k : Nat) (h : k ≤ l.length) : le k (num (l.take k)) = l.take k := by
  have h1 := toLe_fromLe (l.take k)
  rw [List.length_take, Nat.min_eq_left h] at h1
  rw [num_eq, ← toLe_eq_le, h1]

/-- Eight bytes are a size. -/
theorem size_bytes (l : List UInt8) (h : 8 ≤ l.length) :
    bytes (UInt32.ofNat (num (l.take 4)), UInt32.ofNat (num ((l.drop 4).take 4))) ++ l.drop 8 = l := by
  have e : ∀ m : List UInt8, m.length ≥ 4 → bytes (UInt32.ofNat (num (m.take 4))) = m.take 4 := by
    intro m hm
    show le 4 (UInt32.ofNat (num (m.take 4))).toNat = _
    rw [UInt32.toNat_ofNat_of_lt' (by have := num_take_lt m 4; simpa using this), le_num m 4 hm]
  show bytes (UInt32.ofNat (num (l.take 4))) ++ bytes (UInt32.ofNat (num ((l.drop 4).take 4))) ++ l.drop 8 = l
  rw [e l (by omega), e (l.drop 4) (by simp; omega), List.append_assoc,
    show l.drop 8 = (l.drop 4).drop 4 by simp, List.take_append_drop, List.take_append_drop]

/-- Either there are too few bytes for a size or the file starts with one. -/
theorem de_size (l : List UInt8) :
    (l.length < 8 ∧ ∃ r, (de listNext l : Ret Unit (UInt32 × UInt32) × List UInt8) = (.err (), r)) ∨
    (8 ≤ l.length ∧ (de listNext l : Ret Unit (UInt32 × UInt32) × List UInt8) =
      (.ok (UInt32.ofNat (num (l.take 4)), UInt32.ofNat (num ((l.drop 4).take 4))), l.drop 8)) := by
  by_cases h : 8 ≤ l.length
  · refine .inr ⟨h, ?_⟩
    have := LawfulSer.de_bytes (UInt32.ofNat (num (l.take 4)), UInt32.ofNat (num ((l.drop 4).take 4)))
      (dims_valid _ _) (l.drop 8)
    rwa [size_bytes l h] at this
  · refine .inl ⟨by omega, ?_⟩
    rcases hd : (de listNext l : Ret Unit (UInt32 × UInt32) × List UInt8) with ⟨d | _ | _, r⟩
    · obtain ⟨-, e⟩ := LawfulSer.canon _ _ _ hd
      have := congrArg List.length e
      rw [List.length_append, show (bytes d).length = 8 from dims_length d.1 d.2] at this
      omega
    · exact ⟨r, rfl⟩
    · exact absurd (by rw [hd]) (LawfulSer.no_panic (α := UInt32 × UInt32) l)

/-- Reading the size and going on with `f`. -/
theorem withSize_eq (l : List UInt8) (f : UInt32 × UInt32 → Rd (List UInt8) RgbImage)
    (g : UInt32 → UInt32 → List UInt8 → Ret Unit RgbImage)
    (h1 : ∀ w h rest, RgbImage.new w h = none → (f (w, h) rest).1 = .panic)
    (h2 : ∀ w h rest, RgbImage.new w h = some ⟨w, h, List.replicate (w.toNat * h.toNat) black⟩ →
      (f (w, h) rest).1 = g w h rest) : (((de listNext : Rd (List UInt8) (UInt32 × UInt32)) >>= f) l).1 = withSize l g := by
  unfold withSize
  rcases de_size l with ⟨hl, r, hd⟩ | ⟨hl, hd⟩
  · rw [if_pos hl, Proc.bind_err hd]
  · dsimp only
    rw [if_neg (by omega), Proc.bind_ok hd]
    split
    · exact h1 _ _ _ (if_neg (by omega))
    · exact h2 _ _ _ (if_pos (by omega))

theorem withSize_congr (l : List UInt8) {f g : UInt32 → UInt32 → List UInt8 → Ret Unit RgbImage}
    (h : ∀ w h rest, 3 * (w.toNat * h.toNat) < 2 ^ 63 → f w h rest = g w h rest) : withSize l f = withSize l g := by
  unfold withSize
  dsimp only
  split
  · rfl
  · split
    · rfl
    · exact h _ _ _ (by omega)

/-! ## Painting -/

theorem EndsAfter.supplies {σ α : Type} {next : Rd σ α} {s : σ} {xs : List α} (h : EndsAfter next s xs) :
    Supplies next s xs := by
  induction xs generalizing s with
  | nil => trivial
  | cons x xs ih => obtain ⟨s', h1, h2⟩ := h; exact ⟨s', h1, ih h2⟩

theorem PanicsAfter.supplies {σ α : Type} {next : Rd σ α} {s : σ} {xs : List α} (h : PanicsAfter next s xs) :
    Supplies next s xs := by
  induction xs generalizing s with
  | nil => trivial
  | cons x xs ih => obtain ⟨s', h1, h2⟩ := h; exact ⟨s', h1, ih h2⟩

theorem Supplies.take {σ α : Type} {next : Rd σ α} {s : σ} {xs : List α} (h : Supplies next s xs) (n : Nat) :
    Supplies next s (xs.take n) := by
  induction xs generalizing s n with
  | nil => simp [Supplies]
  | cons x xs ih =>
    cases n with
    | zero => trivial
    | succ n => obtain ⟨s', h1, h2⟩ := h; exact ⟨s', h1, ih h2 n⟩

theorem idxOf_take {cs : List (Nat × Nat)} (hn : cs.Nodup) (cols : List (Rgb UInt8)) {m : Nat}
    (hm : m ≤ cs.length) (hm' : m ≤ cols.length) :
    (cs.take m).map (fun c => (cols[cs.idxOf c]?).getD black) = cols.take m := by
  apply List.ext_getElem (by simp; omega)
  intro i h1 h2
  simp at h1
  rw [List.getElem_map, List.getElem_take, List.getElem_take, hn.idxOf_getElem i (by omega),
    List.getElem?_eq_getElem (by omega)]
  rfl

section
variable {σ : Type} {next : Rd σ (Rgb UInt8)} {scan : Scan} {w h : UInt32}

theorem painted_eq (hs : VisitsOnce scan w.toNat h.toNat) (cols : List (Rgb UInt8)) {m : Nat}
    (hm : m = min (w.toNat * h.toNat) cols.length) :
    paintWith w.toNat (fun c => (cols[(scan w.toNat h.toNat).idxOf c]?).getD black)
      ((scan w.toNat h.toNat).take m) (List.replicate (w.toNat * h.toNat) black) = (painted scan w h cols).pixels := by
  have hlen : (scan w.toNat h.toNat).length = w.toNat * h.toNat := by rw [hs.length_eq, cells_length]
  rw [paintWith_black _ _ (fun c hc => (mem_cells'.1 (hs.mem_iff.1 (List.mem_of_mem_take hc))).1)]
  apply List.map_congr_left
  intro c hc
  by_cases hcm : c ∈ (scan w.toNat h.toNat).take m
  · rw [if_pos hcm]
  · rw [if_neg hcm]
    have hc' : c ∈ scan w.toNat h.toNat := hs.mem_iff.2 hc
    have hi := List.idxOf_lt_length_iff.2 hc'
    have : cols.length ≤ (scan w.toNat h.toNat).idxOf c := by
      apply Classical.byContradiction
      intro hlt
      apply hcm
      rw [List.mem_take_iff_getElem]
      exact ⟨_, by omega, List.getElem_idxOf hi⟩
    rw [List.getElem?_eq_none this]
    rfl

/-- Painting with colours that end, stop in a panic, or are enough. -/
theorem paint_cols (hs : VisitsOnce scan w.toNat h.toNat) {s : σ} (cols : List (Rgb UInt8)) (fine : Bool)
    (hsup : Supplies next s cols)
    (hstop : cols.length < w.toNat * h.toNat →
      if fine then EndsAfter next s cols else PanicsAfter next s cols) :
    (paint next (scan w.toNat h.toNat) ⟨w, h, List.replicate (w.toNat * h.toNat) black⟩ s).1 = paintedOr scan w h (cols, fine) := by
  have hlen : (scan w.toNat h.toNat).length = w.toNat * h.toNat := by rw [hs.length_eq, cells_length]
  have hnd : (scan w.toNat h.toNat).Nodup := hs.nodup_iff.2 (cells_nodup _ _)
  have hin : ∀ c ∈ scan w.toNat h.toNat, c.1 < w.toNat ∧ c.2 < h.toNat := fun c hc => mem_cells'.1 (hs.mem_iff.1 hc)
  have hp := fun m hm => painted_eq hs cols (m := m) hm
  unfold paintedOr
  dsimp only
  by_cases hn : w.toNat * h.toNat ≤ cols.length
  · rw [if_pos (.inl hn)]
    have h1 := idxOf_take hnd cols (m := w.toNat * h.toNat) (by omega) hn
    rw [List.take_of_length_le (Nat.le_of_eq hlen)] at h1
    rw [paint_supplies (fun c => (cols[(scan w.toNat h.toNat).idxOf c]?).getD black) (scan w.toNat h.toNat) _
      (by simpa using hin) s (by rw [h1]; exact hsup.take _)]
    have := hp (w.toNat * h.toNat) (by omega)
    rw [List.take_of_length_le (Nat.le_of_eq hlen)] at this
    simp only [this]
    rfl
  · have h1 := idxOf_take hnd cols (m := cols.length) (by omega) (Nat.le_refl _)
    rw [List.take_length] at h1
    have hstop := hstop (by omega)
    cases fine with
    | true =>
      rw [if_pos (.inr rfl)]
      rw [paint_endsAfter (fun c => (cols[(scan w.toNat h.toNat).idxOf c]?).getD black) (scan w.toNat h.toNat) _
        (by simpa using hin) s cols.length (by rw [h1]; exact hstop)]
      simp only [hp cols.length (by omega)]
      rfl
    | false =>
      rw [if_neg (by simp; omega)]
      exact paint_panicsAfter (fun c => (cols[(scan w.toNat h.toNat).idxOf c]?).getD black) (scan w.toNat h.toNat) _
        (by simpa using hin) s cols.length (by omega) (by rw [h1]; exact hstop)

end

/-! ## Runs -/

theorem rgb_bytes (c : Rgb UInt8) : bytes c = [3, 0, 0, 0, 0, 0, 0, 0, c.r, c.g, c.b] := rfl

theorem rleDecoder_colors (l : List UInt8) (cur : Rgb UInt8) :
    if (rleColors l).2 then EndsAfter RleDecoder.next ⟨l, cur, 0⟩ (rleColors l).1
    else PanicsAfter RleDecoder.next ⟨l, cur, 0⟩ (rleColors l).1 := by
  fun_induction rleColors l generalizing cur with
  | case1 => rfl
  | case2 r g b rest =>
    show (RleDecoder.next _).1 = .panic
    rfl
  | case3 n r g b rest hn m ih =>
    have hn' : 1 ≤ n.toNat := by
      rcases Nat.eq_zero_or_pos n.toNat with h | h
      · exact absurd (UInt8.toNat.inj h) hn
      · exact h
    have e : n :: 3 :: 0 :: 0 :: 0 :: 0 :: 0 :: 0 :: 0 :: r :: g :: b :: rest =
        runBytes (n, ⟨r, g, b⟩) ++ rest := rfl
    rw [e]
    cases hm : m.2 with
    | true =>
      have ih' := fun cur => ih cur
      simp only [m] at hm
      simp only [hm, if_true] at ih'
      exact rleDecoder_start (P := EndsAfter RleDecoder.next) hn' (fun {s s' x xs} h1 h2 => ⟨s', h1, h2⟩) (ih' _)
    | false =>
      have ih' := fun cur => ih cur
      simp only [m] at hm
      simp only [hm, Bool.false_eq_true, if_false] at ih'
      exact rleDecoder_start (P := PanicsAfter RleDecoder.next) hn' (fun {s s' x xs} h1 h2 => ⟨s', h1, h2⟩) (ih' _)
  | case4 n l hl =>
    show (RleDecoder.next _).1 = .panic
    simp only [RleDecoder.next]
    rw [if_pos trivial, de_u8_cons]
    simp only
    split
    · rcases hd : (de listNext l : Ret Unit (Rgb UInt8) × List UInt8) with ⟨c | _ | _, r⟩
      · obtain ⟨-, e⟩ := LawfulSer.canon _ _ _ hd
        rw [rgb_bytes] at e
        exact absurd e (by intro e; exact hl _ _ _ _ e)
      · rfl
      · rfl
    · rfl

theorem hilbertDecode_rle' {scan : Scan} (hs : ∀ w h, VisitsOnce scan w h) (d : F64) (l : List UInt8) :
    hilbertDecode scan (.rle d) l = withSize l fun w h rest => paintedOr scan w h (rleColors rest) := by
  unfold hilbertDecode Proc.run
  apply withSize_eq
  · intro w h rest hn
    simp only [onStream, decodeAny, hn, orPanic]
    rfl
  · intro w h rest hn
    simp only [onStream, decodeAny, hn, orPanic]
    have h1 := rleDecoder_colors rest black
    refine paint_cols (hs _ _) (rleColors rest).1 (rleColors rest).2 ?_ (fun _ => h1)
    split at h1
    · exact h1.supplies
    · exact h1.supplies

/-! ## Colours in a stream -/

/-- A list of bytes followed by `None` (`true`) or a panic. -/
def listEnding (ends : Bool) : Rd (List UInt8) UInt8 := if ends then listNext else listThenPanic

theorem listEnding_cons (ends : Bool) (b : UInt8) (l : List UInt8) : listEnding ends (b :: l) = (.ok b, l) := by
  cases ends <;> rfl

theorem listEnding_nil (ends : Bool) : listEnding ends [] = (if ends then .err () else .panic, []) := by
  cases ends <;> rfl

theorem readBytes_ending (ends : Bool) (k : Nat) (l : List UInt8) : readBytes (listEnding ends) k l =
    if k ≤ l.length then (.ok (l.take k), l.drop k) else (if ends then .err () else .panic, []) := by
  induction k generalizing l with
  | zero => simp [readBytes]
  | succ k ih =>
    cases l with
    | nil =>
      rw [readBytes, Proc.bind_def, listEnding_nil]
      cases ends <;> rfl
    | cons b l =>
      rw [readBytes, Proc.bind_ok (listEnding_cons ends b l), Proc.bind_def, ih]
      by_cases h : k ≤ l.length
      · rw [if_pos h, if_pos (c := k + 1 ≤ (b :: l).length) (by simpa using h)]; rfl
      · rw [if_neg h, if_neg (c := k + 1 ≤ (b :: l).length) (by simpa using h)]
        cases ends <;> rfl

theorem readN_u8 {σ : Type} (next : Rd σ UInt8) (k : Nat) : (readN next k : Rd σ (List UInt8)) = readBytes next k := by
  induction k with
  | zero => rfl
  | succ k ih => rw [readN, ih]; rfl

/-- Does the list start with a colour? -/
def StartsWithColor (l : List UInt8) : Prop := ∃ (c : Rgb UInt8) (rest : List UInt8), l = bytes c ++ rest

theorem three_bytes {l : List UInt8} (h : l.length = 3) : ∃ r g b, l = [r, g, b] := by
  match l, h with
  | [r, g, b], _ => exact ⟨r, g, b, rfl⟩

theorem de_rgb_ending (ends : Bool) {l : List UInt8} (hl : ¬ StartsWithColor l) :
    (de (listEnding ends) l : Ret Unit (Rgb UInt8) × List UInt8).1 =
      if ends || (8 ≤ l.length && 8 + num (l.take 8) ≤ l.length) then .err () else .panic := by
  simp only [de]
  simp only [readN_u8, Proc.bind_def, readBytes_ending]
  by_cases h8 : 8 ≤ l.length
  · rw [if_pos h8]
    have hlt : num (l.take 8) < 2 ^ 64 := num_take_lt l 8
    simp only [Proc.pure_apply, List.length_drop]
    rw [← num_eq, UInt64.toNat_ofNat_of_lt' hlt]
    by_cases hn : 8 + num (l.take 8) ≤ l.length
    · rw [if_pos (by omega)]
      have hne : num (l.take 8) ≠ 3 := by
        intro h3
        apply hl
        obtain ⟨r, g, b, e3⟩ := three_bytes (l := (l.drop 8).take 3) (by simp; omega)
        refine ⟨⟨r, g, b⟩, (l.drop 8).drop 3, ?_⟩
        have h1 := le_num l 8 h8
        rw [h3] at h1
        rw [rgb_bytes]
        have h2 : l = l.take 8 ++ ((l.drop 8).take 3 ++ (l.drop 8).drop 3) := by
          rw [List.take_append_drop, List.take_append_drop]
        rw [e3, ← h1] at h2
        exact h2
      rw [if_pos (by simp [h8, hn])]
      dsimp only
      generalize hv : (l.drop 8).take (num (l.take 8)) = v
      have hv3 : v.length ≠ 3 := by
        rw [← hv]; simp; omega
      match v, hv3 with
      | [], _ => rfl
      | [_], _ => rfl
      | [_, _], _ => rfl
      | [_, _, _], h => exact absurd rfl h
      | _ :: _ :: _ :: _ :: _, _ => rfl
    · rw [if_neg (by omega)]
      cases ends <;> simp [h8, hn]
  · rw [if_neg h8]
    cases ends <;> simp [h8]

theorem de_ending {σ T : Type} [Ser T] [SerSpec T] [LawfulSer T] {next : Rd σ UInt8} (ends : Bool) {s : σ} {l : List UInt8}
    (h : if ends then EndsAfter next s l else PanicsAfter next s l) :
    (de next s : Ret Unit T × σ).1 = (de (listEnding ends) l : Ret Unit T × List UInt8).1 := by
  cases ends with
  | true =>
    exact (LawfulSer.sim (α := T) _ _ _ _ (fun _ _ h => ⟨rfl, trivial⟩) (Sim.of_endsAfter next)).eq h
  | false =>
    exact (LawfulSer.sim (α := T) _ _ _ _ (fun _ _ h => ⟨rfl, trivial⟩) (Sim.of_panicsAfter next)).eq h

theorem de_ending_bytes {σ T : Type} [Ser T] [SerSpec T] [LawfulSer T] {next : Rd σ UInt8} (ends : Bool) {s : σ} {a : T}
    (ha : valid a) {l : List UInt8}
    (h : if ends then EndsAfter next s (bytes a ++ l) else PanicsAfter next s (bytes a ++ l)) :
    ∃ s', (de next s : Ret Unit T × σ) = (.ok a, s') ∧ if ends then EndsAfter next s' l else PanicsAfter next s' l := by
  cases ends with
  | true =>
    have hs := LawfulSer.sim (α := T) (fun s l => EndsAfter next s l)
      (fun p q _ _ => p = q ∧ True) next listNext (fun _ _ _ => ⟨rfl, trivial⟩) (Sim.of_endsAfter next) s _ h
    rw [LawfulSer.de_bytes a ha] at hs
    rcases hd : (de next s : Ret Unit T × σ) with ⟨a | a | _, s'⟩ <;> rw [hd] at hs <;> simp at hs
    obtain ⟨rfl, hs⟩ := hs
    exact ⟨s', rfl, hs⟩
  | false => exact listThenPanic_bytes ha h

theorem deser_colors {σ : Type} {next : Rd σ UInt8} (ends : Bool) {s : σ} (l : List UInt8)
    (h : if ends then EndsAfter next s l else PanicsAfter next s l) :
    if (recColors ends l).2 then EndsAfter (deserStream next : Rd σ (Rgb UInt8)) s (recColors ends l).1
    else PanicsAfter (deserStream next : Rd σ (Rgb UInt8)) s (recColors ends l).1 := by
  fun_induction recColors ends l generalizing s with
  | case1 r g b rest =>
    rename_i m ih
    obtain ⟨s', h1, h2⟩ := de_ending_bytes (T := Rgb UInt8) (a := ⟨r, g, b⟩) ends (rgb_valid _) h
    have ih := ih h2
    cases hm : (recColors ends rest).2 with
    | true =>
      simp only [hm, if_true] at ih ⊢
      exact ⟨s', h1, ih⟩
    | false =>
      simp only [hm, Bool.false_eq_true, if_false] at ih ⊢
      exact ⟨s', h1, ih⟩
  | case2 l hl =>
    have h1 := (de_ending (T := Rgb UInt8) ends h).trans (de_rgb_ending ends (l := l) (by
      rintro ⟨c, rest, rfl⟩
      exact hl _ _ _ _ rfl))
    dsimp only
    split
    · next he => rw [if_pos he] at h1; exact h1
    · next he => rw [if_neg he] at h1; exact h1

theorem outcome_ending {σ α : Type} {next : Rd σ α} {s : σ} {xs : List α} {ends : Bool} (h : Outcome next s xs ends) :
    if ends then EndsAfter next s xs else PanicsAfter next s xs := by
  cases ends
  · exact h
  · exact Yields.endsAfter h

theorem hilbertDecode_zip' {scan : Scan} (hs : ∀ w h, VisitsOnce scan w h) (l : List UInt8) :
    hilbertDecode scan .zip l = withSize l fun w h rest =>
      paintedOr scan w h (recColors (meaning oneByteSeqs rest).2 (meaning oneByteSeqs rest).1) := by
  unfold hilbertDecode Proc.run
  apply withSize_eq
  · intro w h rest hn
    simp only [onStream, decodeAny, hn, orPanic]
    rfl
  · intro w h rest hn
    simp only [onStream, decodeAny, hn, orPanic]
    have h1 := deser_colors _ _ (outcome_ending (zipDictDecode_outcome rest))
    refine paint_cols (hs _ _) _ _ ?_ (fun _ => h1)
    split at h1
    · exact h1.supplies
    · exact h1.supplies

/-! ## Pictures row by row -/

theorem readN_colors (ends : Bool) (n : Nat) (l : List UInt8) :
    (readN (listEnding ends) n l : Ret Unit (List (Rgb UInt8)) × List UInt8).1 =
      if n ≤ (recColors ends l).1.length then .ok ((recColors ends l).1.take n)
      else if (recColors ends l).2 then .err () else .panic := by
  induction n generalizing l with
  | zero => simp [readN]
  | succ n ih =>
    rw [readN, Proc.bind_def]
    by_cases hl : StartsWithColor l
    · obtain ⟨c, rest, rfl⟩ := hl
      have h0 : ∀ l : List UInt8, if ends then EndsAfter (listEnding ends) l l else PanicsAfter (listEnding ends) l l := by
        intro l
        cases ends with
        | true =>
          induction l with
          | nil => rfl
          | cons b l ih => exact ⟨l, rfl, ih⟩
        | false =>
          induction l with
          | nil => rfl
          | cons b l ih => exact ⟨l, rfl, ih⟩
      have h2 : (de (listEnding ends) (bytes c ++ rest) : Ret Unit (Rgb UInt8) × List UInt8) = (.ok c, rest) := by
        cases ends with
        | true => exact LawfulSer.de_bytes c (rgb_valid c) rest
        | false => rfl
      have h3 : recColors ends (bytes c ++ rest) = (c :: (recColors ends rest).1, (recColors ends rest).2) := by
        rw [rgb_bytes]
        simp only [List.cons_append, List.nil_append, recColors]
      rw [h2, h3]
      simp only [Proc.bind_def, List.length_cons, Nat.add_le_add_iff_right, List.take_succ_cons]
      have := ih rest
      rcases hr : (readN (listEnding ends) n rest : Ret Unit (List (Rgb UInt8)) × List UInt8) with ⟨x | x | _, r⟩ <;>
        rw [hr] at this <;> simp only at this ⊢
      · split at this
        · next h => rw [if_pos h]; cases this; rfl
        · split at this <;> cases this
      · split at this
        · cases this
        · next h =>
          rw [if_neg h]
          split at this
          · next h => rw [if_pos h]
          · cases this
      · split at this
        · cases this
        · next h =>
          rw [if_neg h]
          split at this
          · cases this
          · next h => rw [if_neg h]
    · have h1 := de_rgb_ending ends hl
      have h3 : recColors ends l = ([], ends || (8 ≤ l.length && 8 + num (l.take 8) ≤ l.length)) := by
        rw [recColors]
        intro r g b rest e
        exact hl ⟨⟨r, g, b⟩, rest, e⟩
      rw [h3]
      rcases hd : (de (listEnding ends) l : Ret Unit (Rgb UInt8) × List UInt8) with ⟨x | x | _, r⟩ <;>
        rw [hd] at h1 <;> simp only at h1 ⊢
      · split at h1 <;> cases h1
      · split at h1
        · next h => rw [if_neg (by simp), if_pos h]
        · cases h1
      · split at h1
        · cases h1
        · next h => rw [if_neg (by simp), if_neg h]

theorem de_size_ending (ends : Bool) (l : List UInt8) :
    (de (listEnding ends) l : Ret Unit (UInt32 × UInt32) × List UInt8) =
      if 8 ≤ l.length then
        (.ok (UInt32.ofNat (num (l.take 4)), UInt32.ofNat (num ((l.drop 4).take 4))), l.drop 8)
      else (if ends then .err () else .panic, []) := by
  simp only [de, Proc.bind_def, readBytes_ending]
  by_cases h4 : 4 ≤ l.length
  · rw [if_pos h4]
    simp only [Proc.pure_apply, readBytes_ending, List.length_drop]
    by_cases h8 : 8 ≤ l.length
    · rw [if_pos h8, if_pos (by omega)]
      simp [num_eq]
    · rw [if_neg h8, if_neg (by omega)]
      cases ends <;> rfl
  · rw [if_neg h4, if_neg (c := 8 ≤ l.length) (by omega)]
    cases ends <;> rfl

theorem rebuildImage_unpacked {σ : Type} {next : Rd σ UInt8} {s : σ} {data : List UInt8} (ends : Bool)
    (h : if ends then EndsAfter next s data else PanicsAfter next s data) :
    (rebuildImage next s).1 = unpacked ends data := by
  have h1 : (rebuildImage next s).1 = (rebuildImage (listEnding ends) data).1 := by
    cases ends with
    | true =>
      exact (rebuildImage_sim (fun _ _ h => ⟨rfl, trivial⟩) (fun _ _ h => ⟨rfl, trivial⟩) (Sim.of_endsAfter next)).eq h
    | false =>
      exact (rebuildImage_sim (fun _ _ h => ⟨rfl, trivial⟩) (fun _ _ h => ⟨rfl, trivial⟩) (Sim.of_panicsAfter next)).eq h
  rw [h1]
  unfold unpacked
  have hrest : ∀ (w h : UInt32) (rest : List UInt8),
      (((do
        let img ← orPanic (RgbImage.new w h)
        let pixels : List (Rgb UInt8) ← readN (listEnding ends) img.pixels.length
        pure { img with pixels := pixels } : Rd (List UInt8) RgbImage)) rest).1 =
      if 2 ^ 63 ≤ 3 * (w.toNat * h.toNat) then .panic else
        if w.toNat * h.toNat ≤ (recColors ends rest).1.length then
          .ok { width := w, height := h, pixels := (recColors ends rest).1.take (w.toNat * h.toNat) }
        else if (recColors ends rest).2 then .err () else .panic := by
    intro w h rest
    unfold RgbImage.new
    split
    · next hlt =>
      rw [if_neg (by omega)]
      simp only [orPanic, pure_bind, List.length_replicate]
      have := readN_colors ends (w.toNat * h.toNat) rest
      rw [Proc.bind_def]
      rcases hr : (readN (listEnding ends) (w.toNat * h.toNat) rest : Ret Unit (List (Rgb UInt8)) × List UInt8) with ⟨x | x | _, r⟩ <;>
        rw [hr] at this <;> simp only at this ⊢
      · split at this
        · next h => rw [if_pos h]; cases this; rfl
        · split at this <;> cases this
      · split at this
        · cases this
        · next h =>
          rw [if_neg h]
          split at this
          · next h => rw [if_pos h]
          · cases this
      · split at this
        · cases this
        · next h =>
          rw [if_neg h]
          split at this
          · cases this
          · next h => rw [if_neg h]
    · rw [if_pos (by omega)]; rfl
  unfold rebuildImage withSize
  rw [Proc.bind_def, de_size_ending]
  dsimp only
  by_cases hl : 8 ≤ data.length
  · rw [if_pos hl, if_neg (by omega), if_neg (by omega)]
    exact hrest _ _ _
  · rw [if_neg hl, if_pos (c := data.length < 8) (by omega)]
    cases ends with
    | true => rw [if_neg (c := data.length < 8 ∧ true = false) (by simp)]; rfl
    | false => rw [if_pos (c := data.length < 8 ∧ false = false) ⟨by omega, rfl⟩]; rfl

/-! ## Huffman codes -/

section
variable {T : Type}

theorem firstSymbol_some {t : BinTrie T} {bits rest : List Bool} {x : T} (h : firstSymbol t bits = some (x, rest)) :
    ∃ p, (p, x) ∈ leaves t ∧ bits = p ++ rest := by
  obtain ⟨⟨p, y⟩, hp, h⟩ := List.exists_of_findSome?_eq_some h
  dsimp only at h
  split at h
  · next hpre =>
    obtain ⟨q, rfl⟩ := hpre
    simp only [List.drop_left, Option.some.injEq, Prod.mk.injEq] at h
    obtain ⟨rfl, rfl⟩ := h
    exact ⟨p, hp, rfl⟩
  · cases h

theorem firstSymbol_none {t : BinTrie T} {bits : List Bool} (h : firstSymbol t bits = none) :
    ∀ p ∈ leaves t, ¬ p.1 <+: bits := by
  intro p hp hpre
  have := List.findSome?_eq_none_iff.1 h p hp
  rw [if_pos hpre] at this
  cases this

theorem spelled_length (t : BinTrie T) (n : Nat) (bits : List Bool) : (spelled t n bits).length ≤ n := by
  induction n generalizing bits with
  | zero => simp [spelled]
  | succ n ih =>
    rw [spelled]
    split
    · simpa using ih _
    · simp

theorem decStream_spelled {t : BinTrie T} {r : BitReader} {bits : List Bool} (n : Nat)
    (h : Yields (BitReader.next .msbFirst) r bits) :
    Supplies DecStream.next ⟨t, r⟩ (spelled t n bits) ∧
    ((spelled t n bits).length < n → EndsAfter DecStream.next ⟨t, r⟩ (spelled t n bits)) := by
  induction n generalizing r bits with
  | zero => exact ⟨trivial, fun h => absurd h (by simp)⟩
  | succ n ih =>
    rw [spelled]
    cases hf : firstSymbol t bits with
    | none =>
      refine ⟨trivial, fun _ => ?_⟩
      obtain ⟨s', h1, -⟩ := lookup_short (firstSymbol_none hf) h
      simp [EndsAfter, DecStream.next, h1]
    | some v =>
      obtain ⟨x, rest⟩ := v
      obtain ⟨p, hp, rfl⟩ := firstSymbol_some hf
      obtain ⟨r', h1, h2⟩ := decStream_step hp h
      obtain ⟨h3, h4⟩ := ih h2
      exact ⟨⟨_, h1, h3⟩, fun hl => ⟨_, h1, h4 (by simpa using hl)⟩⟩

/-- The code tree at the start of the bytes, and the bytes after it. -/
noncomputable def treeIn [SerSpec T] (l : List UInt8) : Option (BinTrie T × List UInt8) :=
  open Classical in
  if h : ∃ p : BinTrie T × List UInt8, TreeValid p.1 ∧ l = treeBytes p.1 ++ p.2 then some h.choose else none

variable [Ser T] [SerSpec T] [LawfulSer T]

theorem treeIn_eq (t : BinTrie T) (h : TreeValid t) (rest : List UInt8) : treeIn (treeBytes t ++ rest) = some (t, rest) := by
  have he : ∃ p : BinTrie T × List UInt8, TreeValid p.1 ∧ treeBytes t ++ rest = treeBytes p.1 ++ p.2 := ⟨(t, rest), h, rfl⟩
  unfold treeIn
  rw [dif_pos he]
  obtain ⟨h1, h2⟩ := he.choose_spec
  have h3 := de_tree t h rest
  rw [h2, de_tree _ h1] at h3
  exact congrArg some (Prod.ext (Ret.ok.inj (Prod.mk.inj h3).1) (Prod.mk.inj h3).2)

omit [Ser T] [LawfulSer T] in
theorem treeIn_none {l : List UInt8} (h : ∀ (t : BinTrie T) rest, TreeValid t → l ≠ treeBytes t ++ rest) :
    treeIn (T := T) l = none := by
  unfold treeIn
  rw [dif_neg]
  rintro ⟨p, h1, h2⟩
  exact h _ _ h1 h2

theorem decodeAll_treeIn (l : List UInt8) : ∃ r, (decodeAll l : Ret Unit (DecStream T) × List UInt8) =
    match treeIn l with
    | some (t, payload) => (.ok ⟨t, bitReader payload⟩, [])
    | none => (.err (), r) := by
  by_cases h : ∃ (t : BinTrie T) (rest : List UInt8), TreeValid t ∧ l = treeBytes t ++ rest
  · obtain ⟨t, rest, h1, rfl⟩ := h
    rw [treeIn_eq t h1]
    exact ⟨[], decodeAll_tree t h1 rest⟩
  · rw [treeIn_none (by intro t rest h1 h2; exact h ⟨t, rest, h1, h2⟩)]
    obtain ⟨hnp, hc⟩ := deFuel_canon (T := T) _ l (Nat.lt_succ_self _)
    rcases hd : (BinTrie.de l : Ret Unit (BinTrie T) × List UInt8) with ⟨x | x | _, r⟩
    · obtain ⟨hv, e⟩ := hc x r hd
      exact absurd ⟨x, r, hv, e⟩ h
    · exact ⟨r, Proc.bind_err hd⟩
    · exact absurd (by rw [show BinTrie.deFuel listNext (l.length + 1) l = BinTrie.de l from rfl, hd]) hnp

end

theorem hufmanDecode_any (l : List UInt8) :
    hufmanDecode l = withSize l fun w h rest =>
      match treeIn rest with
      | none => .err ()
      | some (t, payload) =>
        let px := spelled t (w.toNat * h.toNat) (bitsOf payload)
        if px.length = w.toNat * h.toNat then .ok { width := w, height := h, pixels := px } else .err () := by
  unfold hufmanDecode Proc.run createImageBufferStandard
  rw [bind_assoc]
  refine withSize_eq l _ _ ?_ ?_
  · intro w h rest hn
    simp only [hn, orPanic]
    rfl
  · intro w h rest hn
    simp only [hn, orPanic, pure_bind, List.length_replicate]
    obtain ⟨r, hd⟩ := decodeAll_treeIn (T := Rgb UInt8) rest
    cases ht : (treeIn rest : Option (BinTrie (Rgb UInt8) × List UInt8)) with
    | none =>
      rw [ht] at hd
      rw [Proc.bind_err hd]
    | some v =>
      obtain ⟨t, payload⟩ := v
      rw [ht] at hd
      rw [Proc.bind_ok hd]
      obtain ⟨h1, h2⟩ := decStream_spelled (t := t) (w.toNat * h.toNat) (yields_bitReader payload)
      dsimp only
      split
      · next hl =>
        have h3 := hufmanFill_supplies h1
        rw [hl] at h3
        simp only [onStream, Proc.bind_def, h3]
        rfl
      · next hl =>
        have hlt : (spelled t (w.toNat * h.toNat) (bitsOf payload)).length < w.toNat * h.toNat :=
          Nat.lt_of_le_of_ne (spelled_length _ _ _) hl
        have h3 := hufmanFill_short hlt (h2 hlt)
        simp only [onStream, Proc.bind_def, h3]

/-! ## Differences -/

/-- A channel as a number that can be added to. -/
def Channel (n : Int16) : Prop := 0 ≤ n.toInt ∧ n.toInt ≤ 255

theorem addI16_channel (chk : Bool) {a d : Int16} (ha : Channel a) :
    (isChannel (a.toInt + d.toInt) = true →
      ∃ s, addI16 chk a d = some s ∧ s.toInt = a.toInt + d.toInt ∧ Channel s ∧
        u8TryFromI16 s = some (UInt8.ofNat (a.toInt + d.toInt).toNat)) ∧
    (isChannel (a.toInt + d.toInt) = false →
      addI16 chk a d = none ∨ ∃ s, addI16 chk a d = some s ∧ u8TryFromI16 s = none) := by
  obtain ⟨h1, h2⟩ := ha
  have h3 := d.toInt_lt
  have h4 := d.le_toInt
  have e : (a + d).toInt = (a.toInt + d.toInt).bmod (2 ^ 16) := Int16.toInt_add a d
  rw [Int.bmod_def] at e
  constructor
  · intro h
    simp only [isChannel, Bool.and_eq_true, decide_eq_true_eq] at h
    have e2 : (a + d).toInt = a.toInt + d.toInt := by omega
    refine ⟨a + d, ?_, e2, ⟨by omega, by omega⟩, ?_⟩
    · unfold addI16
      simp [e2]
    · unfold u8TryFromI16
      rw [if_pos (by omega), e2]
  · intro h
    have h : ¬ (0 ≤ a.toInt + d.toInt ∧ a.toInt + d.toInt ≤ 255) := by
      simpa [isChannel] using h
    unfold addI16
    split
    · exact .inl rfl
    · refine .inr ⟨a + d, rfl, ?_⟩
      unfold u8TryFromI16
      rw [if_neg (by omega)]

def SignedColor.IsColor (c : SignedColor) : Prop := Channel c.r ∧ Channel c.g ∧ Channel c.b

def SignedColor.toInts (c : SignedColor) : Int × Int × Int := (c.r.toInt, c.g.toInt, c.b.toInt)

theorem fromDiff_any {σ : Type} (chk : Bool) {next : Rd σ SignedColor} {s s' : σ} {d : SignedColor}
    {last : SignedColor} (hl : last.IsColor) (h : next s = (.ok d, s')) :
    (∃ (c : Rgb UInt8) (new : SignedColor), new.IsColor ∧
      FromDiff.next chk next ⟨s, last⟩ = (.ok c, ⟨s', new⟩) ∧
      ∀ ds, addUp last.toInts (d :: ds) = (c :: (addUp new.toInts ds).1, (addUp new.toInts ds).2)) ∨
    ((FromDiff.next chk next ⟨s, last⟩).1 = .panic ∧ ∀ ds, addUp last.toInts (d :: ds) = ([], false)) := by
  obtain ⟨hr, hg, hb⟩ := hl
  obtain ⟨r1, r2⟩ := addI16_channel chk (d := d.r) hr
  obtain ⟨g1, g2⟩ := addI16_channel chk (d := d.g) hg
  obtain ⟨b1, b2⟩ := addI16_channel chk (d := d.b) hb
  cases er : isChannel (last.r.toInt + d.r.toInt) with
  | false =>
    refine .inr ⟨?_, fun ds => by simp [addUp, SignedColor.toInts, er]⟩
    rcases r2 er with e | ⟨x, e, e'⟩
    · simp [FromDiff.next, h, SignedColor.add, e]
    · simp only [FromDiff.next, h, SignedColor.add, e]
      cases addI16 chk last.g d.g <;> cases addI16 chk last.b d.b <;> simp [SignedColor.tryIntoRgb, e']
  | true =>
    obtain ⟨xr, e1, e2, e3, e4⟩ := r1 er
    cases eg : isChannel (last.g.toInt + d.g.toInt) with
    | false =>
      refine .inr ⟨?_, fun ds => by simp [addUp, SignedColor.toInts, eg]⟩
      rcases g2 eg with e | ⟨x, e, e'⟩
      · simp [FromDiff.next, h, SignedColor.add, e, e1]
      · simp only [FromDiff.next, h, SignedColor.add, e, e1]
        cases addI16 chk last.b d.b <;> simp [SignedColor.tryIntoRgb, e', e4]
    | true =>
      obtain ⟨xg, f1, f2, f3, f4⟩ := g1 eg
      cases eb : isChannel (last.b.toInt + d.b.toInt) with
      | false =>
        refine .inr ⟨?_, fun ds => by simp [addUp, SignedColor.toInts, eb]⟩
        rcases b2 eb with e | ⟨x, e, e'⟩
        · simp [FromDiff.next, h, SignedColor.add, e, e1, f1]
        · simp [FromDiff.next, h, SignedColor.add, e, e1, f1, SignedColor.tryIntoRgb, e', e4, f4]
      | true =>
        obtain ⟨xb, i1, i2, i3, i4⟩ := b1 eb
        refine .inl ⟨⟨UInt8.ofNat (last.r.toInt + d.r.toInt).toNat, UInt8.ofNat (last.g.toInt + d.g.toInt).toNat,
          UInt8.ofNat (last.b.toInt + d.b.toInt).toNat⟩, ⟨xr, xg, xb⟩, ⟨e3, f3, i3⟩, ?_, fun ds => ?_⟩
        · simp [FromDiff.next, h, SignedColor.add, SignedColor.tryIntoRgb, e1, f1, i1, e4, f4, i4]
        · simp only [addUp, SignedColor.toInts, er, eg, eb, e2, f2, i2, Bool.and_self, if_true]

theorem fromDiff_supplies_any {σ : Type} (chk : Bool) {next : Rd σ SignedColor} {s : σ} {last : SignedColor}
    (hl : last.IsColor) (ds : List SignedColor) (h : Supplies next s ds) :
    if (addUp last.toInts ds).2 then Supplies (FromDiff.next chk next) ⟨s, last⟩ (addUp last.toInts ds).1
    else PanicsAfter (FromDiff.next chk next) ⟨s, last⟩ (addUp last.toInts ds).1 := by
  induction ds generalizing s last with
  | nil => trivial
  | cons d ds ih =>
    obtain ⟨s', h1, h2⟩ := h
    rcases fromDiff_any chk hl h1 with ⟨c, new, hn, h3, h4⟩ | ⟨h3, h4⟩
    · have := ih hn h2
      rw [h4]
      dsimp only
      split
      · next hf => rw [if_pos hf] at this; exact ⟨_, h3, this⟩
      · next hf => rw [if_neg hf] at this; exact ⟨_, h3, this⟩
    · rw [h4]; exact h3

theorem fromDiff_ends_any {σ : Type} (chk : Bool) {next : Rd σ SignedColor} {s : σ} {last : SignedColor}
    (hl : last.IsColor) (ds : List SignedColor) (h : EndsAfter next s ds) :
    if (addUp last.toInts ds).2 then EndsAfter (FromDiff.next chk next) ⟨s, last⟩ (addUp last.toInts ds).1
    else PanicsAfter (FromDiff.next chk next) ⟨s, last⟩ (addUp last.toInts ds).1 := by
  induction ds generalizing s last with
  | nil =>
    show (FromDiff.next chk next ⟨s, last⟩).1 = .err ()
    simp only [EndsAfter] at h
    rcases hn : next s with ⟨_ | _ | _, s'⟩ <;> rw [hn] at h <;> simp at h
    simp [FromDiff.next, hn]
  | cons d ds ih =>
    obtain ⟨s', h1, h2⟩ := h
    rcases fromDiff_any chk hl h1 with ⟨c, new, hn, h3, h4⟩ | ⟨h3, h4⟩
    · have := ih hn h2
      rw [h4]
      dsimp only
      split
      · next hf => rw [if_pos hf] at this; exact ⟨_, h3, this⟩
      · next hf => rw [if_neg hf] at this; exact ⟨_, h3, this⟩
    · rw [h4]; exact h3

theorem addUp_length (a : Int × Int × Int) (ds : List SignedColor) (h : (addUp a ds).2 = true) :
    (addUp a ds).1.length = ds.length := by
  induction ds generalizing a with
  | nil => rfl
  | cons d ds ih =>
    obtain ⟨r, g, b⟩ := a
    rw [addUp] at h ⊢
    split
    · next hc =>
      rw [if_pos hc] at h
      simpa using ih _ h
    · next hc => rw [if_neg hc] at h; cases h

theorem addUp_short (a : Int × Int × Int) (ds : List SignedColor) (h : (addUp a ds).2 = false) :
    (addUp a ds).1.length < ds.length := by
  induction ds generalizing a with
  | nil => cases h
  | cons d ds ih =>
    obtain ⟨r, g, b⟩ := a
    rw [addUp] at h ⊢
    split
    · next hc =>
      rw [if_pos hc] at h
      simpa using ih _ h
    · simp

theorem deltaDecode_any (chk : Bool) {scan : Scan} (hs : ∀ w h, VisitsOnce scan w h) (l : List UInt8) :
    deltaDecode chk scan l = withSize l fun w h rest =>
      match treeIn rest with
      | none => .panic
      | some (t, payload) =>
        paintedOr scan w h (addUp (0, 0, 0) (spelled t (w.toNat * h.toNat) (bitsOf payload))) := by
  unfold deltaDecode Proc.run createImageBufferStandard
  rw [bind_assoc]
  refine withSize_eq l _ _ ?_ ?_
  · intro w h rest hn
    simp only [hn, orPanic]
    rfl
  · intro w h rest hn
    simp only [hn, orPanic, pure_bind]
    obtain ⟨r, hd⟩ := decodeAll_treeIn (T := SignedColor) rest
    cases ht : (treeIn rest : Option (BinTrie SignedColor × List UInt8)) with
    | none =>
      rw [ht] at hd
      simp only [Proc.bind_def, Proc.unwrap, hd]
    | some v =>
      obtain ⟨t, payload⟩ := v
      rw [ht] at hd
      simp only [Proc.bind_def, Proc.unwrap, hd, onStream]
      obtain ⟨h1, h2⟩ := decStream_spelled (t := t) (w.toNat * h.toNat) (yields_bitReader payload)
      have hc : SignedColor.start.IsColor := ⟨⟨by decide, by decide⟩, ⟨by decide, by decide⟩, by decide, by decide⟩
      generalize spelled t (w.toNat * h.toNat) (bitsOf payload) = ds at h1 h2
      have h3 := fromDiff_supplies_any chk hc ds h1
      refine paint_cols (hs _ _) (addUp (0, 0, 0) ds).1 (addUp (0, 0, 0) ds).2 ?_ ?_
      · have h3 : if (addUp (0, 0, 0) ds).2 then _ else _ := h3
        split at h3
        · exact h3
        · exact h3.supplies
      · intro hlt
        cases hf : (addUp (0, 0, 0) ds).2 with
        | true =>
          rw [addUp_length _ _ hf] at hlt
          have := fromDiff_ends_any chk hc ds (h2 hlt)
          rw [show (addUp SignedColor.start.toInts ds).2 = true from hf] at this
          exact this
        | false =>
          rw [show (addUp SignedColor.start.toInts ds).2 = false from hf] at h3
          exact h3

/-! ## Centroids -/

theorem num_le (k n : Nat) (h : n < 256 ^ k) : num (le k n) = n := by
  rw [num_eq, ← toLe_eq_le, fromLe_toLe, Nat.mod_eq_of_lt h]

theorem u32_bytes (n : UInt32) : bytes n = [byteAt n.toNat 0, byteAt n.toNat 1, byteAt n.toNat 2, byteAt n.toNat 3] := rfl

theorem u32_num (n : UInt32) :
    UInt32.ofNat (num [byteAt n.toNat 0, byteAt n.toNat 1, byteAt n.toNat 2, byteAt n.toNat 3]) = n := by
  have h := num_le 4 n.toNat (by simpa using n.toNat_lt)
  rw [show le 4 n.toNat = [byteAt n.toNat 0, byteAt n.toNat 1, byteAt n.toNat 2, byteAt n.toNat 3] from rfl] at h
  rw [h, UInt32.ofNat_toNat]

theorem pointsIn_bytes (k : Nat) (c : ColorPos) (rest : List UInt8) :
    pointsIn (k + 1) (bytes c ++ rest) =
      match pointsIn k rest with
      | some ps => some (c :: ps)
      | none => none := by
  have e : bytes c = bytes c.x ++ bytes c.y ++ bytes c.color := rfl
  rw [e, u32_bytes, u32_bytes, rgb_bytes]
  simp only [List.cons_append, List.nil_append, pointsIn, u32_num]
  rfl

theorem pointsIn_none (k : Nat) {l : List UInt8} (h : ∀ (c : ColorPos) (rest : List UInt8), l ≠ bytes c ++ rest) :
    pointsIn (k + 1) l = none := by
  rw [pointsIn]
  intro x0 x1 x2 x3 y0 y1 y2 y3 r g b rest e
  apply h ⟨UInt32.ofNat (num [x0, x1, x2, x3]), UInt32.ofNat (num [y0, y1, y2, y3]), ⟨r, g, b⟩⟩ rest
  have hb : ∀ a b c d : UInt8, bytes (UInt32.ofNat (num [a, b, c, d])) = [a, b, c, d] := by
    intro a b c d
    have h1 := le_num [a, b, c, d] 4 (Nat.le_refl _)
    have h2 := num_take_lt [a, b, c, d] 4
    show le 4 (UInt32.ofNat (num [a, b, c, d])).toNat = _
    rw [UInt32.toNat_ofNat_of_lt' (by simpa using h2)]
    exact h1
  have e2 : bytes (ColorPos.mk (UInt32.ofNat (num [x0, x1, x2, x3])) (UInt32.ofNat (num [y0, y1, y2, y3])) ⟨r, g, b⟩) =
    bytes (UInt32.ofNat (num [x0, x1, x2, x3])) ++ bytes (UInt32.ofNat (num [y0, y1, y2, y3])) ++
      bytes (Rgb.mk r g b) := rfl
  rw [e, e2, hb, hb, rgb_bytes]
  rfl

theorem readN_points (k : Nat) (l : List UInt8) :
    (readN listNext k l : Ret Unit (List ColorPos) × List UInt8).1 =
      match pointsIn k l with
      | some ps => .ok ps
      | none => .err () := by
  induction k generalizing l with
  | zero => rfl
  | succ k ih =>
    rw [readN, Proc.bind_def]
    by_cases h : ∃ (c : ColorPos) (rest : List UInt8), l = bytes c ++ rest
    · obtain ⟨c, rest, rfl⟩ := h
      rw [LawfulSer.de_bytes c (pos_valid c), pointsIn_bytes]
      simp only [Proc.bind_def]
      have := ih rest
      rcases hr : (readN listNext k rest : Ret Unit (List ColorPos) × List UInt8) with ⟨x | x | _, r⟩ <;>
        rw [hr] at this <;> cases hp : pointsIn k rest <;> rw [hp] at this <;> simp_all
    · rw [pointsIn_none k (fun c rest e => h ⟨c, rest, e⟩)]
      rcases hd : (de listNext l : Ret Unit ColorPos × List UInt8) with ⟨x | x | _, r⟩
      · obtain ⟨-, e⟩ := LawfulSer.canon _ _ _ hd
        exact absurd ⟨_, _, e⟩ h
      · rfl
      · exact absurd (by rw [hd]) (LawfulSer.no_panic (α := ColorPos) l)

theorem pointsIn_length {k : Nat} {l : List UInt8} {ps : List ColorPos} (h : pointsIn k l = some ps) : ps.length = k := by
  induction k generalizing l ps with
  | zero => rw [pointsIn] at h; cases h; rfl
  | succ k ih =>
    by_cases hc : ∃ (c : ColorPos) (rest : List UInt8), l = bytes c ++ rest
    · obtain ⟨c, rest, rfl⟩ := hc
      rw [pointsIn_bytes] at h
      cases hp : pointsIn k rest with
      | none => rw [hp] at h; cases h
      | some qs => rw [hp] at h; cases h; simp [ih hp]
    · rw [pointsIn_none k (fun c rest e => hc ⟨c, rest, e⟩)] at h
      cases h

theorem centroidsIn_length {l : List UInt8} {ps : List ColorPos} (h : centroidsIn l = some ps) : ps.length < 2 ^ 64 := by
  unfold centroidsIn at h
  split at h
  · cases h
  · rw [pointsIn_length h]; exact num_take_lt l 8

theorem voronoiDecode_any (chk : Bool) (l : List UInt8) :
    voronoiDecode chk l = withSize l fun w h rest =>
      match centroidsIn rest with
      | some cs => voronoiDecode chk (voronoiBytes w h cs)
      | none => .err () := by
  conv => lhs; unfold voronoiDecode Proc.run
  refine withSize_eq l _ _ ?_ ?_
  · intro w h rest hn
    simp only [hn, orPanic]
    rfl
  · intro w h rest hn
    have ha : 3 * (w.toNat * h.toNat) < 2 ^ 63 := by
      unfold RgbImage.new at hn
      split at hn
      · assumption
      · cases hn
    simp only [hn, orPanic, pure_bind]
    have hde : (de listNext rest : Ret Unit Usize × List UInt8) =
        if 8 ≤ rest.length then (.ok ⟨UInt64.ofNat (num (rest.take 8))⟩, rest.drop 8) else (.err (), []) := by
      have := readBytes_ending true 8 rest
      simp only [de, Proc.bind_def]
      rw [show (listNext : Rd (List UInt8) UInt8) = listEnding true from rfl, this]
      by_cases h8 : 8 ≤ rest.length
      · rw [if_pos h8, if_pos h8, num_eq]; rfl
      · rw [if_neg h8, if_neg h8]; rfl
    rw [Proc.bind_def, hde]
    cases hc : centroidsIn rest with
    | none =>
      unfold centroidsIn at hc
      by_cases h8 : 8 ≤ rest.length
      · rw [if_neg (by omega)] at hc
        rw [if_pos h8]
        dsimp only
        have h2 := readN_points (num (rest.take 8)) (rest.drop 8)
        rw [hc] at h2
        rw [UInt64.toNat_ofNat_of_lt' (num_take_lt rest 8), Proc.bind_def]
        rcases hr : (readN listNext (num (rest.take 8)) (rest.drop 8) : Ret Unit (List ColorPos) × List UInt8) with
          ⟨x | x | _, r⟩ <;> rw [hr] at h2 <;> simp at h2
      · rw [if_neg h8]
    | some cs =>
      have hl := centroidsIn_length hc
      have h3 := voronoiDecode_eq chk w h cs [] ha hl
      rw [List.append_nil] at h3
      dsimp only
      rw [h3]
      unfold centroidsIn at hc
      by_cases h8 : 8 ≤ rest.length
      · rw [if_neg (by omega)] at hc
        rw [if_pos h8]
        dsimp only
        have h2 := readN_points (num (rest.take 8)) (rest.drop 8)
        rw [hc] at h2
        rw [UInt64.toNat_ofNat_of_lt' (num_take_lt rest 8), Proc.bind_def]
        rcases hr : (readN listNext (num (rest.take 8)) (rest.drop 8) : Ret Unit (List ColorPos) × List UInt8) with
          ⟨x | x | _, r⟩ <;> rw [hr] at h2 <;> simp at h2
        subst h2
        dsimp only
        cases optMap (fun i => pixelColor chk x (UInt32.ofNat (i % w.toNat)) (UInt32.ofNat (i / w.toNat)))
          (List.range (w.toNat * h.toNat)) <;> rfl
      · rw [if_pos (by omega)] at hc; cases hc

end Cniic
