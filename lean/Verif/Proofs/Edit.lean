import Verif.Spec.Edit
import Verif.Props.Decode

/-! # Proofs: files edited without decoding them -/

namespace Cniic
open Spec SerSpec

/-! ## Replacing colours -/

theorem leaves_mapLeaves {T U : Type} (f : T → U) (t : BinTrie T) :
    leaves (t.mapLeaves f) = (leaves t).map fun p => (p.1, f p.2) := by
  induction t with
  | leaf v => rfl
  | branch l r ihl ihr => simp [BinTrie.mapLeaves, leaves, ihl, ihr, Function.comp_def]

theorem treeBytes_mapLeaves (f : Rgb UInt8 → Rgb UInt8) (t : BinTrie (Rgb UInt8)) :
    (treeBytes (t.mapLeaves f)).length = (treeBytes t).length := by
  induction t with
  | leaf v => rfl
  | branch l r ihl ihr => simp [BinTrie.mapLeaves, treeBytes, ihl, ihr]

theorem firstSymbol_mapLeaves {T U : Type} (f : T → U) (t : BinTrie T) (bits : List Bool) :
    firstSymbol (t.mapLeaves f) bits = (firstSymbol t bits).map fun p => (f p.1, p.2) := by
  unfold firstSymbol
  rw [leaves_mapLeaves]
  induction leaves t with
  | nil => rfl
  | cons p l ih =>
    simp only [List.map_cons, List.findSome?_cons]
    by_cases h : p.1 <+: bits
    · simp [h]
    · simp only [h, if_false]
      exact ih

theorem spelled_mapLeaves {T U : Type} (f : T → U) (t : BinTrie T) (n : Nat) (bits : List Bool) :
    spelled (t.mapLeaves f) n bits = (spelled t n bits).map f := by
  induction n generalizing bits with
  | zero => rfl
  | succ n ih =>
    unfold spelled
    rw [firstSymbol_mapLeaves]
    cases firstSymbol t bits with
    | none => rfl
    | some p => simp [ih]

theorem rleColors_runs (runs : List (UInt8 × Rgb UInt8)) (h : ∀ r ∈ runs, 1 ≤ r.1.toNat) (rest : List UInt8) :
    rleColors (runs.flatMap runBytes ++ rest) = (expandRuns runs ++ (rleColors rest).1, (rleColors rest).2) := by
  induction runs with
  | nil => rfl
  | cons r runs ih =>
    obtain ⟨n, ⟨a, b, c⟩⟩ := r
    have e : (((n, ⟨a, b, c⟩) : UInt8 × Rgb UInt8) :: runs).flatMap runBytes ++ rest =
        n :: 3 :: 0 :: 0 :: 0 :: 0 :: 0 :: 0 :: 0 :: a :: b :: c :: (runs.flatMap runBytes ++ rest) := rfl
    have hn : n ≠ 0 := by
      intro h0
      have := h _ (List.mem_cons_self ..)
      simp [h0] at this
    rw [e, rleColors, if_neg hn, ih fun r hr => h r (by simp [hr])]
    simp [expandRuns]

theorem painted_map {scan : Scan} {w h : UInt32} (hs : VisitsOnce scan w.toNat h.toNat) (f : Rgb UInt8 → Rgb UInt8)
    {cols : List (Rgb UInt8)} (hl : w.toNat * h.toNat ≤ cols.length) (more more' : List (Rgb UInt8)) :
    painted scan w h (cols.map f ++ more') = (painted scan w h (cols ++ more)).recolor f := by
  unfold painted RgbImage.recolor
  simp only [List.map_map, RgbImage.mk.injEq, true_and]
  refine List.map_congr_left fun c hc => ?_
  have hi : (scan w.toNat h.toNat).idxOf c < cols.length := by
    have := List.idxOf_lt_length_iff.2 (hs.mem_iff.2 hc)
    rw [hs.length_eq, cells_length] at this
    omega
  simp only [Function.comp_apply]
  rw [List.getElem?_append_left (by simpa using hi), List.getElem?_append_left hi, List.getElem?_map,
    List.getElem?_eq_getElem hi]
  rfl

theorem minByKey_map {α β : Type} {key : α → Option UInt32} {key' : β → Option UInt32} (g : α → β)
    (hk : ∀ a, key' (g a) = key a) (l : List α) (best : α) (k : UInt32) :
    minByKey key' (l.map g) (g best) k = (minByKey key l best k).map g := by
  induction l generalizing best k with
  | nil => rfl
  | cons a l ih =>
    simp only [List.map_cons, minByKey, hk]
    cases key a with
    | none => rfl
    | some k' =>
      simp only [Option.bind_eq_bind, Option.bind_some]
      split
      · exact ih a k'
      · exact ih best k

theorem pixelColor_recolor (chk : Bool) (f : Rgb UInt8 → Rgb UInt8) (cs : List ColorPos) (x y : UInt32) :
    pixelColor chk (cs.map (recolorPoint f)) x y = (pixelColor chk cs x y).map f := by
  cases cs with
  | nil => rfl
  | cons c cs =>
    have hk : ∀ a, pixelKey chk x y (recolorPoint f a) = pixelKey chk x y a := fun _ => rfl
    simp only [List.map_cons, pixelColor, hk]
    cases pixelKey chk x y c with
    | none => rfl
    | some k =>
      simp only [Option.bind_eq_bind, Option.bind_some]
      rw [minByKey_map (recolorPoint f) hk]
      cases minByKey (pixelKey chk x y) cs c k <;> rfl

theorem optMap_map {α β γ : Type} {f : α → Option β} {g : α → Option γ} {k : β → γ} (h : ∀ a, g a = (f a).map k) (l : List α) :
    optMap g l = (optMap f l).map (List.map k) := by
  induction l with
  | nil => rfl
  | cons a l ih =>
    rw [optMap, optMap, h, ih]
    cases f a with
    | none => rfl
    | some b => cases optMap f l <;> rfl

/-! ## Smaller sizes -/

theorem spelled_take {T : Type} (t : BinTrie T) (n k : Nat) (bits : List Bool) :
    spelled t (min k n) bits = (spelled t n bits).take k := by
  induction n generalizing k bits with
  | zero => simp [spelled]
  | succ n ih =>
    cases k with
    | zero => simp [spelled]
    | succ k =>
      rw [Nat.succ_min_succ]
      unfold spelled
      cases firstSymbol t bits with
      | none => rfl
      | some p => simp [ih]

theorem addUp_take (s : Int × Int × Int) (l : List SignedColor) (n : Nat) :
    ((addUp s (l.take n)).2 = true) ∨ addUp s (l.take n) = addUp s l := by
  induction l generalizing s n with
  | nil => simp
  | cons d l ih =>
    cases n with
    | zero => left; rfl
    | succ n =>
      obtain ⟨r, g, b⟩ := s
      simp only [List.take_succ_cons, addUp]
      split
      · rcases ih (r + d.r.toInt, g + d.g.toInt, b + d.b.toInt) n with h | h
        · exact .inl h
        · right; rw [h]
      · exact .inr rfl

/-- Bytes of a number, one of them set to zero. -/
theorem u32_clear_byte {w : UInt32} (hw : w ≠ 0) : ∃ (i : Nat) (w' : UInt32), i < 4 ∧ w'.toNat < w.toNat ∧
    ∀ rest, (bytes w ++ rest).set i 0 = bytes w' ++ rest := by
  have hb : ∃ b0 b1 b2 b3 : UInt8, bytes w = [b0, b1, b2, b3] ∧ w.toNat = num [b0, b1, b2, b3] := by
    refine ⟨_, _, _, _, rfl, ?_⟩
    exact (num_le 4 w.toNat (by simpa using w.toNat_lt)).symm
  obtain ⟨b0, b1, b2, b3, e, hn⟩ := hb
  have back : ∀ c0 c1 c2 c3 : UInt8, bytes (UInt32.ofNat (num [c0, c1, c2, c3])) = [c0, c1, c2, c3] ∧
      (UInt32.ofNat (num [c0, c1, c2, c3])).toNat = num [c0, c1, c2, c3] := by
    intro c0 c1 c2 c3
    have hlt := num_take_lt [c0, c1, c2, c3] 4
    have h4 : (UInt32.ofNat (num [c0, c1, c2, c3])).toNat = num [c0, c1, c2, c3] :=
      UInt32.toNat_ofNat_of_lt' (by simpa using hlt)
    refine ⟨?_, h4⟩
    show le 4 _ = _
    rw [h4]
    exact le_num [c0, c1, c2, c3] 4 (by simp)
  have pos : ∀ b : UInt8, b ≠ 0 → 0 < b.toNat := fun b hb => Nat.pos_of_ne_zero fun h => hb (UInt8.toNat_inj.1 h)
  by_cases h0 : b0 = 0
  · by_cases h1 : b1 = 0
    · by_cases h2 : b2 = 0
      · by_cases h3 : b3 = 0
        · exfalso
          apply hw
          rw [← UInt32.toNat_inj, hn, h0, h1, h2, h3]
          rfl
        · obtain ⟨k1, k2⟩ := back b0 b1 b2 0
          refine ⟨3, UInt32.ofNat (num [b0, b1, b2, 0]), by omega, ?_, fun rest => by rw [e, k1]; rfl⟩
          rw [k2, hn]
          have := pos b3 h3
          simp only [num, UInt8.toNat_zero]
          omega
      · obtain ⟨k1, k2⟩ := back b0 b1 0 b3
        refine ⟨2, UInt32.ofNat (num [b0, b1, 0, b3]), by omega, ?_, fun rest => by rw [e, k1]; rfl⟩
        rw [k2, hn]
        have := pos b2 h2
        simp only [num, UInt8.toNat_zero]
        omega
    · obtain ⟨k1, k2⟩ := back b0 0 b2 b3
      refine ⟨1, UInt32.ofNat (num [b0, 0, b2, b3]), by omega, ?_, fun rest => by rw [e, k1]; rfl⟩
      rw [k2, hn]
      have := pos b1 h1
      simp only [num, UInt8.toNat_zero]
      omega
  · obtain ⟨k1, k2⟩ := back 0 b1 b2 b3
    refine ⟨0, UInt32.ofNat (num [0, b1, b2, b3]), by omega, ?_, fun rest => by rw [e, k1]; rfl⟩
    rw [k2, hn]
    have := pos b0 h0
    simp only [num, UInt8.toNat_zero]
    omega

end Cniic
