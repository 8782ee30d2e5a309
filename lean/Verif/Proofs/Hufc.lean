import Verif.Proofs.Image
import Verif.Proofs.Huf

/-! # Proofs: the hufman codec -/

namespace Cniic
open Spec SerSpec

theorem rgb_valid (c : Rgb UInt8) : valid c := ⟨trivial, trivial, trivial⟩

theorem dims_valid (w h : UInt32) : valid (w, h) := ⟨trivial, trivial⟩

theorem rgb_bytes_length (c : Rgb UInt8) : (bytes c).length = 11 := rfl

theorem emits_dims (img : Img) :
    Emits Emits.errOnly (ser (img.width, img.height)) (bytes (img.width, img.height)) () :=
  LawfulSer.emits _ (dims_valid _ _)

theorem anyWay_of_err {α : Type} {m : W α} {bs a} (h : Emits Emits.errOnly m bs a) :
    Emits Emits.anyWay m bs a := h.mono fun _ _ => trivial

theorem hufmanFill_supplies {s : DecStream (Rgb UInt8)} {items : List (Rgb UInt8)}
    (h : Supplies DecStream.next s items) : (hufmanFill items.length s).1 = .ok items := by
  induction items generalizing s with
  | nil => rfl
  | cons x xs ih =>
    obtain ⟨s', h1, h2⟩ := h
    have := ih h2
    rcases hf : hufmanFill xs.length s' with ⟨r, s''⟩
    rw [hf] at this
    simp only at this
    subst this
    rw [List.length_cons, hufmanFill, h1]
    simp only [hf]

theorem decStream_no_panic {T : Type} (s : DecStream T) : (DecStream.next s).1 ≠ .panic := by
  obtain ⟨t, b⟩ := s
  unfold DecStream.next
  simp only
  have hb : ∀ b : BitReader, (BitReader.next .msbFirst b).1 ≠ .panic := by
    intro b
    have h := Sim.of_yields (BitReader.next .msbFirst)
    unfold BitReader.next
    repeat' split
    all_goals simp
  induction t generalizing b with
  | leaf v => simp [BinTrie.lookup]
  | branch l r ihl ihr =>
    rw [BinTrie.lookup, Proc.bind_def]
    rcases h : BitReader.next .msbFirst b with ⟨_ | _ | _, b'⟩
    · rename_i x
      cases x
      · exact ihl b'
      · exact ihr b'
    · simp
    · exact absurd (by rw [h]) (hb b)

/-- Fewer symbols than pixels: no image. -/
theorem hufmanFill_short {s : DecStream (Rgb UInt8)} {items : List (Rgb UInt8)} {n : Nat}
    (hn : items.length < n) (h : EndsAfter DecStream.next s items) :
    (hufmanFill n s).1 = .err () := by
  induction n generalizing s items with
  | zero => simp at hn
  | succ n ih =>
    cases items with
    | nil =>
      simp only [EndsAfter] at h
      rcases hn : DecStream.next s with ⟨_ | _ | _, s'⟩ <;> rw [hn] at h <;> simp at h
      rw [hufmanFill, hn]
      simp only
      have := decStream_no_panic s'
      rcases h2 : DecStream.next s' with ⟨_ | _ | _, s''⟩ <;> simp [h2] at this ⊢
    | cons x xs =>
      obtain ⟨s', h1, h2⟩ := h
      have := ih (by simpa using hn) h2
      rcases hf : hufmanFill n s' with ⟨r, s''⟩
      rw [hf] at this
      simp only at this
      subst this
      rw [hufmanFill, h1]
      simp only [hf]

/-- Decoding, once the dimensions are known. -/
theorem hufmanDecode_eq (img : Img) (ha : Addressable img) (rest : List UInt8) :
    hufmanDecode (bytes (img.width, img.height) ++ rest) =
      match decodeAll rest with
      | (.ok ds, _) =>
        match (hufmanFill (img.width.toNat * img.height.toNat) ds).1 with
        | .ok px => .ok { width := img.width, height := img.height, pixels := px }
        | .err e => .err e
        | .panic => .panic
      | (.err e, _) => .err e
      | (.panic, _) => .panic := by
  unfold hufmanDecode Proc.run
  rw [Proc.bind_ok (createBuffer_eq img ha rest)]
  simp only [Proc.bind_def, List.length_replicate, onStream]
  rcases (decodeAll rest : Ret Unit (DecStream (Rgb UInt8)) × List UInt8) with ⟨_ | _ | _, _⟩
  · simp only
    rcases (hufmanFill (img.width.toNat * img.height.toNat) _) with ⟨_ | _ | _, _⟩ <;> rfl
  · rfl
  · rfl

end Cniic
