import Verif.Proofs.Join

/-!
# Joining compressed data (C109)
-/

namespace Cniic
open Spec SerSpec

/-! ## zip-back -/

/-- **C109**, zip-back: data that were compressed in pieces can be joined: decoding gives the pieces one after the other. -/
theorem C109_back_joined {cap : Back.Caps} (hcap : ∀ i, Back.repBufInit ≤ cap i) (pieces : List (List UInt8 × List UInt8))
    (h : ∀ b ∈ pieces, bytesOf (Back.zipBackEncode Back.ringSize cap b.1) = .ok b.2) :
    Yields Back.Decoder.next (Back.zipBackDecode Back.ringSize (pieces.map (·.2)).flatten) (pieces.map (·.1)).flatten := by
  refine Codes.yields ?_
  induction pieces with
  | nil => exact .nil
  | cons b bs ih =>
    exact (codes_encoded hcap (h b (by simp))).append (ih fun c hc => h c (by simp [hc]))

/-- **C109**, zip-back: anything that decodes to an end may be joined to compressed data. -/
theorem C109_back_rest {cap : Back.Caps} (hcap : ∀ i, Back.repBufInit ≤ cap i) {a ea rest out : List UInt8}
    (h : bytesOf (Back.zipBackEncode Back.ringSize cap a) = .ok ea) (hr : Reads Back.ringSize [] rest out .none) :
    Reads Back.ringSize [] (ea ++ rest) (a ++ out) .none :=
  (codes_encoded hcap h).reads hr

/-- **C109**, zip-back: so all data can be compressed, also those on which the encoder panics: in pieces of 32767 bytes,
at two bytes a piece. -/
theorem C109_back_pieces {cap : Back.Caps} (hcap : ∀ i, Back.repBufInit ≤ cap i) (input : List UInt8) :
    ∃ pieces : List (List UInt8 × List UInt8), pieces.length ≤ (input.length + 32766) / 32767 ∧
      (∀ b ∈ pieces, bytesOf (Back.zipBackEncode Back.ringSize cap b.1) = .ok b.2) ∧
      (pieces.map (·.1)).flatten = input ∧ (pieces.map (·.2)).flatten.length ≤ input.length + 2 * pieces.length ∧
      Yields Back.Decoder.next (Back.zipBackDecode Back.ringSize (pieces.map (·.2)).flatten) input := by
  obtain ⟨bs, h1, h2, h3, h4⟩ := codes_blocks hcap ((input.length + 32766) / 32767) input (by omega)
  exact ⟨bs, h1, h2, h3, h4, h3 ▸ C109_back_joined hcap bs h2⟩

/-- **C109**, zip(back): for every picture there is a file that the codec decodes to it, also for those that it cannot
encode (C54). -/
theorem C109_back_pictures {p : Setup} (hp : p.Lawful) (img : Img) (ha : Addressable img) :
    ∃ file, (AnyCodec.zip .back).decode p file = .ok img.toRgb ∧
      file.length ≤ 8 + 11 * img.pixels.length + 2 * ((8 + 11 * img.pixels.length + 32766) / 32767) := by
  obtain ⟨bs, h1, -, -, h4, h5⟩ := C109_back_pieces hp.cap (zipData img)
  refine ⟨_, rebuildImage_yields img ha h5, ?_⟩
  have e : (zipData img).length = 8 + 11 * img.pixels.length := by
    rw [zipData, List.length_append, dims_length, rgbs_bytes_length, Img.rgbPixels, List.length_map]
  rw [e] at h1 h4
  omega

/-! ## zip-dict -/

/-- **C109**, zip-dict: what follows compressed data is read with a larger dictionary. -/
theorem C109_dict_rest (a : List UInt8) :
    ∃ ea known, Emits Emits.errOnly (zipDictEncode a) ea () ∧ oneByteSeqs <+: known ∧ known.length ≤ 65535 ∧
      ∀ rest, meaning oneByteSeqs (ea ++ rest) = (a ++ (meaning known rest).1, (meaning known rest).2) := by
  obtain ⟨syms, hp, he⟩ := zipDictEncode_spec a
  obtain ⟨known, h1, h2, -, h4⟩ := parse_start hp
  exact ⟨_, known, he, h1, h2, h4⟩

/-- **C109**, zip-dict: up to three bytes, compressed, may be joined to compressed data. -/
theorem C109_dict_three {a b ea eb : List UInt8} (ha : bytesOf (zipDictEncode a) = .ok ea)
    (hb : bytesOf (zipDictEncode b) = .ok eb) (hl : b.length ≤ 3) :
    Yields DictDecoder.next (zipDictDecode (ea ++ eb)) (a ++ b) := by
  obtain ⟨s, hp, he⟩ := zipDictEncode_spec a
  obtain ⟨t, hq, hf⟩ := zipDictEncode_spec b
  rw [he.bytesOf] at ha
  rw [hf.bytesOf] at hb
  cases ha
  cases hb
  obtain ⟨known, h1, -, -, h4⟩ := parse_start hp
  have e : meaning oneByteSeqs (symBytes s ++ symBytes t) = (a ++ b, true) := by
    rw [h4, meaning_single h1 (List.prefix_refl _) (parse_three hq hl), hq.meaning goodDict_start.le]
  have := (C20_damaged_input (symBytes s ++ symBytes t)).1 (by rw [e])
  rwa [e] at this

/-- **C109**, zip-dict: in general, compressed data cannot be joined.  Four bytes `x y x y` after any other data come out
as `x y` and the first two bytes of the other data, and nothing is noticed. -/
theorem C109_dict_twice {a ea eb : List UInt8} {x y : UInt8} (hne : a ≠ []) (ha : bytesOf (zipDictEncode a) = .ok ea)
    (hb : bytesOf (zipDictEncode [x, y, x, y]) = .ok eb) :
    Yields DictDecoder.next (zipDictDecode (ea ++ eb)) (a ++ ([x, y] ++ a.take 2)) := by
  obtain ⟨s, hp, he⟩ := zipDictEncode_spec a
  obtain ⟨t, hq, hf⟩ := zipDictEncode_spec [x, y, x, y]
  rw [he.bytesOf] at ha
  rw [hf.bytesOf] at hb
  cases ha
  cases hb
  obtain ⟨known, h1, -, h3, h4⟩ := parse_start hp
  rw [parse_twice hq]
  have one : ∀ b : UInt8, expand known (UInt16.ofNat b.toNat).toNat = some [b] := fun b => by
    obtain ⟨t, rfl⟩ := h1
    have hb := b.toNat_lt
    rw [show (UInt16.ofNat b.toNat).toNat = b.toNat by simp, expand, if_neg (by omega),
      List.getElem?_append_left (by rw [ones_length]; exact hb), ones_get]
  have h256 : (learn known ([x] ++ [y]))[256]? = some (a.take 2) := by
    obtain ⟨t, ht⟩ := learn_prefix known ([x] ++ [y])
    have := h3 hne
    rw [← ht, List.getElem?_append_left (List.getElem?_eq_some_iff.1 this).1, this]
  have e : meaning oneByteSeqs (symBytes s ++ symBytes [UInt16.ofNat x.toNat, UInt16.ofNat y.toNat, 256, 65535]) =
      (a ++ ([x, y] ++ a.take 2), true) := by
    rw [h4, symBytes_cons, symBytes_cons, meaning_four known _ _ _ (one x) (one y), symBytes_cons, symBytes_cons,
      meaning_four (learn known ([x] ++ [y])) 256 65535 _ (x := a.take 2) (y := []) (by
        rw [expand, if_neg (by decide)]; exact h256) rfl]
    simp [symBytes, meaning]
  have := (C20_damaged_input _).1 (congrArg Prod.snd e)
  rwa [e] at this

/-- **C109**, refuted for zip-dict: that joined data decode to the data joined. -/
theorem C109_dict_refuted : ∃ a b ea eb : List UInt8, bytesOf (zipDictEncode a) = .ok ea ∧ bytesOf (zipDictEncode b) = .ok eb ∧
    ¬ Yields DictDecoder.next (zipDictDecode (ea ++ eb)) (a ++ b) := by
  obtain ⟨s, -, he⟩ := zipDictEncode_spec [1, 2]
  obtain ⟨t, -, hf⟩ := zipDictEncode_spec [3, 4, 3, 4]
  refine ⟨_, _, _, _, he.bytesOf, hf.bytesOf, fun h => ?_⟩
  have h' := C109_dict_twice (by simp) he.bytesOf hf.bytesOf
  have := yields_unique h h'
  simp at this

/-! ## Examples -/

namespace JoinExamples

/-- Two pieces, the second with a copy that reaches back to its own beginning only. -/
example : bytesOf (Back.zipBackEncode 8 (fun _ => 16) [1, 2, 3]) = .ok [3, 0, 1, 2, 3] ∧
    bytesOf (Back.zipBackEncode 8 (fun _ => 16) [1, 2, 3, 4, 5, 6, 7, 8, 1, 2, 3, 4, 5, 6, 7, 8, 9]) =
      .ok [8, 0, 1, 2, 3, 4, 5, 6, 7, 8, 8, 128, 8, 0, 1, 0, 9] := by decide +kernel

/-- A copy that reaches back too far alone, and not any more after other data: the hypothesis of `C109_back_rest` that the
rest decodes to an end is not superfluous. -/
example : Reads Back.ringSize [] [1, 128, 2, 0] [] .panic ∧ Reads Back.ringSize [] ([2, 0, 7, 8] ++ [1, 128, 2, 0]) [7, 8, 7] .none :=
  ⟨.dangling (s := .lookBack 1 2) (rest := []) (by decide) (by decide),
    .symbol (s := .explicit [7, 8]) (x := [7, 8]) (rest := [1, 128, 2, 0]) (by decide) rfl (by simp)
      (.symbol (s := .lookBack 1 2) (x := [7]) (rest := []) (out := []) (by decide) (by decide) (by simp) (.stop (by simp)))⟩

/-- The pieces exist with the real window. -/
example : ∃ ea eb, (∀ b ∈ [([1, 2, 3], ea), ([4, 5, 6, 7], eb)],
    bytesOf (Back.zipBackEncode Back.ringSize (fun _ => 16) b.1) = .ok b.2) := by
  obtain ⟨ea, ha⟩ := C22_short_inputs (fun _ => 16) (fun _ => Nat.le_refl _) [1, 2, 3] (by decide)
  obtain ⟨eb, hb⟩ := C22_short_inputs (fun _ => 16) (fun _ => Nat.le_refl _) [4, 5, 6, 7] (by decide)
  refine ⟨ea, eb, fun b h => ?_⟩
  simp only [List.mem_cons, List.not_mem_nil, or_false] at h
  rcases h with rfl | rfl
  · exact ha.bytesOf
  · exact hb.bytesOf

/-- Two bytes and three bytes, compressed. -/
example : bytesOf (zipDictEncode [1, 2]) = .ok [1, 0, 2, 0] ∧ bytesOf (zipDictEncode [3, 4, 3]) = .ok [3, 0, 4, 0, 3, 0, 255, 255] := by
  decide +kernel

/-- The files of the refutation. -/
example : meaning oneByteSeqs ([1, 0, 2, 0] ++ [3, 0, 4, 0, 0, 1, 255, 255]) = ([1, 2, 3, 4, 1, 2], true) := by decide +kernel

end JoinExamples

end Cniic
