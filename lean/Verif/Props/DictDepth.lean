import Verif.Props.Depth

/-!
# Depth of the calls of the dictionary decoder (C106)

`DictDecoder::next` calls itself after each pair of symbols.  `nesting` counts pairs that mean nothing, `deepest` is its
largest value in a stream.
-/

namespace Cniic
open Spec SerSpec

/-- **C106**, exactly: with room for `deepest` nested calls the decoder does what it does without a limit, with less it
overflows on the way. -/
theorem C106_exact (encoded : List UInt8) (depth : Nat) :
    (deepest oneByteSeqs encoded ≤ depth →
      ((meaning oneByteSeqs encoded).2 = true →
        Yields (DictDecoder.nextDepth depth) (zipDictDecode encoded) (meaning oneByteSeqs encoded).1) ∧
      ((meaning oneByteSeqs encoded).2 = false →
        PanicsAfter (DictDecoder.nextDepth depth) (zipDictDecode encoded) (meaning oneByteSeqs encoded).1)) ∧
    (depth < deepest oneByteSeqs encoded →
      ∃ out, out <+: (meaning oneByteSeqs encoded).1 ∧
        PanicsAfter (DictDecoder.nextDepth depth) (zipDictDecode encoded) out) := by
  have h := zipDictDecode_outcome encoded
  refine ⟨fun hd => ⟨fun e => ?_, fun e => ?_⟩, fun hd => ?_⟩
  · rw [e] at h; exact (shallow_new hd).yields h
  · rw [e] at h; exact (shallow_new hd).panics h
  · exact deep_panics depth _ (zipDictDecode encoded) _ (Nat.le_refl _) (decInv_new encoded) hd

/-- Two pairs of end markers, then one that means something: 4 nested calls; then a stray byte. -/
example : deepest oneByteSeqs [255, 255, 255, 255, 0, 1, 255, 255, 7, 0, 0, 1, 5] = 4 ∧
    meaning oneByteSeqs [255, 255, 255, 255, 0, 1, 255, 255, 7, 0, 0, 1, 5] = ([7], true) := by decide +kernel
/-- Pairs of end markers in the middle, later than the first item, and an unknown symbol after them. -/
example : deepest oneByteSeqs [1, 0, 2, 0, 255, 255, 255, 255, 255, 255, 255, 255, 9, 9, 9, 9] = 3 ∧
    meaning oneByteSeqs [1, 0, 2, 0, 255, 255, 255, 255, 255, 255, 255, 255, 9, 9, 9, 9] = ([1, 2], false) := by
  decide +kernel

/-- **C106**, streams written by the encoder: two nested calls are enough, and one is not (unless there is no input). -/
theorem C106_written (input : List UInt8) :
    ∃ bytes, Emits Emits.errOnly (zipDictEncode input) bytes () ∧
      (∀ depth, 2 ≤ depth → Yields (DictDecoder.nextDepth depth) (zipDictDecode bytes) input) ∧
      (input ≠ [] → PanicsAfter (DictDecoder.nextDepth 1) (zipDictDecode bytes) []) ∧
      (input = [] → Yields (DictDecoder.nextDepth 1) (zipDictDecode bytes) []) := by
  obtain ⟨syms, hp, he⟩ := zipDictEncode_spec input
  have hm := hp.meaning goodDict_start.le
  have hd := hp.deepest goodDict_start.le
  refine ⟨_, he, fun depth h2 => ?_, fun hne => ?_, fun h0 => ?_⟩
  · have := ((C106_exact (symBytes syms) depth).1 (Nat.le_trans (deepest_le_two hp) h2)).1 (by rw [hm])
    rwa [hm] at this
  · rw [if_neg hne] at hd
    refine (nextDepth_calls 1 _ _ (decInv_new (symBytes syms))).2 ?_
    have : nesting oneByteSeqs (symBytes syms) = 2 := by
      cases hp with
      | nil => exact absurd rfl hne
      | @one _ _ s x h =>
        have e := h.expand goodDict_start.le
        simp only [symBytes, List.flatMap_cons, List.flatMap_nil, List.cons_append, List.nil_append, nesting]
        rw [sym_split, sym_split, e]
        have e2 : expand oneByteSeqs (UInt16.toNat 65535) = some [] := rfl
        rw [e2]
        simp [h.nonempty]
      | @two _ _ s1 x1 i' s2 x2 i'' syms h1 h2 _ =>
        have e1 := h1.expand goodDict_start.le
        have e2 := h2.expand goodDict_start.le
        simp only [symBytes, List.flatMap_cons, List.cons_append, List.nil_append, nesting]
        rw [sym_split, sym_split, e1, e2]
        simp [h1.nonempty]
    show 1 < if ([] : List UInt8) = [] then nesting oneByteSeqs (symBytes syms) else 1
    rw [if_pos rfl, this]
    omega
  · subst h0
    rw [if_pos rfl] at hd
    have := ((C106_exact (symBytes syms) 1).1 (by omega)).1 (by rw [hm])
    rwa [hm] at this

/-- **C106**, the codecs: a file whose dictionary stream nests at most `depth` calls is decoded as without a limit. -/
theorem C106_codecs (p : Setup) (depth : Nat) (file : List UInt8) :
    (deepest oneByteSeqs file ≤ depth →
      AnyCodec.decodeDepth p depth (.zip .dict) file = AnyCodec.decode p (.zip .dict) file) ∧
    (deepest oneByteSeqs (file.drop 8) ≤ depth →
      AnyCodec.decodeDepth p depth (.hilbert .zip) file = AnyCodec.decode p (.hilbert .zip) file) :=
  ⟨fun h => zipDictDepth_eq h, fun h => hilbertZipDepth_eq p.scan h⟩

theorem meaning_padded (n : Nat) (data : List UInt8) :
    meaning oneByteSeqs (padded n data) = (data, true) ∧ n < nesting oneByteSeqs (padded n data) := by
  obtain ⟨k, h1, h2, h3⟩ := meaning_silent n oneByteSeqs (data.flatMap fun b => [b, 0, 255, 255])
  have := nesting_pos k (data.flatMap fun b => [b, 0, 255, 255])
  exact ⟨h2.trans (meaning_plain h1 data), by rw [padded, h3]; omega⟩

theorem padded_length (n : Nat) (data : List UInt8) : (padded n data).length = 4 * n + 4 * data.length := by
  unfold padded
  rw [List.length_append, List.length_replicate]
  congr 1
  induction data with
  | nil => rfl
  | cons b data ih => simp only [List.flatMap_cons, List.length_append, List.length_cons, List.length_nil, ih]; omega

theorem padded_overflows (n : Nat) (data : List UInt8) :
    (DictDecoder.nextDepth n (zipDictDecode (padded n data))).1 = .panic := by
  refine (nextDepth_calls n _ _ (decInv_new (padded n data))).2 ?_
  show n < if ([] : List UInt8) = [] then nesting oneByteSeqs (padded n data) else 1
  rw [if_pos rfl]
  exact (meaning_padded n data).2

theorem first_panics {σ α β : Type} {m : Rd σ α} {f : α → Rd σ β} {s : σ} (h : (m s).1 = .panic) :
    ((m >>= f) s).1 = .panic := by
  rcases hr : m s with ⟨_ | _ | _, s'⟩ <;> rw [hr] at h <;> simp at h
  exact congrArg Prod.fst (Proc.bind_panic hr)

theorem de_dims_panics {σ : Type} {next : Rd σ UInt8} {s : σ} (h : (next s).1 = .panic) :
    (de next s : Ret Unit (UInt32 × UInt32) × σ).1 = .panic :=
  first_panics (first_panics (first_panics h))

theorem de_rgb_panics {σ : Type} {next : Rd σ UInt8} {s : σ} (h : (next s).1 = .panic) :
    (de next s : Ret Unit (Rgb UInt8) × σ).1 = .panic :=
  first_panics (first_panics (first_panics (first_panics (first_panics h))))

/-- **C106**, crafted files: for every picture and every depth there are files, four bytes longer per nested call, from
which zip-dict and hilbert-zip decode the picture when the stack is large enough, and overflow it otherwise (hilbert-zip
if the picture has a pixel). -/
theorem C106_crafted {p : Setup} (hp : p.Lawful) (depth : Nat) (img : Img) (ha : Addressable img) :
    (let file := padded depth (bytes (img.width, img.height) ++ img.rgbPixels.flatMap bytes)
     file.length = 4 * depth + 4 * (8 + 11 * img.pixels.length) ∧
     AnyCodec.decode p (.zip .dict) file = .ok img.toRgb ∧ AnyCodec.decodeDepth p depth (.zip .dict) file = .panic) ∧
    (let file := bytes (img.width, img.height) ++ padded depth ((colorsAlong p.scan img).flatMap bytes)
     VisitsOnce p.scan img.width.toNat img.height.toNat →
     file.length = 8 + 4 * depth + 44 * img.pixels.length ∧
     AnyCodec.decode p (.hilbert .zip) file = .ok img.toRgb ∧
     (img.pixels ≠ [] → AnyCodec.decodeDepth p depth (.hilbert .zip) file = .panic)) := by
  refine ⟨⟨?_, ?_, ?_⟩, fun hs => ⟨?_, ?_, fun hne => ?_⟩⟩
  · rw [padded_length, List.length_append, rgbs_bytes_length, rgbPixels_length, ← img.size]
    simp [bytes, le]
  · have h := zipDictDecode_outcome (padded depth (zipData img))
    rw [(meaning_padded depth (zipData img)).1] at h
    exact rebuildImage_yields img ha h
  · exact first_panics (de_dims_panics (padded_overflows depth _))
  · rw [List.length_append, padded_length, rgbs_bytes_length, colorsAlong, List.length_map, linearize_length hs, ← img.size]
    simp [bytes, le]
    omega
  · have h := zipDictDecode_outcome (padded depth ((colorsAlong p.scan img).flatMap bytes))
    rw [(meaning_padded depth _).1] at h
    show hilbertDecode p.scan .zip _ = _
    rw [hilbertDecode_zip p.scan img ha]
    apply paint_all hs
    exact (yields_deserStream _ (fun x _ => rgb_valid x) rgb_de_nil h).supplies
  · show hilbertDecodeDepth depth p.scan .zip _ = _
    rw [hilbertZipDepth_ok depth p.scan (LawfulSer.de_bytes _ (dims_valid img.width img.height) _), decodeAny_eq _ _ img ha]
    have hl := linearize_length hs
    rw [← img.size] at hl
    cases hc : p.scan img.width.toNat img.height.toNat with
    | nil =>
      rw [hc] at hl
      exact absurd (List.length_eq_zero_iff.1 hl.symm) hne
    | cons c cells =>
      have := de_rgb_panics (padded_overflows depth ((colorsAlong p.scan img).flatMap bytes))
      simp only [paint, deserStream]
      rcases hr : (de (DictDecoder.nextDepth depth) (zipDictDecode (padded depth ((colorsAlong p.scan img).flatMap bytes))) :
        Ret Unit (Rgb UInt8) × _) with ⟨_ | _ | _, s'⟩ <;> rw [hr] at this <;> simp at this ⊢

/-- A stream of two bytes behind two pairs of end markers. -/
example : padded 2 [7, 8] = [255, 255, 255, 255, 255, 255, 255, 255, 7, 0, 255, 255, 8, 0, 255, 255] ∧
    nesting oneByteSeqs (padded 2 [7, 8]) = 4 := by decide +kernel

end Cniic
