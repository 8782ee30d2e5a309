import Verif.Proofs.Decode
import Verif.Props.Clusterc
import Verif.Props.AnyCodec

/-!
# What arbitrary bytes decode to (C75, C76)
-/

namespace Cniic
open Spec SerSpec

/-- **C75**, the size: if a file starts with it, it is what `withSize` finds. -/
theorem C75_size (w h : UInt32) (rest : List UInt8) (f : UInt32 → UInt32 → List UInt8 → Ret Unit RgbImage) :
    withSize (bytes (w, h) ++ rest) f = if 2 ^ 63 ≤ 3 * (w.toNat * h.toNat) then .panic else f w h rest := by
  have e : bytes (w, h) = bytes w ++ bytes h := rfl
  have h4 : ∀ n : UInt32, (bytes n).length = 4 := fun _ => rfl
  have hn : ∀ n : UInt32, UInt32.ofNat (num (bytes n)) = n := u32_num
  unfold withSize
  dsimp only
  rw [if_neg (by rw [e]; simp [h4]; omega), e, List.append_assoc, List.take_left' (h4 w), List.drop_left' (h4 w),
    List.take_left' (h4 h), hn, hn, ← List.append_assoc, List.drop_left' (by simp [h4])]

/-- **C75**, hilbert(rle): runs are read until the picture is full.  The pixels after the last run are black; something
that is not a run causes a panic if it is reached. -/
theorem C75_hilbert_rle {p : Setup} (hs : ∀ w h, VisitsOnce p.scan w h) (d : F64) (file : List UInt8) :
    (AnyCodec.hilbert (.rle d)).decode p file =
      withSize file fun w h rest => paintedOr p.scan w h (rleColors rest) :=
  hilbertDecode_rle' hs d file

/-- **C75**, hilbert(zip): the rest of the file is decompressed and the colours are read until the picture is full. -/
theorem C75_hilbert_zip {p : Setup} (hs : ∀ w h, VisitsOnce p.scan w h) (file : List UInt8) :
    (AnyCodec.hilbert .zip).decode p file = withSize file fun w h rest =>
      paintedOr p.scan w h (recColors (meaning oneByteSeqs rest).2 (meaning oneByteSeqs rest).1) :=
  hilbertDecode_zip' hs file

/-- **C75**, zip(dict): everything, the size included, is decompressed. -/
theorem C75_zip_dict (p : Setup) (file : List UInt8) :
    (AnyCodec.zip .dict).decode p file = unpacked (meaning oneByteSeqs file).2 (meaning oneByteSeqs file).1 :=
  rebuildImage_unpacked _ (outcome_ending (zipDictDecode_outcome file))

/-- **C75**, zip(back). -/
theorem C75_zip_back (p : Setup) {file data : List UInt8} {e : Ending} (h : Reads Back.ringSize [] file data e) :
    (AnyCodec.zip .back).decode p file = unpacked (e == .none) data := by
  have ho := Back.reads_outcome (show 0 < Back.ringSize by decide) h (Back.DecInv.new Back.ringSize file)
  simp only [List.nil_append] at ho
  refine rebuildImage_unpacked _ ?_
  cases e with
  | none => exact ho.1 rfl
  | panic => exact ho.2 rfl

/-- **C75**, zip(back): the hypothesis of `C75_zip_back` can always be met. -/
theorem C75_zip_back_total (file : List UInt8) : ∃ data e, Reads Back.ringSize [] file data e :=
  Back.reads_total Back.ringSize _ [] file (Nat.le_refl _)

/-- **C75**, code trees: `treeIn` finds the tree if there is one. -/
theorem C75_tree (t : BinTrie (Rgb UInt8)) (payload : List UInt8) : treeIn (treeBytes t ++ payload) = some (t, payload) :=
  treeIn_eq t (fun p _ => rgb_valid p.2) payload

/-- **C75**, code trees of differences. -/
theorem C75_tree_diff (t : BinTrie SignedColor) (payload : List UInt8) :
    treeIn (treeBytes t ++ payload) = some (t, payload) :=
  treeIn_eq t (fun p _ => signedColor_valid p.2) payload

/-- **C75**, code trees: and only then. -/
theorem C75_tree_none {T : Type} [SerSpec T] {l : List UInt8} {t : BinTrie T} {payload : List UInt8}
    (h : treeIn l = some (t, payload)) : TreeValid t ∧ l = treeBytes t ++ payload := by
  unfold treeIn at h
  split at h
  · next he =>
    have := he.choose_spec
    rw [Option.some.inj h] at this
    exact this
  · cases h

/-- **C75**, hufman: the file must have a code tree and then bits spelling enough symbols. -/
theorem C75_hufman (p : Setup) (file : List UInt8) :
    AnyCodec.hufman.decode p file = withSize file fun w h rest =>
      match treeIn rest with
      | none => .err ()
      | some (t, payload) =>
        let px := spelled t (w.toNat * h.toNat) (bitsOf payload)
        if px.length = w.toNat * h.toNat then .ok { width := w, height := h, pixels := px } else .err () :=
  hufmanDecode_any file

/-- **C75**, cluster-colors: the same as hufman. -/
theorem C75_cluster_colors (p : Setup) (n : UInt64) (file : List UInt8) :
    (AnyCodec.clusterColors n).decode p file = AnyCodec.hufman.decode p file := rfl

/-- **C75**, delta: there must be a code tree; the differences spelled by the bits are added up until the picture is
full.  A sum that is no colour causes a panic; the pixels after the last difference are black. -/
theorem C75_delta {p : Setup} (hs : ∀ w h, VisitsOnce p.scan w h) (file : List UInt8) :
    AnyCodec.delta.decode p file = withSize file fun w h rest =>
      match treeIn rest with
      | none => .panic
      | some (t, payload) =>
        paintedOr p.scan w h (addUp (0, 0, 0) (spelled t (w.toNat * h.toNat) (bitsOf payload))) :=
  deltaDecode_any p.chk hs file

/-- **C75**, voronoi: there must be a number and so many coloured points, the centroids; what follows is ignored.  What
a file with nothing but the size and the centroids is decoded to is told by C48. -/
theorem C75_voronoi (p : Setup) (n : UInt64) (file : List UInt8) :
    (AnyCodec.voronoi n).decode p file = withSize file fun w h rest =>
      match centroidsIn rest with
      | some cs => voronoiDecode p.chk (voronoiBytes w h cs)
      | none => .err () :=
  voronoiDecode_any p.chk file

/-- **C75**, voronoi without centroids (not covered by C48): a panic if there is a pixel. -/
theorem C75_voronoi_no_centroids (chk : Bool) (w h : UInt32) (ha : 3 * (w.toNat * h.toNat) < 2 ^ 63) :
    voronoiDecode chk (voronoiBytes w h []) =
      if w.toNat * h.toNat = 0 then .ok { width := w, height := h, pixels := [] } else .panic := by
  have h1 := voronoiDecode_eq chk w h [] [] ha (by decide)
  rw [List.append_nil] at h1
  rw [h1]
  cases hn : w.toNat * h.toNat with
  | zero => rfl
  | succ k =>
    rw [List.range_succ_eq_map]
    rfl

/-- What a decoder returns has a pixel for each position. -/
def RgbImage.WellFormed (x : RgbImage) : Prop :=
  x.pixels.length = x.width.toNat * x.height.toNat ∧ 3 * (x.width.toNat * x.height.toNat) < 2 ^ 63

theorem withSize_ok {file : List UInt8} {f : UInt32 → UInt32 → List UInt8 → Ret Unit RgbImage} {out : RgbImage}
    (h : withSize file f = .ok out) : 8 ≤ file.length ∧ ∃ w h rest, file = bytes (w, h) ++ rest ∧
      3 * (w.toNat * h.toNat) < 2 ^ 63 ∧ f w h rest = .ok out := by
  unfold withSize at h
  dsimp only at h
  split at h
  · cases h
  · next hl =>
    split at h
    · cases h
    · next hn => exact ⟨by omega, _, _, _, (size_bytes file (by omega)).symm, by omega, h⟩

theorem paintedOr_ok {scan : Scan} {w h : UInt32} {cols : List (Rgb UInt8) × Bool} {out : RgbImage}
    (ho : paintedOr scan w h cols = .ok out) : out = painted scan w h cols.1 := by
  unfold paintedOr at ho
  split at ho
  · cases ho; rfl
  · cases ho

theorem unpacked_ok {ends : Bool} {data : List UInt8} {out : RgbImage} (h : unpacked ends data = .ok out) :
    out.WellFormed := by
  unfold unpacked at h
  split at h
  · cases h
  · obtain ⟨-, w, h', rest, -, ha, h⟩ := withSize_ok h
    dsimp only at h
    split at h
    · next hl =>
      cases h
      exact ⟨by simp only [List.length_take]; omega, ha⟩
    · split at h <;> cases h

/-- **C75**, all codecs: what is decoded, from whatever bytes, is a picture with a pixel for each position. -/
theorem C75_well_formed {p : Setup} (hs : ∀ w h, VisitsOnce p.scan w h) {c : AnyCodec} {file : List UInt8}
    {out : RgbImage} (h : c.decode p file = .ok out) : out.WellFormed := by
  have huf : ∀ {file : List UInt8} {out : RgbImage}, AnyCodec.hufman.decode p file = .ok out → out.WellFormed := by
    intro file out h
    rw [C75_hufman] at h
    obtain ⟨-, w, h', rest, -, ha, h⟩ := withSize_ok h
    split at h
    · cases h
    · dsimp only at h
      split at h
      · next hl => cases h; exact ⟨hl, ha⟩
      · cases h
  have paint : ∀ {w h : UInt32} {cols : List (Rgb UInt8) × Bool} {out : RgbImage}, 3 * (w.toNat * h.toNat) < 2 ^ 63 →
      paintedOr p.scan w h cols = .ok out → out.WellFormed := by
    intro w h cols out ha ho
    rw [paintedOr_ok ho]
    exact ⟨by simp [painted, cells_length], ha⟩
  cases c with
  | clusterColors n => exact huf h
  | hufman => exact huf h
  | delta =>
    rw [C75_delta hs] at h
    obtain ⟨-, w, h', rest, -, ha, h⟩ := withSize_ok h
    split at h
    · cases h
    · exact paint ha h
  | hilbert m =>
    cases m with
    | rle d =>
      rw [C75_hilbert_rle hs] at h
      obtain ⟨-, w, h', rest, -, ha, h⟩ := withSize_ok h
      exact paint ha h
    | zip =>
      rw [C75_hilbert_zip hs] at h
      obtain ⟨-, w, h', rest, -, ha, h⟩ := withSize_ok h
      exact paint ha h
  | zip z =>
    cases z with
    | dict => rw [C75_zip_dict] at h; exact unpacked_ok h
    | back =>
      obtain ⟨data, e, hr⟩ := C75_zip_back_total file
      rw [C75_zip_back p hr] at h
      exact unpacked_ok h
  | voronoi n =>
    rw [C75_voronoi] at h
    obtain ⟨-, w, h', rest, -, ha, h⟩ := withSize_ok h
    split at h
    · next cs hc =>
      have h1 := voronoiDecode_eq p.chk w h' cs [] ha (centroidsIn_length hc)
      rw [List.append_nil, h] at h1
      split at h1
      · next px hp =>
        cases h1
        exact ⟨by simpa using (optMap_some hp).1, ha⟩
      · cases h1
    · cases h

/-- **C76.** Decoding a delta file gives the same result with and without overflow checks, whatever the bytes are. -/
theorem C76_delta_checks {scan : Scan} (hs : ∀ w h, VisitsOnce scan w h) (file : List UInt8) :
    deltaDecode true scan file = deltaDecode false scan file := by
  rw [deltaDecode_any true hs, deltaDecode_any false hs]

/-! ## Non-trivial cases -/

namespace DecodeExamples
open AnyCodecExamples

theorem visits (w h : Nat) : VisitsOnce setup.scan w h := .refl _

/-- A picture of three pixels: `n` runs of length 2. -/
def runs (n : UInt8) : List UInt8 := [3, 0, 0, 0, 1, 0, 0, 0, n, 3, 0, 0, 0, 0, 0, 0, 0, 7, 8, 9]

/-- A run of two pixels; the third one is black. -/
example : (AnyCodec.hilbert (.rle (.fin 0))).decode setup (runs 2) =
    .ok { width := 3, height := 1, pixels := [⟨7, 8, 9⟩, ⟨7, 8, 9⟩, black] } := by
  rw [C75_hilbert_rle visits]; rfl

/-- After a run of three pixels the rest does not matter. -/
example : (AnyCodec.hilbert (.rle (.fin 0))).decode setup (runs 3 ++ [0, 1]) =
    .ok { width := 3, height := 1, pixels := [⟨7, 8, 9⟩, ⟨7, 8, 9⟩, ⟨7, 8, 9⟩] } := by
  rw [C75_hilbert_rle visits]; rfl

/-- After a run of two pixels it does. -/
example : (AnyCodec.hilbert (.rle (.fin 0))).decode setup (runs 2 ++ [0, 1]) = .panic := by
  rw [C75_hilbert_rle visits]; rfl

/-- An empty run. -/
example : (AnyCodec.hilbert (.rle (.fin 0))).decode setup (runs 0) = .panic := by
  rw [C75_hilbert_rle visits]; rfl

/-- Nothing after the size: black. -/
example : (AnyCodec.hilbert .zip).decode setup [2, 0, 0, 0, 1, 0, 0, 0] =
    .ok { width := 2, height := 1, pixels := [black, black] } := by
  rw [C75_hilbert_zip visits]; rfl

/-- Seven bytes cannot be a size. -/
example (p : Setup) : AnyCodec.hufman.decode p [1, 0, 0, 0, 1, 0, 0] = .err () := by
  rw [C75_hufman]; rfl

/-- A size of 2³² − 1 by 2³² − 1. -/
example (p : Setup) (rest : List UInt8) :
    AnyCodec.hufman.decode p (255 :: 255 :: 255 :: 255 :: 255 :: 255 :: 255 :: 255 :: rest) = .panic := by
  rw [C75_hufman]
  exact (C75_size 0xFFFFFFFF 0xFFFFFFFF rest _).trans (if_pos (by decide))

/-- A tree that is only a leaf: its symbol is spelled by no bits at all. -/
example (p : Setup) : AnyCodec.hufman.decode p
    (bytes ((2 : UInt32), (1 : UInt32)) ++ treeBytes (.leaf (⟨1, 2, 3⟩ : Rgb UInt8))) =
    .ok { width := 2, height := 1, pixels := [⟨1, 2, 3⟩, ⟨1, 2, 3⟩] } := by
  rw [C75_hufman]
  rw [C75_size, if_neg (by decide), ← List.append_nil (treeBytes _), C75_tree]
  rfl

/-- Two leaves, and bits for eight symbols. -/
example (p : Setup) : AnyCodec.hufman.decode p
    (bytes ((3 : UInt32), (1 : UInt32)) ++ (treeBytes (.branch (.leaf ⟨1, 2, 3⟩) (.leaf (⟨4, 5, 6⟩ : Rgb UInt8))) ++ [0x40])) =
    .ok { width := 3, height := 1, pixels := [⟨1, 2, 3⟩, ⟨4, 5, 6⟩, ⟨1, 2, 3⟩] } := by
  rw [C75_hufman]
  rw [C75_size, if_neg (by decide), C75_tree]
  rfl

/-- Two leaves, and no bits. -/
example (p : Setup) : AnyCodec.hufman.decode p
    (bytes ((3 : UInt32), (1 : UInt32)) ++ (treeBytes (.branch (.leaf ⟨1, 2, 3⟩) (.leaf (⟨4, 5, 6⟩ : Rgb UInt8))) ++ [])) =
    .err () := by
  rw [C75_hufman]
  rw [C75_size, if_neg (by decide), C75_tree]
  rfl

/-- Adding 100 to the red channel twice. -/
example : AnyCodec.delta.decode setup
    (bytes ((2 : UInt32), (1 : UInt32)) ++ (treeBytes (.leaf (⟨100, 0, 0⟩ : SignedColor)) ++ [])) =
    .ok { width := 2, height := 1, pixels := [⟨100, 0, 0⟩, ⟨200, 0, 0⟩] } := by
  rw [C75_delta visits]
  rw [C75_size, if_neg (by decide), C75_tree_diff]
  rfl

/-- Adding it three times. -/
example : AnyCodec.delta.decode setup
    (bytes ((3 : UInt32), (1 : UInt32)) ++ (treeBytes (.leaf (⟨100, 0, 0⟩ : SignedColor)) ++ [])) = .panic := by
  rw [C75_delta visits]
  rw [C75_size, if_neg (by decide), C75_tree_diff]
  rfl

/-- A centroid, and then something else. -/
example : (AnyCodec.voronoi 1).decode setup
    ([2, 0, 0, 0, 1, 0, 0, 0, 1, 0, 0, 0, 0, 0, 0, 0, 5, 0, 0, 0, 6, 0, 0, 0, 3, 0, 0, 0, 0, 0, 0, 0, 7, 8, 9, 77]) =
    voronoiDecode true (voronoiBytes 2 1 [⟨5, 6, ⟨7, 8, 9⟩⟩]) := by
  rw [C75_voronoi]; rfl

/-- One of two centroids is missing. -/
example : (AnyCodec.voronoi 1).decode setup
    ([2, 0, 0, 0, 1, 0, 0, 0, 2, 0, 0, 0, 0, 0, 0, 0, 5, 0, 0, 0, 6, 0, 0, 0, 3, 0, 0, 0, 0, 0, 0, 0, 7, 8, 9, 77]) =
    .err () := by
  rw [C75_voronoi]; rfl

/-- Two pixels and no centroid. -/
example : voronoiDecode false (voronoiBytes 2 1 []) = .panic := by
  rw [C75_voronoi_no_centroids _ _ _ (by decide)]; rfl

/-- Nothing is decompressed from an empty file. -/
example (p : Setup) : (AnyCodec.zip .dict).decode p [] = .err () := by
  rw [C75_zip_dict]; rfl

/-- A decoded picture is well formed. -/
example : RgbImage.WellFormed { width := 3, height := 1, pixels := [⟨7, 8, 9⟩, ⟨7, 8, 9⟩, black] } :=
  C75_well_formed (c := .hilbert (.rle (.fin 0))) (file := runs 2) visits (by rw [C75_hilbert_rle visits]; rfl)

/-- C76: 100 added three times is a panic either way, though no `i16` overflows. -/
example : deltaDecode false cells
    (bytes ((3 : UInt32), (1 : UInt32)) ++ (treeBytes (.leaf (⟨100, 0, 0⟩ : SignedColor)) ++ [])) = .panic := by
  rw [← C76_delta_checks (scan := cells) visits]
  have h := C75_delta visits (bytes ((3 : UInt32), (1 : UInt32)) ++ (treeBytes (.leaf (⟨100, 0, 0⟩ : SignedColor)) ++ []))
  refine h.trans ?_
  rw [C75_size, if_neg (by decide), C75_tree_diff]
  rfl

end DecodeExamples
end Cniic
