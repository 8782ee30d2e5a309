import Verif.Proofs.Edit
import Verif.Props.Extreme
import Verif.Props.Quality
import Verif.Proofs.Approx

/-!
# C108: files edited without decoding them

Colours stand in the clear in the files of hufman, cluster-colors, hilbert(rle) and voronoi: replacing them replaces the
colours of the decoded picture.  A smaller height in a hufman file, and a smaller width and height in a voronoi file, cut the
picture.  No codec with the size in front notices a smaller size, so one changed byte may go unnoticed.
-/

namespace Cniic
open Spec SerSpec

/-! ## Colours -/

/-- **C108**, hufman and cluster-colors: the colours in the code tree, whatever the file. -/
theorem C108_hufman_colors (p : Setup) (w h : UInt32) (t : BinTrie (Rgb UInt8)) (payload : List UInt8)
    (f : Rgb UInt8 → Rgb UInt8) :
    AnyCodec.hufman.decode p (bytes (w, h) ++ (treeBytes (t.mapLeaves f) ++ payload)) =
      recolored f (AnyCodec.hufman.decode p (bytes (w, h) ++ (treeBytes t ++ payload))) ∧
    ∀ n, (AnyCodec.clusterColors n).decode p (bytes (w, h) ++ (treeBytes (t.mapLeaves f) ++ payload)) =
      recolored f ((AnyCodec.clusterColors n).decode p (bytes (w, h) ++ (treeBytes t ++ payload))) := by
  have key : AnyCodec.hufman.decode p (bytes (w, h) ++ (treeBytes (t.mapLeaves f) ++ payload)) =
      recolored f (AnyCodec.hufman.decode p (bytes (w, h) ++ (treeBytes t ++ payload))) := by
    rw [C75_hufman, C75_hufman, C75_size, C75_size]
    split
    · rfl
    · rw [C75_tree, C75_tree]
      dsimp only
      rw [spelled_mapLeaves, List.length_map]
      split <;> rfl
  exact ⟨key, fun _ => key⟩

/-- **C108**, hufman: every file that is decoded to a picture has that form; and the edited file is as long. -/
theorem C108_hufman_form {p : Setup} {file : List UInt8} {out : RgbImage} (h : AnyCodec.hufman.decode p file = .ok out) :
    ∃ (t : BinTrie (Rgb UInt8)) (payload : List UInt8), file = bytes (out.width, out.height) ++ (treeBytes t ++ payload) ∧
      ∀ f : Rgb UInt8 → Rgb UInt8, (treeBytes (t.mapLeaves f)).length = (treeBytes t).length := by
  rw [C75_hufman] at h
  obtain ⟨-, w, h', rest, rfl, -, ho⟩ := withSize_ok h
  clear h
  rename' ho => h
  split at h
  · cases h
  · next t payload ht =>
    obtain ⟨-, rfl⟩ := C75_tree_none (T := Rgb UInt8) ht
    dsimp only at h
    split at h
    · cases h
      exact ⟨t, payload, rfl, fun f => treeBytes_mapLeaves f t⟩
    · cases h

/-- **C108**, hilbert(rle): the colours of the runs, if there are enough for the picture; whatever follows. -/
theorem C108_rle_colors {p : Setup} (hs : ∀ w h, VisitsOnce p.scan w h) (d : F64) (w h : UInt32)
    (runs : List (UInt8 × Rgb UInt8)) (h1 : ∀ r ∈ runs, 1 ≤ r.1.toNat) (hl : w.toNat * h.toNat ≤ (expandRuns runs).length)
    (rest : List UInt8) (f : Rgb UInt8 → Rgb UInt8) :
    (AnyCodec.hilbert (.rle d)).decode p (bytes (w, h) ++ ((runs.map fun r => (r.1, f r.2)).flatMap runBytes ++ rest)) =
      recolored f ((AnyCodec.hilbert (.rle d)).decode p (bytes (w, h) ++ (runs.flatMap runBytes ++ rest))) := by
  rw [C75_hilbert_rle hs, C75_hilbert_rle hs, C75_size, C75_size]
  split
  · rfl
  · have e : expandRuns (runs.map fun r => (r.1, f r.2)) = (expandRuns runs).map f := by
      simp [expandRuns, List.flatMap_map, List.map_flatMap]
    rw [rleColors_runs _ (by intro _ hr; obtain ⟨r, hr', rfl⟩ := List.mem_map.1 hr; exact h1 r hr'), rleColors_runs _ h1, e]
    unfold paintedOr
    rw [if_pos (.inl (by simp only [List.length_append, List.length_map]; omega)),
      if_pos (.inl (by simp only [List.length_append]; omega))]
    simp only [recolored]
    rw [painted_map (hs _ _) f hl]

/-- **C108**, hilbert(rle): every file that is written has that form. -/
theorem C108_rle_form {p : Setup} (hp : p.Lawful) (fuel : Nat) (d : F64) {img : Img}
    (hs : VisitsOnce p.scan img.width.toNat img.height.toNat) :
    ∃ m runs, (AnyCodec.hilbert (.rle d)).encode p fuel img = .ok m ∧
      bytesOf m = .ok (bytes (img.width, img.height) ++ runs.flatMap runBytes) ∧ (∀ r ∈ runs, 1 ≤ r.1.toNat) ∧
      (expandRuns runs).length = img.width.toNat * img.height.toNat := by
  have hcl : (colorsAlong p.scan img).length = img.width.toNat * img.height.toNat := by
    rw [colorsAlong, List.length_map, hs.length_eq, cells_length]
  cases hd : d.isZero with
  | true =>
    obtain ⟨runs, h1, h2, -, he⟩ := hilbertEncode_exact p.out.fl hs hd
    exact ⟨_, runs, rfl, he.bytesOf, h1, by rw [h2, hcl]⟩
  | false =>
    obtain ⟨groups, hg, he⟩ := hilbertEncode_approx hp.float hs hd
    obtain ⟨r1, r2⟩ := averaged_runs hg.sizes
    refine ⟨_, _, rfl, he.bytesOf, r2, ?_⟩
    rw [r1, ← hcl, ← hg.flatten]
    simp [averaged, List.length_flatMap, List.length_flatten]

/-- **C108**, voronoi: the colours of the centroids. -/
theorem C108_voronoi_colors (p : Setup) (n : UInt64) (w h : UInt32) (cs : List ColorPos) (hl : cs.length < 2 ^ 64)
    (ha : 3 * (w.toNat * h.toNat) < 2 ^ 63) (rest : List UInt8) (f : Rgb UInt8 → Rgb UInt8) :
    (AnyCodec.voronoi n).decode p (voronoiBytes w h (cs.map (recolorPoint f)) ++ rest) =
      recolored f ((AnyCodec.voronoi n).decode p (voronoiBytes w h cs ++ rest)) := by
  show voronoiDecode p.chk _ = recolored f (voronoiDecode p.chk _)
  rw [voronoiDecode_eq p.chk w h _ rest ha (by simpa using hl), voronoiDecode_eq p.chk w h cs rest ha hl,
    optMap_map (fun i => pixelColor_recolor p.chk f cs _ _)]
  cases optMap (fun i => pixelColor p.chk cs (UInt32.ofNat (i % w.toNat)) (UInt32.ofNat (i / w.toNat)))
    (List.range (w.toNat * h.toNat)) <;> rfl

/-! ## Sizes -/

/-- **C108**, hufman and cluster-colors: with a smaller height there remain the upper rows. -/
theorem C108_hufman_rows {p : Setup} {w h h' : UInt32} {rest : List UInt8} {out : RgbImage} (hh : h'.toNat ≤ h.toNat)
    (ho : AnyCodec.hufman.decode p (bytes (w, h) ++ rest) = .ok out) :
    AnyCodec.hufman.decode p (bytes (w, h') ++ rest) = .ok (cropped w h' out) := by
  have hle : w.toNat * h'.toNat ≤ w.toNat * h.toNat := Nat.mul_le_mul_left _ hh
  rw [C75_hufman, C75_size] at ho ⊢
  split at ho
  · cases ho
  · rw [if_neg (by omega)]
    split at ho
    · cases ho
    · next t payload _ =>
      dsimp only at ho ⊢
      split at ho
      · next hlen =>
        cases ho
        have := spelled_take t (w.toNat * h.toNat) (w.toNat * h'.toNat) (bitsOf payload)
        rw [Nat.min_eq_left hle] at this
        rw [this, List.length_take, hlen, if_pos (Nat.min_eq_left hle)]
        congr 1
        unfold cropped
        simp only [RgbImage.mk.injEq, true_and]
        apply List.ext_getElem?
        intro i
        rw [List.getElem?_take, List.getElem?_map, cells]
        by_cases hi : i < w.toNat * h'.toNat
        · rw [if_pos hi, List.getElem?_map, List.getElem?_range hi]
          simp only [Option.map_some]
          rw [Nat.mul_comm (i / w.toNat), Nat.div_add_mod, List.getElem?_eq_getElem (by omega)]
          rfl
        · rw [if_neg hi, List.getElem?_map, List.getElem?_eq_none (by simpa using hi)]
          rfl
      · cases ho

/-- **C108**, voronoi: with a smaller width or height there remains the part at the top left. -/
theorem C108_voronoi_crop {p : Setup} {n : UInt64} {w h w' h' : UInt32} {rest : List UInt8} {out : RgbImage}
    (hw : w'.toNat ≤ w.toNat) (hh : h'.toNat ≤ h.toNat)
    (ho : (AnyCodec.voronoi n).decode p (bytes (w, h) ++ rest) = .ok out) :
    (AnyCodec.voronoi n).decode p (bytes (w', h') ++ rest) = .ok (cropped w' h' out) := by
  have hle : w'.toNat * h'.toNat ≤ w.toNat * h.toNat := Nat.mul_le_mul hw hh
  rw [C75_voronoi, C75_size] at ho ⊢
  split at ho
  · cases ho
  · rw [if_neg (by omega)]
    split at ho
    · next cs hc =>
      have hl := centroidsIn_length hc
      have e1 := voronoiDecode_eq p.chk w h cs [] (by omega) hl
      have e2 := voronoiDecode_eq p.chk w' h' cs [] (by omega) hl
      rw [List.append_nil] at e1 e2
      rw [e1] at ho
      rw [e2]
      split at ho
      · next px hpx =>
        cases ho
        obtain ⟨k1, k2⟩ := optMap_some hpx
        have : ∀ i ∈ List.range (w'.toNat * h'.toNat),
            pixelColor p.chk cs (UInt32.ofNat (i % w'.toNat)) (UInt32.ofNat (i / w'.toNat)) =
              some ((px[i / w'.toNat * w.toNat + i % w'.toNat]?).getD black) := by
          intro i hi
          have hm : (i % w'.toNat, i / w'.toNat) ∈ cells w'.toNat h'.toNat := List.mem_map_of_mem hi
          obtain ⟨hx, hy⟩ := mem_cells.1 hm
          have hx' : i % w'.toNat < w.toNat := by omega
          have hlt : i / w'.toNat * w.toNat + i % w'.toNat < w.toNat * h.toNat := by
            exact index_lt hx' (Nat.lt_of_lt_of_le hy hh)
          have := k2 (i / w'.toNat * w.toNat + i % w'.toNat) _ (List.getElem?_range hlt)
          rw [Nat.mul_comm _ w.toNat, Nat.mul_add_mod, Nat.mod_eq_of_lt hx',
            Nat.mul_add_div (by omega), Nat.div_eq_of_lt hx', Nat.add_zero] at this
          rw [this, Nat.mul_comm _ w.toNat, List.getElem?_eq_getElem (by rw [k1, List.length_range, Nat.mul_comm w.toNat]; rwa [Nat.mul_comm w.toNat] at *)]
          rfl
        rw [optMap_ok this]
        simp [cropped, cells, Function.comp_def]
      · cases ho
    · cases ho

/-- The codecs that write the size of the picture as it is. -/
def AnyCodec.sizeInFront : AnyCodec → Bool
  | .zip _ => false
  | _ => true

/-- **C108**, smaller sizes are not noticed by the codecs that write the size in front. -/
theorem C108_smaller {p : Setup} (hs : ∀ w h, VisitsOnce p.scan w h) {c : AnyCodec} (hc : c.sizeInFront = true)
    {w h w' h' : UInt32} {rest : List UInt8} {out : RgbImage} (hw : w'.toNat ≤ w.toNat) (hh : h'.toNat ≤ h.toNat)
    (ho : c.decode p (bytes (w, h) ++ rest) = .ok out) :
    ∃ out', c.decode p (bytes (w', h') ++ rest) = .ok out' ∧ out'.width = w' ∧ out'.height = h' := by
  have hle : w'.toNat * h'.toNat ≤ w.toNat * h.toNat := Nat.mul_le_mul hw hh
  have paint : ∀ {cols : List (Rgb UInt8) × Bool}, paintedOr p.scan w h cols = .ok out →
      ∃ out', paintedOr p.scan w' h' cols = .ok out' ∧ out'.width = w' ∧ out'.height = h' := by
    intro cols ho
    unfold paintedOr at ho ⊢
    split at ho
    · next hcond =>
      rw [if_pos (hcond.imp_left fun h => Nat.le_trans hle h)]
      exact ⟨_, rfl, rfl, rfl⟩
    · cases ho
  have huf : AnyCodec.hufman.decode p (bytes (w, h) ++ rest) = .ok out →
      ∃ out', AnyCodec.hufman.decode p (bytes (w', h') ++ rest) = .ok out' ∧ out'.width = w' ∧ out'.height = h' := by
    intro ho
    rw [C75_hufman, C75_size] at ho ⊢
    split at ho
    · cases ho
    · rw [if_neg (by omega)]
      split at ho
      · cases ho
      · next t payload _ =>
        dsimp only at ho ⊢
        split at ho
        · next hlen =>
          have := spelled_take t (w.toNat * h.toNat) (w'.toNat * h'.toNat) (bitsOf payload)
          rw [Nat.min_eq_left hle] at this
          rw [this, List.length_take, hlen, if_pos (Nat.min_eq_left hle)]
          exact ⟨_, rfl, rfl, rfl⟩
        · cases ho
  cases c with
  | zip m => cases hc
  | hufman => exact huf ho
  | clusterColors n => exact huf ho
  | voronoi n => exact ⟨_, C108_voronoi_crop hw hh ho, rfl, rfl⟩
  | delta =>
    rw [C75_delta hs, C75_size] at ho ⊢
    split at ho
    · cases ho
    · rw [if_neg (by omega)]
      split at ho
      · cases ho
      · next t payload _ =>
        have := spelled_take t (w.toNat * h.toNat) (w'.toNat * h'.toNat) (bitsOf payload)
        rw [Nat.min_eq_left hle] at this
        rw [this]
        rcases addUp_take (0, 0, 0) (spelled t (w.toNat * h.toNat) (bitsOf payload)) (w'.toNat * h'.toNat) with k | k
        · unfold paintedOr
          rw [if_pos (.inr k)]
          exact ⟨_, rfl, rfl, rfl⟩
        · rw [k]
          exact paint ho
  | hilbert m =>
    cases m with
    | rle d =>
      rw [C75_hilbert_rle hs, C75_size] at ho ⊢
      split at ho
      · cases ho
      · rw [if_neg (by omega)]
        exact paint ho
    | zip =>
      rw [C75_hilbert_zip hs, C75_size] at ho ⊢
      split at ho
      · cases ho
      · rw [if_neg (by omega)]
        exact paint ho

/-- **C108**, one changed byte goes unnoticed: in every file of such a codec that is decoded to a picture with pixels, one of
the first four bytes can be set to zero, and the file is decoded to a narrower picture. -/
theorem C108_unnoticed {p : Setup} (hs : ∀ w h, VisitsOnce p.scan w h) {c : AnyCodec} (hc : c.sizeInFront = true)
    {file : List UInt8} {out : RgbImage} (ho : c.decode p file = .ok out) (hw : out.width ≠ 0) :
    ∃ i out', i < 4 ∧ c.decode p (file.set i 0) = .ok out' ∧ out'.width.toNat < out.width.toNat ∧ out'.height = out.height := by
  have form : ∃ rest, file = bytes (out.width, out.height) ++ rest := by
    have paint : ∀ {w h : UInt32} {cols : List (Rgb UInt8) × Bool}, paintedOr p.scan w h cols = .ok out →
        out.width = w ∧ out.height = h := fun ho => by rw [paintedOr_ok ho]; exact ⟨rfl, rfl⟩
    have key : ∀ {f : UInt32 → UInt32 → List UInt8 → Ret Unit RgbImage}, withSize file f = .ok out →
        (∀ w h rest, 3 * (w.toNat * h.toNat) < 2 ^ 63 → f w h rest = .ok out → out.width = w ∧ out.height = h) →
        ∃ rest, file = bytes (out.width, out.height) ++ rest := by
      intro f ho hf
      obtain ⟨-, w, h, rest, rfl, ha, h1⟩ := withSize_ok ho
      obtain ⟨rfl, rfl⟩ := hf w h rest ha h1
      exact ⟨rest, rfl⟩
    have huf : AnyCodec.hufman.decode p file = .ok out → ∃ rest, file = bytes (out.width, out.height) ++ rest := fun ho => by
      obtain ⟨t, payload, rfl, -⟩ := C108_hufman_form ho
      exact ⟨_, rfl⟩
    cases c with
    | zip m => cases hc
    | hufman => exact huf ho
    | clusterColors n => exact huf ho
    | voronoi n =>
      rw [C75_voronoi] at ho
      refine key ho fun w h rest ha h1 => ?_
      split at h1
      · next cs hcs =>
        have e1 := voronoiDecode_eq p.chk w h cs [] ha (centroidsIn_length hcs)
        rw [List.append_nil] at e1
        rw [e1] at h1
        split at h1
        · cases h1; exact ⟨rfl, rfl⟩
        · cases h1
      · cases h1
    | delta =>
      rw [C75_delta hs] at ho
      refine key ho fun w h rest ha h1 => ?_
      split at h1
      · cases h1
      · exact paint h1
    | hilbert m =>
      cases m with
      | rle d =>
        rw [C75_hilbert_rle hs] at ho
        exact key ho fun w h rest ha h1 => paint h1
      | zip =>
        rw [C75_hilbert_zip hs] at ho
        exact key ho fun w h rest ha h1 => paint h1
  obtain ⟨rest, rfl⟩ := form
  obtain ⟨i, w', hi, hlt, hset⟩ := u32_clear_byte hw
  have e : ∀ w : UInt32, bytes (w, out.height) ++ rest = bytes w ++ (bytes out.height ++ rest) := fun w => by
    show (bytes w ++ bytes out.height) ++ rest = _
    rw [List.append_assoc]
  obtain ⟨out', h1, h2, h3⟩ := C108_smaller hs hc (w' := w') (h' := out.height) (Nat.le_of_lt hlt) (Nat.le_refl _) ho
  exact ⟨i, out', hi, by rw [e, hset, ← e]; exact h1, by rw [h2]; exact hlt, h3⟩

/-! ## Concrete cases -/

namespace EditExamples
open ExtremeExamples (release release_lawful)

/-- Every colour made dark. -/
def darken (c : Rgb UInt8) : Rgb UInt8 := ⟨c.r / 2, c.g / 2, c.b / 2⟩

/-- A tree of two colours and the bits 0, 1, 1, 0: two pixels in each of two rows. -/
def tree : BinTrie (Rgb UInt8) := .branch (.leaf ⟨10, 20, 30⟩) (.leaf ⟨200, 100, 0⟩)

/-- The file with the tree. -/
def file : List UInt8 := bytes ((2, 2) : UInt32 × UInt32) ++ (treeBytes tree ++ [0x60])

theorem visits (w h : Nat) : VisitsOnce release.scan w h := .refl _

theorem hufman_file : AnyCodec.hufman.decode release file =
    .ok ⟨2, 2, [⟨10, 20, 30⟩, ⟨200, 100, 0⟩, ⟨200, 100, 0⟩, ⟨10, 20, 30⟩]⟩ := by
  rw [file, C75_hufman, C75_size, if_neg (by decide), C75_tree]
  have e : spelled tree ((2 : UInt32).toNat * (2 : UInt32).toNat) (bitsOf [0x60]) =
      [⟨10, 20, 30⟩, ⟨200, 100, 0⟩, ⟨200, 100, 0⟩, ⟨10, 20, 30⟩] := by decide +kernel
  dsimp only
  rw [e]
  rfl

/-- C108, hufman: the colours in the tree halved. -/
example : AnyCodec.hufman.decode release (bytes ((2, 2) : UInt32 × UInt32) ++
    (treeBytes (BinTrie.branch (.leaf (⟨5, 10, 15⟩ : Rgb UInt8)) (.leaf ⟨100, 50, 0⟩)) ++ [0x60])) =
    .ok ⟨2, 2, [⟨5, 10, 15⟩, ⟨100, 50, 0⟩, ⟨100, 50, 0⟩, ⟨5, 10, 15⟩]⟩ :=
  (C108_hufman_colors release 2 2 tree [0x60] darken).1.trans (congrArg (recolored darken) hufman_file)

/-- C108, hufman: the form of the file. -/
example : ∃ (t : BinTrie (Rgb UInt8)) (payload : List UInt8),
    file = bytes ((2, 2) : UInt32 × UInt32) ++ (treeBytes t ++ payload) := by
  obtain ⟨t, payload, h, -⟩ := C108_hufman_form hufman_file
  exact ⟨t, payload, h⟩

/-- C108, hufman: the first row. -/
example : AnyCodec.hufman.decode release (bytes ((2, 1) : UInt32 × UInt32) ++ (treeBytes tree ++ [0x60])) =
    .ok ⟨2, 1, [⟨10, 20, 30⟩, ⟨200, 100, 0⟩]⟩ :=
  C108_hufman_rows (w := 2) (h := 2) (h' := 1) (rest := treeBytes tree ++ [0x60]) (by decide) hufman_file

/-- C108, runs: four pixels in two runs. -/
example : (AnyCodec.hilbert (.rle (.fin 0))).decode release (bytes ((4, 1) : UInt32 × UInt32) ++
    (([(3, ⟨10, 20, 30⟩), (1, ⟨200, 100, 0⟩)] : List (UInt8 × Rgb UInt8)).map fun r => (r.1, darken r.2)).flatMap runBytes ++ [7]) =
    .ok ⟨4, 1, [⟨5, 10, 15⟩, ⟨5, 10, 15⟩, ⟨5, 10, 15⟩, ⟨100, 50, 0⟩]⟩ := by
  rw [List.append_assoc, C108_rle_colors visits (.fin 0) 4 1 [(3, ⟨10, 20, 30⟩), (1, ⟨200, 100, 0⟩)] (by decide) (by decide) [7] darken,
    C75_hilbert_rle visits, C75_size, if_neg (by decide), rleColors_runs _ (by decide)]
  rfl

/-- C108, runs: a file that is written. -/
example : ∃ m runs, (AnyCodec.hilbert (.rle (.fin 5))).encode release 0 (redRow [1, 2, 200] (by decide)) = .ok m ∧
    bytesOf m = .ok (bytes ((3, 1) : UInt32 × UInt32) ++ runs.flatMap runBytes) ∧ (∀ r ∈ runs, 1 ≤ r.1.toNat) ∧
      (expandRuns runs).length = 3 :=
  C108_rle_form release_lawful 0 (.fin 5) (img := redRow [1, 2, 200] (by decide)) (visits _ _)

/-- Two centroids, at the ends of a row. -/
def row : List UInt8 := voronoiBytes 4 2 [⟨0, 0, ⟨10, 20, 30⟩⟩, ⟨3, 1, ⟨200, 100, 0⟩⟩]

theorem voronoi_row : (AnyCodec.voronoi 2).decode release row =
    .ok ⟨4, 2, [⟨10, 20, 30⟩, ⟨10, 20, 30⟩, ⟨200, 100, 0⟩, ⟨200, 100, 0⟩, ⟨10, 20, 30⟩, ⟨10, 20, 30⟩, ⟨200, 100, 0⟩,
      ⟨200, 100, 0⟩]⟩ := by
  have := voronoiDecode_eq false 4 2 [⟨0, 0, ⟨10, 20, 30⟩⟩, ⟨3, 1, ⟨200, 100, 0⟩⟩] [] (by decide) (by decide)
  rw [List.append_nil] at this
  exact this.trans rfl

/-- C108, voronoi: the colours of the centroids halved. -/
example : (AnyCodec.voronoi 2).decode release
    (voronoiBytes 4 2 ([⟨0, 0, ⟨10, 20, 30⟩⟩, ⟨3, 1, ⟨200, 100, 0⟩⟩].map (recolorPoint darken)) ++ []) =
    recolored darken ((AnyCodec.voronoi 2).decode release row) := by
  rw [C108_voronoi_colors release 2 4 2 _ (by decide) (by decide), List.append_nil]
  rfl

/-- C108, voronoi: three columns of the first row. -/
example : (AnyCodec.voronoi 2).decode release (bytes ((3, 1) : UInt32 × UInt32) ++ row.drop 8) =
    .ok ⟨3, 1, [⟨10, 20, 30⟩, ⟨10, 20, 30⟩, ⟨200, 100, 0⟩]⟩ :=
  C108_voronoi_crop (w := 4) (h := 2) (w' := 3) (h' := 1) (rest := row.drop 8) (by decide) (by decide) voronoi_row

/-- C108, a smaller size, and a byte that is changed. -/
example : (∃ out', AnyCodec.hufman.decode release (bytes ((1, 2) : UInt32 × UInt32) ++ (treeBytes tree ++ [0x60])) = .ok out' ∧
      out'.width = 1 ∧ out'.height = 2) ∧
    ∃ i out', i < 4 ∧ AnyCodec.hufman.decode release (file.set i 0) = .ok out' ∧ out'.width.toNat < 2 ∧ out'.height = 2 :=
  ⟨C108_smaller visits rfl (w := 2) (h := 2) (w' := 1) (h' := 2) (rest := treeBytes tree ++ [0x60]) (by decide) (by decide) hufman_file,
    C108_unnoticed visits rfl hufman_file (by decide)⟩

end EditExamples
end Cniic
