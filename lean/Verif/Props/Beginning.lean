import Verif.Proofs.Beginning
import Verif.Props.Damage
import Verif.Props.ZipBack

/-!
# The beginning of a file (C123)

Two pictures of the same size begin with the same pixels.  The runs of hilbert(rle), the pairs of symbols of zip(dict) and
hilbert(zip) and the symbols of zip(back) that lie far enough inside the common part are the same.  The files of hufman differ at the
ninth byte already.
-/

namespace Cniic
open Spec SerSpec Back

/-! ## The compressors -/

/-- **C123**, zip-dict: if the first `m` pairs of symbols stand for so few bytes that a known sequence after them still ends inside
the common part of the inputs, then the first `4 * m` bytes of both outputs are the same. -/
theorem C123_zip_dict {a y y' out out' : List UInt8} (h : bytesOf (zipDictEncode (a ++ y)) = .ok out)
    (h' : bytesOf (zipDictEncode (a ++ y')) = .ok out') {m D : Nat}
    (hD : ∀ s ∈ learned oneByteSeqs (out.take (4 * m)), s.length ≤ D)
    (hc : (meaning oneByteSeqs (out.take (4 * m))).1.length + D ≤ a.length) : out.take (4 * m) = out'.take (4 * m) := by
  obtain ⟨syms, hp, he⟩ := zipDictEncode_spec (a ++ y)
  obtain ⟨syms', hp', he'⟩ := zipDictEncode_spec (a ++ y')
  obtain rfl := Ret.ok.inj (he.bytesOf.symm.trans h)
  obtain rfl := Ret.ok.inj (he'.bytesOf.symm.trans h')
  rw [show 4 * m = 2 * (2 * m) by omega, symBytes_take] at hD hc ⊢
  rw [symBytes_take]
  have hD1 : 1 ≤ D := hD [0] (learned_mono _ (List.mem_of_getElem? (i := 0) (by rfl)))
  rw [parse_beginning hD1 m goodDict_start hp hp' hD hc]

/-- **C123**, zip-dict, simpler: bytes that stand for at most half of the common part are the same. -/
theorem C123_zip_dict_half {a y y' out out' : List UInt8} (h : bytesOf (zipDictEncode (a ++ y)) = .ok out)
    (h' : bytesOf (zipDictEncode (a ++ y')) = .ok out') (ha : a ≠ []) {m : Nat}
    (hc : 2 * (meaning oneByteSeqs (out.take (4 * m))).1.length ≤ a.length) : out.take (4 * m) = out'.take (4 * m) := by
  have ha1 : 0 < a.length := List.length_pos_iff.2 ha
  refine C123_zip_dict h h' (D := max 1 (meaning oneByteSeqs (out.take (4 * m))).1.length) ?_ ?_
  · intro s hs
    rcases learned_length _ hs with hs | hs
    · obtain ⟨i, -, rfl⟩ := List.mem_map.1 hs
      exact Nat.le_max_left _ _
    · exact Nat.le_trans hs (Nat.le_max_right _ _)
  · omega

/-- **C123**, zip-back: symbols that stand for so few bytes that what follows in the common part is as long as what has been
written, or as the window, are the same. -/
theorem C123_zip_back {cap : Caps} (hcap : ∀ i, repBufInit ≤ cap i) {a y y' out out' : List UInt8}
    (h : bytesOf (zipBackEncode ringSize cap (a ++ y)) = .ok out) (h' : bytesOf (zipBackEncode ringSize cap (a ++ y')) = .ok out') :
    ∃ syms, out = syms.flatMap symbolBytes ∧ meaningFrom ringSize [] syms = some (a ++ y) ∧
      ∀ pre, pre <+: syms → standFor pre + min (standFor pre) ringSize ≤ a.length → pre.flatMap symbolBytes <+: out' := by
  obtain ⟨syms, hf, he⟩ := zipBackEncode_spec (show 0 < ringSize by decide) hcap (a ++ y)
  obtain ⟨syms', hf', he'⟩ := zipBackEncode_spec (show 0 < ringSize by decide) hcap (a ++ y')
  rw [he] at h
  rw [he'] at h'
  obtain ⟨-, rfl⟩ := bytesOf_syms h
  obtain ⟨-, rfl⟩ := bytesOf_syms h'
  refine ⟨syms, rfl, by simpa using Factor.meaning hf [] rfl, ?_⟩
  rintro pre ⟨post, hpost⟩ hc
  obtain ⟨more, rfl⟩ := factor_beginning (show 0 < ringSize by decide) hf rfl hf' hpost.symm (Nat.le_refl _) (by simpa using hc)
  rw [List.flatMap_append]
  exact List.prefix_append _ _

/-! ## The codecs -/

theorem zipData_beginning {img : Img} {a y : List (Rgb UInt8)} (h : img.rgbPixels = a ++ y) :
    zipData img = (bytes (img.width, img.height) ++ a.flatMap bytes) ++ y.flatMap bytes := by
  rw [zipData, h, List.flatMap_append, List.append_assoc]

theorem zipData_length (w h : UInt32) (a : List (Rgb UInt8)) :
    (bytes (w, h) ++ a.flatMap bytes).length = 8 + 11 * a.length := by
  rw [List.length_append, dims_length, rgbs_bytes_length]

/-- **C123**, zip(dict): pictures of one size that begin with the same `a`. -/
theorem C123_dict {p : Setup} (fuel fuel' : Nat) {img img' : Img} (hw : img.width = img'.width) (hh : img.height = img'.height)
    {a y y' : List (Rgb UInt8)} (hx : img.rgbPixels = a ++ y) (hx' : img'.rgbPixels = a ++ y') :
    ∃ e e' out out', (AnyCodec.zip .dict).encode p fuel img = .ok e ∧ (AnyCodec.zip .dict).encode p fuel' img' = .ok e' ∧
      bytesOf e = .ok out ∧ bytesOf e' = .ok out' ∧
      ∀ m D, (∀ s ∈ learned oneByteSeqs (out.take (4 * m)), s.length ≤ D) →
        (meaning oneByteSeqs (out.take (4 * m))).1.length + D ≤ 8 + 11 * a.length → out.take (4 * m) = out'.take (4 * m) := by
  obtain ⟨syms, -, he⟩ := zipDictEncode_spec (zipData img)
  obtain ⟨syms', -, he'⟩ := zipDictEncode_spec (zipData img')
  refine ⟨_, _, _, _, rfl, rfl, by rw [zipEncode_dict]; exact he.bytesOf, by rw [zipEncode_dict]; exact he'.bytesOf, ?_⟩
  intro m D hD hc
  have h1 := he.bytesOf
  have h2 := he'.bytesOf
  rw [zipData_beginning hx] at h1
  rw [zipData_beginning hx', ← hw, ← hh] at h2
  exact C123_zip_dict h1 h2 hD (by rw [zipData_length]; exact hc)

/-- **C123**, zip(back). -/
theorem C123_back {p : Setup} (hp : p.Lawful) (fuel fuel' : Nat) {img img' : Img} (hw : img.width = img'.width)
    (hh : img.height = img'.height) {a y y' : List (Rgb UInt8)} (hx : img.rgbPixels = a ++ y) (hx' : img'.rgbPixels = a ++ y')
    {e e' : W Unit} {out out' : List UInt8}
    (he : (AnyCodec.zip .back).encode p fuel img = .ok e) (he' : (AnyCodec.zip .back).encode p fuel' img' = .ok e')
    (ho : bytesOf e = .ok out) (ho' : bytesOf e' = .ok out') :
    ∃ syms, out = syms.flatMap symbolBytes ∧
      ∀ pre, pre <+: syms → standFor pre + min (standFor pre) ringSize ≤ 8 + 11 * a.length → pre.flatMap symbolBytes <+: out' := by
  obtain rfl := Ret.ok.inj he
  obtain rfl := Ret.ok.inj he'
  rw [zipEncode_back, zipData_beginning hx] at ho
  rw [zipEncode_back, zipData_beginning hx', ← hw, ← hh] at ho'
  obtain ⟨syms, h1, -, h2⟩ := C123_zip_back hp.cap ho ho'
  exact ⟨syms, h1, fun pre hpre hc => h2 pre hpre (by rw [zipData_length]; exact hc)⟩

/-- **C123**, hilbert(zip): pictures of one size that begin with the same `a` along the traversal. -/
theorem C123_hilbert_zip {p : Setup} (hs : ∀ w h, VisitsOnce p.scan w h) (fuel fuel' : Nat) {img img' : Img}
    {a y y' : List (Rgb UInt8)} (hw : img.width = img'.width) (hh : img.height = img'.height)
    (hx : along p.scan img.toRgb = a ++ y) (hx' : along p.scan img'.toRgb = a ++ y') :
    ∃ e e' out out', (AnyCodec.hilbert .zip).encode p fuel img = .ok e ∧ (AnyCodec.hilbert .zip).encode p fuel' img' = .ok e' ∧
      bytesOf e = .ok (bytes (img.width, img.height) ++ out) ∧ bytesOf e' = .ok (bytes (img.width, img.height) ++ out') ∧
      ∀ m D, (∀ s ∈ learned oneByteSeqs (out.take (4 * m)), s.length ≤ D) →
        (meaning oneByteSeqs (out.take (4 * m))).1.length + D ≤ 11 * a.length → out.take (4 * m) = out'.take (4 * m) := by
  have hs1 := hs img.width.toNat img.height.toNat
  have hs2 := hs img'.width.toNat img'.height.toNat
  obtain ⟨syms, -, he⟩ := zipDictEncode_spec ((colorsAlong p.scan img).flatMap bytes)
  obtain ⟨syms', -, he'⟩ := zipDictEncode_spec ((colorsAlong p.scan img').flatMap bytes)
  have k1 : Emits Emits.errOnly (hilbertEncode p.scan p.out.fl .zip img) (bytes (img.width, img.height) ++ symBytes syms) () := by
    rw [hilbertEncode_zip_eq _ hs1]
    exact Emits.bind (emits_dims img) he
  have k2 : Emits Emits.errOnly (hilbertEncode p.scan p.out.fl .zip img') (bytes (img.width, img.height) ++ symBytes syms') () := by
    rw [hilbertEncode_zip_eq _ hs2, hw, hh]
    exact Emits.bind (emits_dims img') he'
  refine ⟨_, _, symBytes syms, symBytes syms', rfl, rfl, k1.bytesOf, k2.bytesOf, ?_⟩
  intro m D hD hc
  have h1 := he.bytesOf
  have h2 := he'.bytesOf
  rw [← along_toRgb, hx, List.flatMap_append] at h1
  rw [← along_toRgb, hx', List.flatMap_append] at h2
  exact C123_zip_dict h1 h2 hD (by rw [rgbs_bytes_length]; exact hc)

/-- **C123**, hilbert(rle), whatever the allowance: as long as the runs cover fewer pixels than are the same, the files are the
same. -/
theorem C123_rle {p : Setup} (hp : p.Lawful) (hs : ∀ w h, VisitsOnce p.scan w h) (fuel fuel' : Nat) (d : F64) {img img' : Img}
    {a y y' : List (Rgb UInt8)} (hw : img.width = img'.width) (hh : img.height = img'.height)
    (hx : along p.scan img.toRgb = a ++ y) (hx' : along p.scan img'.toRgb = a ++ y') :
    ∃ e e' runs runs', (AnyCodec.hilbert (.rle d)).encode p fuel img = .ok e ∧
      (AnyCodec.hilbert (.rle d)).encode p fuel' img' = .ok e' ∧
      bytesOf e = .ok (bytes (img.width, img.height) ++ runs.flatMap runBytes) ∧
      bytesOf e' = .ok (bytes (img.width, img.height) ++ runs'.flatMap runBytes) ∧
      ∀ pre, pre <+: runs → (expandRuns pre).length < a.length → pre <+: runs' := by
  have key : ∀ {ok : List (Rgb UInt8) → Rgb UInt8 → Prop} {val : List (Rgb UInt8) → Rgb UInt8} {gs gs' : List (List (Rgb UInt8))},
      Greedy ok (a ++ y) gs → Greedy ok (a ++ y') gs' →
      ∀ pre, pre <+: gs.map (runOf val) → (expandRuns pre).length < a.length → pre <+: gs'.map (runOf val) := by
    intro ok val gs gs' hg hg' pre hpre hc
    obtain ⟨post, hpost⟩ := hpre
    obtain ⟨gp, gq, rfl, rfl, -⟩ := List.map_eq_append_iff.1 hpost.symm
    obtain ⟨more, rfl⟩ := greedy_beginning hg rfl hg' rfl (by
      refine Nat.lt_of_le_of_lt (Nat.le_of_eq ?_) hc
      have : ∀ l : List (List (Rgb UInt8)), (∀ g ∈ l, g.length ≤ 255) → l.flatten.length = (expandRuns (l.map (runOf val))).length := by
        intro l hl
        induction l with
        | nil => rfl
        | cons g l ih =>
          have e : expandRuns ((g :: l).map (runOf val)) =
              List.replicate (UInt8.ofNat g.length).toNat (val g) ++ expandRuns (l.map (runOf val)) := rfl
          rw [e, List.flatten_cons, List.length_append, List.length_append, List.length_replicate,
            ih fun x hx => hl x (.tail _ hx), u8_ofNat_toNat (hl g (.head _))]
      exact this gp fun g hgm => (hg.sizes g (List.mem_append_left _ hgm)).2)
    rw [List.map_append]
    exact List.prefix_append _ _
  have hs1 := hs img.width.toNat img.height.toNat
  have hs2 := hs img'.width.toNat img'.height.toNat
  rw [along_toRgb] at hx hx'
  cases hd : d.isZero with
  | true =>
    obtain ⟨g1, h1, e1⟩ := hilbertEncode_groups p.out.fl hs1 hd
    obtain ⟨g2, h2, e2⟩ := hilbertEncode_groups p.out.fl hs2 hd
    rw [hx] at h1
    rw [hx'] at h2
    exact ⟨_, _, _, _, rfl, rfl, e1.bytesOf, by rw [hw, hh]; exact e2.bytesOf, key h1 h2⟩
  | false =>
    obtain ⟨g1, h1, e1⟩ := hilbertEncode_approx hp.float hs1 hd
    obtain ⟨g2, h2, e2⟩ := hilbertEncode_approx hp.float hs2 hd
    rw [hx] at h1
    rw [hx'] at h2
    exact ⟨_, _, _, _, rfl, rfl, e1.bytesOf, by rw [hw, hh]; exact e2.bytesOf, key h1 h2⟩

/-- **C123**, hufman: after the size, the first byte says whether there is one colour only.  However many pixels are the same, if one
picture has one colour and the other has another colour somewhere, the files differ there. -/
theorem C123_hufman {p : Setup} (hp : p.Lawful) (fuel fuel' : Nat) {img img' : Img} {c d : Rgb UInt8}
    (h0 : img.pixels ≠ []) (h1 : ∀ x ∈ img.rgbPixels, x = c) (h2 : c ∈ img'.rgbPixels) (h3 : d ∈ img'.rgbPixels) (hcd : c ≠ d) :
    ∃ e e' out out', AnyCodec.hufman.encode p fuel img = .ok e ∧ AnyCodec.hufman.encode p fuel' img' = .ok e' ∧
      bytesOf e = .ok out ∧ bytesOf e' = .ok out' ∧ out[8]? = some 0 ∧ out'[8]? = some 1 := by
  have form : ∀ {img : Img}, img.rgbPixels ≠ [] → ∃ t : BinTrie (Rgb UInt8), ∃ payload, (symbols t).Nodup ∧
      (∀ x, x ∈ symbols t ↔ x ∈ img.rgbPixels) ∧
      Emits Emits.anyWay (hufmanEncode p.heapRgb p.orderRgb img) (bytes (img.width, img.height) ++ (treeBytes t ++ payload)) () := by
    intro img hpx
    obtain ⟨enc, t, payload, k, hb, hnd, hmem, -, -, he, -⟩ :=
      encodeAll_spec p.heapRgb p.orderRgb hp.orderRgb img.rgbPixels hpx fun x _ => rgb_valid x
    exact ⟨t, payload, hnd, hmem, Emits.bind (anyWay_of_err (emits_dims img)) he⟩
  have hpx : img.rgbPixels ≠ [] := by simpa [Img.rgbPixels] using h0
  obtain ⟨t, pl, hnd, hmem, he⟩ := form hpx
  obtain ⟨t', pl', hnd', hmem', he'⟩ := form (List.ne_nil_of_mem h2)
  refine ⟨_, _, _, _, rfl, rfl, he.bytesOf, he'.bytesOf, ?_, ?_⟩
  · rw [List.getElem?_append_right (by rw [dims_length]), dims_length]
    cases t with
    | leaf v => rfl
    | branch l r =>
      exfalso
      obtain ⟨x, hx⟩ := List.exists_mem_of_ne_nil _ (show symbols l ≠ [] by simpa [symbols] using leaves_ne_nil l)
      obtain ⟨z, hz⟩ := List.exists_mem_of_ne_nil _ (show symbols r ≠ [] by simpa [symbols] using leaves_ne_nil r)
      rw [symbols_branch] at hnd hmem
      have := (List.nodup_append.1 hnd).2.2 x hx z hz
      apply this
      rw [h1 x ((hmem x).1 (List.mem_append_left _ hx)), h1 z ((hmem z).1 (List.mem_append_right _ hz))]
  · rw [List.getElem?_append_right (by rw [dims_length]), dims_length]
    cases t' with
    | leaf v =>
      exfalso
      have e : ∀ x, x ∈ symbols (.leaf v) → x = v := fun x hx => by simpa [symbols, leaves] using hx
      exact hcd ((e c ((hmem' c).2 h2)).trans (e d ((hmem' d).2 h3)).symm)
    | branch l r => rfl

/-! ## Concrete cases -/

namespace BeginningExamples
open ExtremeExamples (release release_lawful)
open EditExamples (visits)

theorem dict_out : bytesOf (zipDictEncode ([1, 2, 3, 4] ++ [1, 2, 5])) = .ok [1, 0, 2, 0, 3, 0, 4, 0, 0, 1, 5, 0] ∧
    bytesOf (zipDictEncode ([1, 2, 3, 4] ++ [6])) = .ok [1, 0, 2, 0, 3, 0, 4, 0, 6, 0, 255, 255] := by decide +kernel

/-- C123, zip-dict: one pair of symbols for two bytes, and known sequences of two bytes. -/
example : ([1, 0, 2, 0, 3, 0, 4, 0, 0, 1, 5, 0] : List UInt8).take (4 * 1) = ([1, 0, 2, 0, 3, 0, 4, 0, 6, 0, 255, 255] : List UInt8).take (4 * 1) :=
  C123_zip_dict dict_out.1 dict_out.2 (m := 1) (D := 2) (by decide +kernel) (by decide +kernel)

/-- C123, zip-dict, half. -/
example : ([1, 0, 2, 0, 3, 0, 4, 0, 0, 1, 5, 0] : List UInt8).take (4 * 1) = ([1, 0, 2, 0, 3, 0, 4, 0, 6, 0, 255, 255] : List UInt8).take (4 * 1) :=
  C123_zip_dict_half dict_out.1 dict_out.2 (by decide) (m := 1) (by decide +kernel)

/-- The bound is needed: after `1 2` a longer sequence may follow. -/
example : bytesOf (zipDictEncode ([1, 2, 1] ++ [2])) = .ok [1, 0, 2, 0, 0, 1, 255, 255] ∧
    bytesOf (zipDictEncode ([1, 2, 1] ++ [3])) = .ok [1, 0, 2, 0, 1, 0, 3, 0] := by decide +kernel

theorem back_out : bytesOf (zipBackEncode ringSize (fun _ => 16) ([1, 2, 3, 4, 5, 6, 7, 8, 1, 2, 3, 4, 5, 6, 7, 8, 9, 10, 11, 12, 13, 14, 15, 16, 17, 18, 19, 20, 21, 22, 23, 24] ++ [25])) =
      .ok [8, 0, 1, 2, 3, 4, 5, 6, 7, 8, 8, 128, 8, 0, 17, 0, 9, 10, 11, 12, 13, 14, 15, 16, 17, 18, 19, 20, 21, 22, 23, 24, 25] ∧
    bytesOf (zipBackEncode ringSize (fun _ => 16) ([1, 2, 3, 4, 5, 6, 7, 8, 1, 2, 3, 4, 5, 6, 7, 8, 9, 10, 11, 12, 13, 14, 15, 16, 17, 18, 19, 20, 21, 22, 23, 24] ++ [])) =
      .ok [8, 0, 1, 2, 3, 4, 5, 6, 7, 8, 8, 128, 8, 0, 16, 0, 9, 10, 11, 12, 13, 14, 15, 16, 17, 18, 19, 20, 21, 22, 23, 24] := by decide +kernel

/-- C123, zip-back: the first two symbols stand for sixteen bytes, of 32. -/
example : ∃ syms, syms.flatMap symbolBytes = [8, 0, 1, 2, 3, 4, 5, 6, 7, 8, 8, 128, 8, 0, 17, 0, 9, 10, 11, 12, 13, 14, 15, 16, 17, 18, 19, 20, 21, 22, 23, 24, 25] ∧
    ([.explicit [1, 2, 3, 4, 5, 6, 7, 8], .lookBack 8 8] <+: syms →
      ([8, 0, 1, 2, 3, 4, 5, 6, 7, 8, 8, 128, 8, 0] : List UInt8) <+:
        [8, 0, 1, 2, 3, 4, 5, 6, 7, 8, 8, 128, 8, 0, 16, 0, 9, 10, 11, 12, 13, 14, 15, 16, 17, 18, 19, 20, 21, 22, 23, 24]) := by
  obtain ⟨syms, h1, -, h2⟩ := C123_zip_back (fun _ => Nat.le_refl _) back_out.1 back_out.2
  exact ⟨syms, h1.symm, fun h => h2 _ h (by decide)⟩

/-- C123, zip(dict): eight black pixels, of which the last one is red in the other picture. -/
example : ∃ e e' out out', (AnyCodec.zip .dict).encode release 0 (redRow [0, 0, 0, 0, 0, 0, 0, 0] (by decide)) = .ok e ∧
    (AnyCodec.zip .dict).encode release 0 (redRow [0, 0, 0, 0, 0, 0, 0, 255] (by decide)) = .ok e' ∧
    bytesOf e = .ok out ∧ bytesOf e' = .ok out' ∧
    ∀ m D, (∀ s ∈ learned oneByteSeqs (out.take (4 * m)), s.length ≤ D) →
      (meaning oneByteSeqs (out.take (4 * m))).1.length + D ≤ 8 + 11 * 7 → out.take (4 * m) = out'.take (4 * m) :=
  C123_dict 0 0 (img := redRow [0, 0, 0, 0, 0, 0, 0, 0] (by decide))
    (img' := redRow [0, 0, 0, 0, 0, 0, 0, 255] (by decide)) (a := List.replicate 7 black) (y := [black]) (y' := [⟨255, 0, 0⟩]) rfl rfl (by decide +kernel) (by decide +kernel)

/-- C123, zip(back). -/
example {e e' : W Unit} {out out' : List UInt8}
    (he : (AnyCodec.zip .back).encode release 0 (redRow [0, 0, 0, 0, 0, 0, 0, 0] (by decide)) = .ok e)
    (he' : (AnyCodec.zip .back).encode release 0 (redRow [0, 0, 0, 0, 0, 0, 0, 255] (by decide)) = .ok e')
    (ho : bytesOf e = .ok out) (ho' : bytesOf e' = .ok out') :
    ∃ syms, out = syms.flatMap symbolBytes ∧
      ∀ pre, pre <+: syms → standFor pre + min (standFor pre) ringSize ≤ 8 + 11 * 7 → pre.flatMap symbolBytes <+: out' :=
  C123_back release_lawful 0 0 (img := redRow [0, 0, 0, 0, 0, 0, 0, 0] (by decide))
    (img' := redRow [0, 0, 0, 0, 0, 0, 0, 255] (by decide)) rfl rfl (a := List.replicate 7 black) (y := [black]) (y' := [⟨255, 0, 0⟩]) (by decide +kernel) (by decide +kernel)
    he he' ho ho'

/-- C123, hilbert(zip). -/
example : ∃ e e' out out', (AnyCodec.hilbert .zip).encode release 0 (redRow [0, 0, 0, 0, 0, 0, 0, 0] (by decide)) = .ok e ∧
    (AnyCodec.hilbert .zip).encode release 0 (redRow [0, 0, 0, 0, 0, 0, 0, 255] (by decide)) = .ok e' ∧
    bytesOf e = .ok (bytes ((8, 1) : UInt32 × UInt32) ++ out) ∧ bytesOf e' = .ok (bytes ((8, 1) : UInt32 × UInt32) ++ out') ∧
    ∀ m D, (∀ s ∈ learned oneByteSeqs (out.take (4 * m)), s.length ≤ D) →
      (meaning oneByteSeqs (out.take (4 * m))).1.length + D ≤ 77 → out.take (4 * m) = out'.take (4 * m) :=
  C123_hilbert_zip visits 0 0 (a := List.replicate 7 black) (y := [black]) (y' := [⟨255, 0, 0⟩]) rfl rfl
    (by decide +kernel) (by decide +kernel)

/-- C123, hilbert(rle) with allowance 10: the first run does not depend on the last pixel. -/
example : ∃ e e' runs runs', (AnyCodec.hilbert (.rle (.fin 10))).encode release 0 (redRow [5, 6, 5, 200, 201, 9] (by decide)) = .ok e ∧
    (AnyCodec.hilbert (.rle (.fin 10))).encode release 0 (redRow [5, 6, 5, 200, 201, 202] (by decide)) = .ok e' ∧
    bytesOf e = .ok (bytes ((6, 1) : UInt32 × UInt32) ++ runs.flatMap runBytes) ∧
    bytesOf e' = .ok (bytes ((6, 1) : UInt32 × UInt32) ++ runs'.flatMap runBytes) ∧
    ∀ pre, pre <+: runs → (expandRuns pre).length < 5 → pre <+: runs' :=
  C123_rle release_lawful visits 0 0 (.fin 10) (a := [⟨5, 0, 0⟩, ⟨6, 0, 0⟩, ⟨5, 0, 0⟩, ⟨200, 0, 0⟩, ⟨201, 0, 0⟩]) (y := [⟨9, 0, 0⟩])
    (y' := [⟨202, 0, 0⟩]) rfl rfl (by decide +kernel) (by decide +kernel)

/-- C123, hufman. -/
example : ∃ e e' out out', AnyCodec.hufman.encode release 0 (redRow [0, 0, 0, 0, 0, 0, 0, 0] (by decide)) = .ok e ∧
    AnyCodec.hufman.encode release 0 (redRow [0, 0, 0, 0, 0, 0, 0, 255] (by decide)) = .ok e' ∧
    bytesOf e = .ok out ∧ bytesOf e' = .ok out' ∧ out[8]? = some 0 ∧ out'[8]? = some 1 :=
  C123_hufman release_lawful 0 0 (c := black) (d := ⟨255, 0, 0⟩) (by decide) (by decide) (by decide) (by decide) (by decide)

end BeginningExamples

end Cniic
