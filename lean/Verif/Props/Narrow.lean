import Verif.Proofs.Narrow
import Verif.Props.Position
import Verif.Props.Consumed

/-!
# Files on targets where `usize` is narrower (C128)
-/

namespace Cniic
open Spec SerSpec Kmeans Spec.Kmeans

/-- **C128**, 64 bits: for a `usize` of 64 bits these decoders are those of the other claims. -/
theorem C128_wide (p : Setup) (c : AnyCodec) : c.decodeOn 64 p = c.decodeFrom p := by
  have hh : hufmanDecodeOn 64 = hufmanDecodeFrom := by
    unfold hufmanDecodeOn
    rw [rgbSerOn_64]
    rfl
  cases c with
  | clusterColors n => exact hh
  | voronoi n =>
    simp only [AnyCodec.decodeOn, AnyCodec.decodeFrom]
    unfold voronoiDecodeOn voronoiDecodeFrom
    rw [colorPosSerOn_64]
    funext l
    rcases h1 : (de listNext l : Ret Unit (UInt32 × UInt32) × List UInt8) with ⟨d | _ | _, l1⟩
    · rw [Proc.bind_ok h1, Proc.bind_ok h1]
      rcases h2 : RgbImage.new d.1 d.2 with _ | img
      · rfl
      · simp only [orPanic, pure_bind]
        rcases h3 : (de listNext l1 : Ret Unit UInt64 × List UInt8) with ⟨n | _ | _, l2⟩
        · have e1 : usizeDeOn 64 listNext l1 = (.ok n.toNat, l2) := by
            unfold usizeDeOn
            rw [Proc.bind_ok h3, Nat.mod_eq_of_lt n.toNat_lt]
            rfl
          have e2 : (de listNext : Rd (List UInt8) Usize) l1 = (.ok ⟨n⟩, l2) := Proc.bind_ok h3
          rw [Proc.bind_ok e1, Proc.bind_ok e2]
        · have e1 : usizeDeOn 64 listNext l1 = (.err (), l2) := Proc.bind_err h3
          have e2 : (de listNext : Rd (List UInt8) Usize) l1 = (.err (), l2) := Proc.bind_err h3
          rw [Proc.bind_err e1, Proc.bind_err e2]
        · have e1 : usizeDeOn 64 listNext l1 = (.panic, l2) := Proc.bind_panic h3
          have e2 : (de listNext : Rd (List UInt8) Usize) l1 = (.panic, l2) := Proc.bind_panic h3
          rw [Proc.bind_panic e1, Proc.bind_panic e2]
    · rw [Proc.bind_err h1, Proc.bind_err h1]
    · rw [Proc.bind_panic h1, Proc.bind_panic h1]
  | delta => rfl
  | hilbert m =>
    simp only [AnyCodec.decodeOn, AnyCodec.decodeFrom]
    funext l
    unfold hilbertDecodeOn hilbertDecodeFrom
    rcases h1 : (de listNext l : Ret Unit (UInt32 × UInt32) × List UInt8) with ⟨d | _ | _, l1⟩
    · rw [Proc.bind_ok h1, Proc.bind_ok h1]
      cases m with
      | rle e => exact congrArg (fun next => borrowing RleDecoder.new (fun s => s.bytes) (decodeAny p.scan next d) l1) rleNextOn_64
      | zip =>
        exact congrArg (fun next => borrowing zipDictDecode (fun s => s.encoded) (decodeAny p.scan next d) l1)
          (rgbDeOn_64 DictDecoder.next)
    · rw [Proc.bind_err h1, Proc.bind_err h1]
    · rw [Proc.bind_panic h1, Proc.bind_panic h1]
  | hufman => exact hh
  | zip z =>
    have e : ∀ {σ : Type} (next : Rd σ UInt8), rebuildImageOn 64 next = rebuildImage next := by
      intro σ next
      unfold rebuildImageOn
      rw [rgbSerOn_64]
      rfl
    cases z with
    | dict => exact congrArg (borrowing zipDictDecode fun s => s.encoded) (e DictDecoder.next)
    | back => exact congrArg (borrowing (Back.zipBackDecode Back.ringSize) fun s => s.iter) (e Back.Decoder.next)

theorem points_le (xs : List ColorPos) : xs.length ≤ (xs.flatMap SerSpec.bytes).length := by
  induction xs with
  | nil => exact Nat.le_refl _
  | cons x xs ih =>
    rw [List.flatMap_cons, List.length_append, List.length_cons]
    have : 1 ≤ (SerSpec.bytes x).length := by
      show 1 ≤ (SerSpec.bytes x.x ++ _).length
      rw [List.length_append]
      have : (SerSpec.bytes x.x).length = 4 := rfl
      omega
    omega

theorem hufmanDecodeOn_keeps {w : Nat} (hw : 2 ≤ w) : Keeps hufmanDecodeFrom (hufmanDecodeOn w) :=
  Keeps.bind (Keeps.refl _) fun _ =>
    Keeps.bind (fun l _ _ h => Keeps.tree (i := inferInstanceAs (Ser (Rgb UInt8))) (i' := rgbSerOn w)
      (rgbDeOn_keeps hw listNext) (l.length + 1) _ _ _ h) fun _ => Keeps.refl _

/-- **C128.** If a decoder of a 64-bit target decodes some bytes, then so does that of a target with a narrower `usize`, to the
same picture and the same position of the reader.  The exception is hilbert(zip). -/
theorem C128_same {w : Nat} (hw : 2 ≤ w) (p : Setup) {c : AnyCodec} (hc : c ≠ .hilbert .zip) {l r : List UInt8}
    (hl : l.length < 2 ^ w) {img : RgbImage} (h : c.decodeFrom p l = (.ok img, r)) :
    c.decodeOn w p l = (.ok img, r) := by
  cases c with
  | clusterColors n => exact hufmanDecodeOn_keeps hw _ _ _ h
  | voronoi n =>
    obtain ⟨d, l1, h1, k1⟩ := bind_ok_inv h
    obtain ⟨im, l1', h2, k2⟩ := bind_ok_inv k1
    obtain ⟨n, l2, h3, k3⟩ := bind_ok_inv k2
    obtain ⟨ps, l3, h4, k4⟩ := bind_ok_inv k3
    have hn : n.val.toNat < 2 ^ w := by
      have e1 := (Settled.de.suffix h1).length_le
      have e2 : l1' = l1 := by
        rcases hh : RgbImage.new d.1 d.2 with _ | im' <;> rw [hh] at h2 <;> cases h2
        rfl
      subst e2
      have e3 := (Settled.de.suffix h3).length_le
      obtain ⟨e4, -, e5⟩ := readN_canon h4
      have e6 := points_le ps
      have e7 := congrArg List.length e5
      rw [List.length_append] at e7
      omega
    obtain ⟨n', l2', h3, h6⟩ := bind_ok_inv h3
    cases h6
    have h5 : usizeDeOn w listNext l1' = (.ok n'.toNat, l2) := by
      unfold usizeDeOn
      rw [Proc.bind_ok h3, Nat.mod_eq_of_lt hn]
      rfl
    have h7 := Keeps.readN (i := inferInstanceAs (Ser ColorPos)) (i' := colorPosSerOn w)
      (colorPosDeOn_keeps hw listNext) _ _ _ _ h4
    simp only [AnyCodec.decodeOn]
    unfold voronoiDecodeOn
    rw [Proc.bind_ok h1]
    refine (Proc.bind_ok h2).trans ?_
    exact (Proc.bind_ok h5).trans ((Proc.bind_ok h7).trans k4)
  | delta => exact h
  | hilbert m =>
    cases m with
    | rle d =>
      exact Keeps.bind (Keeps.refl _) (fun d => Keeps.borrowing
        (Keeps.of_panicOr (decodeAny_or p.scan (rleNextOn_or hw) d)) _ _) _ _ _ h
    | zip => exact absurd rfl hc
  | hufman => exact hufmanDecodeOn_keeps hw _ _ _ h
  | zip z =>
    have e : ∀ {σ : Type} (next : Rd σ UInt8), Keeps (rebuildImage next) (rebuildImageOn w next) := fun next =>
      Keeps.bind (Keeps.refl _) fun _ => Keeps.bind (Keeps.refl _) fun _ =>
        Keeps.bind (Keeps.readN (i := inferInstanceAs (Ser (Rgb UInt8))) (i' := rgbSerOn w) (rgbDeOn_keeps hw next) _) fun _ => Keeps.refl _
    cases z with
    | dict => exact Keeps.borrowing (e _) _ _ _ _ _ h
    | back => exact Keeps.borrowing (e _) _ _ _ _ _ h

theorem paint_keeps {σ : Type} {next next' : Rd σ (Rgb UInt8)} (hk : Keeps next next') {e : σ} (cs : List (Nat × Nat))
    (img : RgbImage) {s : σ} {xs : List (Rgb UInt8)} (hl : xs.length = cs.length) (h : Reaches next e s xs) :
    paint next' cs img s = paint next cs img s := by
  induction cs generalizing img s xs with
  | nil => rfl
  | cons c cs ih =>
    obtain ⟨x, y⟩ := c
    cases xs with
    | nil => simp at hl
    | cons a xs =>
      obtain ⟨s', h1, h2⟩ := h
      rw [paint, paint, h1, hk _ _ _ h1]
      simp only
      cases img.put x y a with
      | none => rfl
      | some img' => exact ih img' (by simpa using hl) h2

/-- **C128**, own files: what an encoder of a 64-bit target has written, with any codec, is decoded to the same picture on
every target that can count the bytes. -/
theorem C128_written {w : Nat} (hw : 2 ≤ w) {p : Setup} (hp : p.Lawful) (hsort : IsSort p.out.sort) {c : AnyCodec}
    {file : List UInt8} {out : RgbImage} (hf : Written p c file out) (rest : List UInt8)
    (hl : (file ++ rest).length < 2 ^ w) : c.decodeOn w p (file ++ rest) = (.ok out, rest) := by
  obtain ⟨fuel, img, m, hs, ha, hm, hb, hd⟩ := hf
  have h1 := C126_left hp hsort hs ha hm hb rest
  rw [hd] at h1
  by_cases hc : c = .hilbert .zip
  · subst hc
    rw [← h1]
    cases hm
    have hlen : (colorsAlong p.scan img).length = (p.scan img.width.toNat img.height.toNat).length := by
      rw [colorsAlong, List.length_map]
    obtain ⟨syms, hpar, he⟩ := hilbertEncode_zip p.out.fl hs
    rw [he.bytesOf] at hb
    cases hb
    have h0 := meaning_more oneByteSeqs (symBytes syms) rest
    have h2 := dict_stops (symBytes syms ++ rest)
    rw [hpar.meaning goodDict_start.le] at h0
    obtain ⟨q, hq⟩ := h0
    simp only at hq
    rw [← hq] at h2
    obtain ⟨e, h3, h4⟩ := dict_reaches hpar goodDict_start.le rest _ (decInv_new _) rfl rfl
    have h5 := paint_keeps (rgbDeOn_keeps hw DictDecoder.next) (p.scan img.width.toNat img.height.toNat)
      { width := img.width, height := img.height
        pixels := List.replicate (img.width.toNat * img.height.toNat) black } hlen (deser_reaches _ h2 h4)
    simp only [AnyCodec.decodeFrom, AnyCodec.decodeOn]
    unfold hilbertDecodeFrom hilbertDecodeOn
    rw [List.append_assoc, Proc.bind_ok (LawfulSer.de_bytes _ (dims_valid img.width img.height) _),
      Proc.bind_ok (LawfulSer.de_bytes _ (dims_valid img.width img.height) _)]
    simp only [borrowing, decodeAny_eq p.scan _ img ha]
    rw [h5]
    rfl
  · exact C128_same hw p hc hl h1

/-- **C128**, colours: what is read as a colour: a length that is 3 modulo 2ʷ, and three bytes.  For 64 bits this is one way
to write each colour, for 32 bits there are 2³² of them. -/
theorem C128_colours {w : Nat} (hw : 2 ≤ w) (l r : List UInt8) (c : Rgb UInt8) :
    rgbDeOn w listNext l = (.ok c, r) ↔
      ∃ n : UInt64, n.toNat % 2 ^ w = 3 ∧ l = SerSpec.bytes n ++ ([c.r, c.g, c.b] ++ r) := by
  constructor
  · intro h
    obtain ⟨vec, s1, h1, h2⟩ := bind_ok_inv h
    obtain ⟨k, s2, h3, h4⟩ := bind_ok_inv h1
    obtain ⟨n, s3, h5, h6⟩ := bind_ok_inv h3
    obtain ⟨h6, h7⟩ := Prod.mk.inj h6
    obtain ⟨-, e0⟩ := LawfulSer.canon _ _ _ h5
    obtain ⟨e1, -, e2⟩ := readN_canon h4
    have e3 := Ret.ok.inj h6
    clear h h1 h3 h4 h5 h6
    match vec, h2, e1, e2 with
    | [a, b, d], h2, e1, e2 =>
      cases h2
      exact ⟨n, e3.trans e1.symm, by rw [e0, h7, e2]; rfl⟩
    | [], h2, _, _ => cases h2
    | [_], h2, _, _ => cases h2
    | [_, _], h2, _, _ => cases h2
    | _ :: _ :: _ :: _ :: _, h2, _, _ => cases h2
  · rintro ⟨n, hn, rfl⟩
    have h1 : usizeDeOn w listNext (SerSpec.bytes n ++ ([c.r, c.g, c.b] ++ r)) = (.ok 3, [c.r, c.g, c.b] ++ r) := by
      unfold usizeDeOn
      rw [Proc.bind_ok (LawfulSer.de_bytes n trivial _), hn]
      rfl
    have h2 : vecDeOn w listNext (SerSpec.bytes n ++ ([c.r, c.g, c.b] ++ r)) = (.ok [c.r, c.g, c.b], r) :=
      (Proc.bind_ok h1).trans rfl
    exact (Proc.bind_ok h2).trans rfl

/-- One byte as a symbol of zip-dict. -/
def asSymbols (l : List UInt8) : List UInt8 := l.flatMap fun b => [b, 0]

/-- The colour (7, 8, 9) with the length 2⁶³ + 3 in front of it. -/
def longRgb : List UInt8 := [3, 0, 0, 0, 0, 0, 0, 128, 7, 8, 9]

/-- A file of one pixel for each codec, with the colour written like that, and the number of points of voronoi too. -/
def longFile : AnyCodec → List UInt8
  | .clusterColors _ => [1, 0, 0, 0, 1, 0, 0, 0, 0] ++ longRgb
  | .voronoi _ => [1, 0, 0, 0, 1, 0, 0, 0] ++ [1, 0, 0, 0, 0, 0, 0, 128] ++ [0, 0, 0, 0, 0, 0, 0, 0] ++ longRgb
  | .delta => []
  | .hilbert (.rle _) => [1, 0, 0, 0, 1, 0, 0, 0, 1] ++ longRgb
  | .hilbert .zip => [1, 0, 0, 0, 1, 0, 0, 0] ++ asSymbols longRgb ++ [255, 255]
  | .hufman => [1, 0, 0, 0, 1, 0, 0, 0, 0] ++ longRgb
  | .zip .dict => asSymbols ([1, 0, 0, 0, 1, 0, 0, 0] ++ longRgb) ++ [255, 255]
  | .zip .back => [19, 0] ++ [1, 0, 0, 0, 1, 0, 0, 0] ++ longRgb


/-- The picture that narrow targets see in it. -/
def longPicture : RgbImage := { width := 1, height := 1, pixels := [⟨7, 8, 9⟩] }

theorem scan_one {scan : Scan} (h : VisitsOnce scan 1 1) : scan 1 1 = [(0, 0)] :=
  List.perm_singleton.mp h

theorem hilbertDecodeOn_scan {w : Nat} {scan : Scan} (hs : VisitsOnce scan 1 1) (m : CompressionMethod) (l : List UInt8) :
    hilbertDecodeOn w scan m ([1, 0, 0, 0, 1, 0, 0, 0] ++ l) = hilbertDecodeOn w cells m ([1, 0, 0, 0, 1, 0, 0, 0] ++ l) := by
  have h1 : (de listNext ([1, 0, 0, 0, 1, 0, 0, 0] ++ l) : Ret Unit (UInt32 × UInt32) × List UInt8) = (.ok (1, 1), l) :=
    LawfulSer.de_bytes ((1, 1) : UInt32 × UInt32) (dims_valid 1 1) l
  have h2 : ∀ {σ : Type} (next : Rd σ (Rgb UInt8)), decodeAny scan next (1, 1) = decodeAny cells next (1, 1) := by
    intro σ next
    unfold decodeAny
    rw [show scan ((1, 1) : UInt32 × UInt32).1.toNat ((1, 1) : UInt32 × UInt32).2.toNat = [(0, 0)] from scan_one hs]
    rfl
  unfold hilbertDecodeOn
  rw [Proc.bind_ok h1, Proc.bind_ok h1, h2, h2]

/-- **C128**, narrow targets accept more: for every codec but delta there is a file that every narrower target decodes and
that a 64-bit target does not decode to this picture; but for hilbert(zip), it does not decode it at all. -/
theorem C128_more {w : Nat} (h2 : 2 ≤ w) (h64 : w < 64) {p : Setup} (hs : VisitsOnce p.scan 1 1) {c : AnyCodec}
    (hc : c ≠ .delta) :
    c.decodeOn w p (longFile c) = (.ok longPicture, []) ∧
      ∀ img r, c.decodeFrom p (longFile c) = (.ok img, r) → c = .hilbert .zip ∧ img ≠ longPicture := by
  have huf : hufmanDecodeOn w (longFile .hufman) = (.ok longPicture, []) :=
    (by decide +kernel : ∀ w ∈ List.range' 2 62, hufmanDecodeOn w (longFile .hufman) = (.ok longPicture, []))
      w (by simp; omega)
  have huf' : (hufmanDecodeOn 64 (longFile .hufman)).1 = .err () := by decide +kernel
  rw [← C128_wide]
  cases c with
  | clusterColors n => exact ⟨huf, fun img r h => by
      have := congrArg Prod.fst h
      cases huf'.symm.trans this⟩
  | voronoi n =>
    have h := (by decide +kernel : ∀ chk, (∀ w ∈ List.range' 2 62, voronoiDecodeOn w chk (longFile (.voronoi 0)) = (.ok longPicture, [])) ∧ (voronoiDecodeOn 64 chk (longFile (.voronoi 0))).1 = .err ()) p.chk
    exact ⟨h.1 w (by simp; omega), fun img r k => by cases h.2.symm.trans (congrArg Prod.fst k)⟩
  | delta => exact absurd rfl hc
  | hilbert m =>
    cases m with
    | rle d =>
      have h : (∀ w ∈ List.range' 2 62, hilbertDecodeOn w cells (.rle (.fin 0)) (longFile (.hilbert (.rle (.fin 0)))) = (.ok longPicture, [])) ∧ (hilbertDecodeOn 64 cells (.rle (.fin 0)) (longFile (.hilbert (.rle (.fin 0))))).1 = .panic := by
        decide +kernel
      have e : ∀ w, (AnyCodec.hilbert (.rle d)).decodeOn w p (longFile (.hilbert (.rle d))) = hilbertDecodeOn w cells (.rle (.fin 0)) (longFile (.hilbert (.rle (.fin 0)))) := by
        intro w
        exact hilbertDecodeOn_scan hs (.rle d) (1 :: longRgb)
      rw [e, e]
      exact ⟨h.1 w (by simp; omega), fun img r k => by cases h.2.symm.trans (congrArg Prod.fst k)⟩
    | zip =>
      have h : (∀ w ∈ List.range' 2 62, hilbertDecodeOn w cells .zip (longFile (.hilbert .zip)) = (.ok longPicture, [])) ∧ (hilbertDecodeOn 64 cells .zip (longFile (.hilbert .zip))).1 = .ok { longPicture with pixels := [⟨0, 0, 0⟩] } := by
        decide +kernel
      have e : ∀ w, (AnyCodec.hilbert .zip).decodeOn w p (longFile (.hilbert .zip)) = hilbertDecodeOn w cells .zip (longFile (.hilbert .zip)) := by
        intro w
        exact hilbertDecodeOn_scan hs .zip (asSymbols longRgb ++ [255, 255])
      rw [e, e]
      refine ⟨h.1 w (by simp; omega), fun img r k => ⟨rfl, ?_⟩⟩
      cases h.2.symm.trans (congrArg Prod.fst k)
      decide
  | hufman => exact ⟨huf, fun img r h => by
      have := congrArg Prod.fst h
      cases huf'.symm.trans this⟩
  | zip z =>
    cases z with
    | dict =>
      have h : (∀ w ∈ List.range' 2 62, zipDecodeOn w .dict (longFile (.zip .dict)) = (.ok longPicture, [])) ∧ (zipDecodeOn 64 .dict (longFile (.zip .dict))).1 = .err () := by
        decide +kernel
      exact ⟨h.1 w (by simp; omega), fun img r k => by cases h.2.symm.trans (congrArg Prod.fst k)⟩
    | back =>
      have h : (∀ w ∈ List.range' 2 62, zipDecodeOn w .back (longFile (.zip .back)) = (.ok longPicture, [])) ∧ (zipDecodeOn 64 .back (longFile (.zip .back))).1 = .err () := by
        decide +kernel
      exact ⟨h.1 w (by simp; omega), fun img r k => by cases h.2.symm.trans (congrArg Prod.fst k)⟩

/-- The second list is the first one with some bits cleared. -/
def Cleared : List UInt8 → List UInt8 → Prop
  | [], [] => True
  | a :: l, b :: m => a &&& b = b ∧ Cleared l m
  | _, _ => False

namespace Cleared

theorem refl : ∀ l, Cleared l l
  | [] => trivial
  | _ :: l => ⟨UInt8.and_self, refl l⟩

theorem append {a b c d : List UInt8} (h : Cleared a b) (h' : Cleared c d) : Cleared (a ++ c) (b ++ d) := by
  induction a generalizing b with
  | nil =>
    cases b with
    | nil => exact h'
    | cons _ _ => cases h
  | cons x a ih =>
    cases b with
    | nil => cases h
    | cons y b => exact ⟨h.1, ih h.2⟩

theorem map {f g : Nat → UInt8} (h : ∀ i, f i &&& g i = g i) : ∀ l : List Nat, Cleared (l.map f) (l.map g)
  | [] => trivial
  | i :: l => ⟨h i, map h l⟩

theorem le (k n w : Nat) : Cleared (Spec.le k n) (Spec.le k (n % 2 ^ w)) := by
  refine map (fun i => ?_) _
  have h1 : n &&& n % 2 ^ w = n % 2 ^ w := by
    rw [← Nat.and_two_pow_sub_one_eq_mod, ← Nat.and_assoc, Nat.and_self]
  have h2 : ∀ m, m / 256 ^ i = m >>> (8 * i) := by
    intro m
    rw [Nat.shiftRight_eq_div_pow, Nat.pow_mul]
  unfold byteAt
  rw [← UInt8.ofNat_and, h2, h2, ← Nat.shiftRight_and_distrib, h1]

end Cleared

/-- What the reader takes is the form `b` of the value, but for bits that are set in addition. -/
def Loose {α : Type} (d : Rd (List UInt8) α) (b : α → List UInt8) : Prop :=
  ∀ l a r, d l = (.ok a, r) → ∃ t, l = t ++ r ∧ Cleared t (b a)

theorem Loose.de {α : Type} [Ser α] [SerSpec α] [LawfulSer α] : Loose (de listNext : Rd (List UInt8) α) bytes :=
  fun l a r h => ⟨_, (LawfulSer.canon l a r h).2, .refl _⟩

theorem Loose.readN {α : Type} {i : Ser α} {b : α → List UInt8} (h : Loose (i.de listNext) b) :
    ∀ n, Loose (@Cniic.readN α _ i listNext n) fun xs => xs.flatMap b
  | 0, l, xs, r, he => by
    cases he
    exact ⟨[], rfl, trivial⟩
  | n + 1, l, xs, r, he => by
    obtain ⟨a, s1, h1, h2⟩ := bind_ok_inv he
    obtain ⟨as, s2, h3, h4⟩ := bind_ok_inv h2
    cases h4
    obtain ⟨t1, rfl, c1⟩ := h _ _ _ h1
    obtain ⟨t2, rfl, c2⟩ := Loose.readN h n _ _ _ h3
    exact ⟨t1 ++ t2, (List.append_assoc ..).symm, c1.append c2⟩

theorem rgbDeOn_loose (w : Nat) : Loose (rgbDeOn w listNext) bytes := by
  intro l c r h
  obtain ⟨vec, s1, h1, h2⟩ := bind_ok_inv h
  obtain ⟨k, s2, h3, h4⟩ := bind_ok_inv h1
  obtain ⟨n, s3, h5, h6⟩ := bind_ok_inv h3
  obtain ⟨h6, h7⟩ := Prod.mk.inj h6
  obtain ⟨-, e0⟩ := LawfulSer.canon _ _ _ h5
  obtain ⟨e1, -, e2⟩ := readN_canon h4
  have e3 := Ret.ok.inj h6
  clear h h1 h3 h4 h5 h6
  match vec, h2, e1, e2 with
  | [a, b, d], h2, e1, e2 =>
    cases h2
    refine ⟨bytes n ++ [a, b, d], by rw [e0, h7, e2, List.append_assoc]; rfl, ?_⟩
    have h := Cleared.le 8 n.toNat w
    rw [e3, ← e1] at h
    have e4 : bytes (⟨a, b, d⟩ : Rgb UInt8) = Spec.le 8 [a, b, d].length ++ [a, b, d] := by
      show [3, 0, 0, 0, 0, 0, 0, 0] ++ [a] ++ [b] ++ [d] = Spec.le 8 3 ++ [a, b, d]
      rw [show Spec.le 8 3 = [3, 0, 0, 0, 0, 0, 0, 0] by decide]
      rfl
    rw [e4]
    exact h.append (.refl [a, b, d])
  | [], h2, _, _ => cases h2
  | [_], h2, _, _ => cases h2
  | [_, _], h2, _, _ => cases h2
  | _ :: _ :: _ :: _ :: _, h2, _, _ => cases h2

theorem treeOn_loose (w : Nat) :
    ∀ n, Loose (@BinTrie.deFuel (Rgb UInt8) _ (rgbSerOn w) listNext n) treeBytes
  | 0, l, t, r, h => by cases h
  | n + 1, l, t, r, h => by
    obtain ⟨d, s1, h1, h2⟩ := bind_ok_inv h
    obtain ⟨t0, rfl, c0⟩ := Loose.de _ _ _ h1
    by_cases h0 : d = 0
    · subst h0
      obtain ⟨v, s2, h3, h4⟩ := bind_ok_inv h2
      cases h4
      obtain ⟨t1, rfl, c1⟩ := rgbDeOn_loose w _ _ _ h3
      exact ⟨t0 ++ t1, (List.append_assoc ..).symm, c0.append c1⟩
    · simp only [if_neg h0] at h2
      by_cases h1 : d = 1
      · subst h1
        obtain ⟨x, s2, h3, h4⟩ := bind_ok_inv h2
        obtain ⟨y, s3, h5, h6⟩ := bind_ok_inv h4
        cases h6
        obtain ⟨t1, rfl, c1⟩ := treeOn_loose w n _ _ _ h3
        obtain ⟨t2, rfl, c2⟩ := treeOn_loose w n _ _ _ h5
        exact ⟨t0 ++ (t1 ++ t2), by simp only [List.append_assoc], c0.append (c1.append c2)⟩
      · simp only [if_neg h1] at h2
        cases h2

theorem treeValid_rgb (t : BinTrie (Rgb UInt8)) : TreeValid t := fun _ _ => ⟨trivial, trivial, trivial⟩

theorem hufmanDecodeOn_only {w : Nat} {l r : List UInt8} {img : RgbImage} (h : hufmanDecodeOn w l = (.ok img, r)) :
    ∃ t t', l = t ++ r ∧ Cleared t t' ∧ hufmanDecodeFrom (t' ++ r) = (.ok img, r) := by
  obtain ⟨d, l1, h1, k1⟩ := bind_ok_inv h
  obtain ⟨t, l2, h2, k2⟩ := bind_ok_inv k1
  obtain ⟨u, e2⟩ : r <:+ l2 :=
    Settled.suffix (k := True) (.bind (fill_settled _ _) fun _ => .pure _) k2
  have hs : Settled True (createImageBufferStandard listNext) := .bind .de fun _ => .bind (.orPanic _) fun _ => .pure _
  obtain ⟨t0, rfl⟩ := hs.suffix h1
  obtain ⟨r', e3, h3⟩ := hs.cut h1 (Nat.le_refl _)
  obtain rfl := List.self_eq_append_left.mp e3
  obtain ⟨t1, rfl, c1⟩ := treeOn_loose w _ _ _ _ h2
  refine ⟨t0 ++ (t1 ++ u), t0 ++ (treeBytes t ++ u), by simp only [List.append_assoc, e2], (Cleared.refl t0).append (c1.append (.refl u)), ?_⟩
  have h4 := hs.extend h3 trivial (treeBytes t ++ l2)
  have h5 := de_tree t (treeValid_rgb t) l2
  simp only [List.append_assoc, e2]
  exact (Proc.bind_ok h4).trans ((Proc.bind_ok h5).trans k2)

theorem colorPosDeOn_loose (w : Nat) : Loose ((colorPosSerOn w).de listNext) bytes := by
  intro l c r h
  obtain ⟨x, s1, h1, h2⟩ := bind_ok_inv h
  obtain ⟨y, s2, h3, h4⟩ := bind_ok_inv h2
  obtain ⟨z, s3, h5, h6⟩ := bind_ok_inv h4
  cases h6
  obtain ⟨t1, rfl, c1⟩ := Loose.de _ _ _ h1
  obtain ⟨t2, rfl, c2⟩ := Loose.de _ _ _ h3
  obtain ⟨t3, rfl, c3⟩ := rgbDeOn_loose w _ _ _ h5
  exact ⟨t1 ++ t2 ++ t3, by simp only [List.append_assoc], (c1.append c2).append c3⟩

theorem voronoiDecodeOn_only {w : Nat} {chk : Bool} {l r : List UInt8} {img : RgbImage}
    (h : voronoiDecodeOn w chk l = (.ok img, r)) :
    ∃ t t', l = t ++ r ∧ Cleared t t' ∧ voronoiDecodeFrom chk (t' ++ r) = (.ok img, r) := by
  obtain ⟨d, l1, h1, k1⟩ := bind_ok_inv h
  obtain ⟨im, l1', h2, k2⟩ := bind_ok_inv k1
  obtain ⟨n, l2, h3, k3⟩ := bind_ok_inv k2
  obtain ⟨ps, l3, h4, k4⟩ := bind_ok_inv k3
  obtain ⟨px, l4, h5, k5⟩ := bind_ok_inv k4
  have e1 : RgbImage.new d.1 d.2 = some im ∧ l1' = l1 := by
    rcases hh : RgbImage.new d.1 d.2 with _ | im' <;> rw [hh] at h2 <;> cases h2
    exact ⟨rfl, rfl⟩
  obtain ⟨e1, rfl⟩ := e1
  obtain ⟨n', l2', h3, h6⟩ := bind_ok_inv h3
  cases h6
  obtain ⟨e2, rfl⟩ : optMap (fun i => pixelColor chk ps (UInt32.ofNat (i % d.1.toNat)) (UInt32.ofNat (i / d.1.toNat)))
      (List.range (d.1.toNat * d.2.toNat)) = some px ∧ l3 = l4 := by
    rcases hh : optMap (fun i => pixelColor chk ps (UInt32.ofNat (i % d.1.toNat)) (UInt32.ofNat (i / d.1.toNat)))
      (List.range (d.1.toNat * d.2.toNat)) with _ | px' <;> rw [hh] at h5 <;> cases h5
    exact ⟨rfl, rfl⟩
  obtain ⟨k5, rfl⟩ := Prod.mk.inj k5
  cases k5
  obtain ⟨-, rfl⟩ := LawfulSer.canon _ _ _ h1
  obtain ⟨-, rfl⟩ := LawfulSer.canon _ _ _ h3
  obtain ⟨t, rfl, c⟩ := Loose.readN (colorPosDeOn_loose w) _ _ _ _ h4
  have e3 := @readN_length _ _ (colorPosSerOn w) _ _ _ _ _ h4
  have hlt : n'.toNat % 2 ^ w < 2 ^ 64 := Nat.lt_of_le_of_lt (Nat.mod_le _ _) n'.toNat_lt
  have e4 : (UInt64.ofNat (n'.toNat % 2 ^ w)).toNat = n'.toNat % 2 ^ w := UInt64.toNat_ofNat_of_lt' hlt
  refine ⟨bytes d ++ (bytes n' ++ t), bytes d ++ (bytes (Usize.mk (UInt64.ofNat (n'.toNat % 2 ^ w))) ++ ps.flatMap bytes),
    by simp only [List.append_assoc], (Cleared.refl _).append (Cleared.append ?_ c), ?_⟩
  · have := Cleared.le 8 n'.toNat w
    rw [← e4] at this
    exact this
  · have h7 : (de listNext (bytes d ++ (bytes (Usize.mk (UInt64.ofNat (n'.toNat % 2 ^ w))) ++ (ps.flatMap bytes ++ l3))) :
        Ret Unit (UInt32 × UInt32) × List UInt8) = (.ok d, _) := LawfulSer.de_bytes d (dims_valid d.1 d.2) _
    have h8 : (de listNext (bytes (Usize.mk (UInt64.ofNat (n'.toNat % 2 ^ w))) ++ (ps.flatMap bytes ++ l3)) :
        Ret Unit Usize × List UInt8) = (.ok ⟨UInt64.ofNat (n'.toNat % 2 ^ w)⟩, _) := LawfulSer.de_bytes _ trivial _
    have h9 : readN listNext (UInt64.ofNat (n'.toNat % 2 ^ w)).toNat (ps.flatMap bytes ++ l3) = (.ok ps, l3) := by
      rw [e4, ← e3]
      exact readN_bytes ps (fun _ _ => trivial) _
    simp only [List.append_assoc]
    unfold voronoiDecodeFrom
    rw [Proc.bind_ok h7]
    refine (Proc.bind_ok (a := im) (s' := _) (by rw [e1]; rfl)).trans ?_
    refine (Proc.bind_ok h8).trans ((Proc.bind_ok h9).trans ?_)
    exact (Proc.bind_ok h5).trans rfl

theorem rlePaint_only (w : Nat) : ∀ (cs : List (Nat × Nat)) (img im : RgbImage) (d d' : RleDecoder),
    paint (RleDecoder.nextOn w) cs img d = (.ok im, d') → ∃ t t', d.bytes = t ++ d'.bytes ∧ Cleared t t' ∧
      paint RleDecoder.next cs img { d with bytes := t' ++ d'.bytes } = (.ok im, d')
  | [], img, im, d, d', h => by
    cases h
    exact ⟨[], [], rfl, trivial, rfl⟩
  | (x, y) :: cs, img, im, d, d', h => by
    rw [paint] at h
    obtain ⟨bs, cc, n⟩ := d
    by_cases hn : n = 0
    · subst hn
      cases bs with
      | nil =>
        cases h
        exact ⟨[], [], rfl, trivial, rfl⟩
      | cons b bs =>
        by_cases hb : b > 0
        · rcases hc : rgbDeOn w listNext bs with ⟨c | _ | _, s⟩
          · have e : RleDecoder.nextOn w ⟨b :: bs, cc, 0⟩ = (.ok c, ⟨s, c, b - 1⟩) := by
              unfold RleDecoder.nextOn
              simp only [if_true, de_u8, if_pos hb, hc]
            rw [e] at h
            simp only at h
            rcases hp : img.put x y c with _ | img'
            · rw [hp] at h
              cases h
            · rw [hp] at h
              obtain ⟨t2, t2', h1, h2, h3⟩ := rlePaint_only w cs _ _ _ _ h
              obtain ⟨t1, rfl, c1⟩ := rgbDeOn_loose w _ _ _ hc
              simp only at h1
              refine ⟨b :: (t1 ++ t2), b :: (bytes c ++ t2'), by simp [h1], ⟨UInt8.and_self, c1.append h2⟩, ?_⟩
              rw [paint]
              have e' : RleDecoder.next ⟨b :: (bytes c ++ t2') ++ d'.bytes, cc, 0⟩ = (.ok c, ⟨t2' ++ d'.bytes, c, b - 1⟩) := by
                unfold RleDecoder.next
                rw [List.cons_append, List.append_assoc]
                simp only [if_true, de_u8, if_pos hb]
                have e2 : (de listNext (bytes c ++ (t2' ++ d'.bytes)) : Ret Unit (Rgb UInt8) × List UInt8) = (.ok c, t2' ++ d'.bytes) :=
                  LawfulSer.de_bytes c (rgb_valid c) _
                rw [e2]
              simp only at e' ⊢
              rw [e']
              simp only [hp]
              exact h3
          all_goals
            have e : RleDecoder.nextOn w ⟨b :: bs, cc, 0⟩ = (.panic, ⟨s, cc, b⟩) := by
              unfold RleDecoder.nextOn
              simp only [if_true, de_u8, if_pos hb, hc]
            rw [e] at h
            cases h
        · have e : RleDecoder.nextOn w ⟨b :: bs, cc, 0⟩ = (.panic, ⟨bs, cc, b⟩) := by
            unfold RleDecoder.nextOn
            simp only [if_true, de_u8, if_neg hb]
          rw [e] at h
          cases h
    · have e : RleDecoder.nextOn w ⟨bs, cc, n⟩ = (.ok cc, ⟨bs, cc, n - 1⟩) := by
        unfold RleDecoder.nextOn
        simp only [if_neg hn]
      rw [e] at h
      simp only at h
      rcases hp : img.put x y cc with _ | img'
      · rw [hp] at h
        cases h
      · rw [hp] at h
        obtain ⟨t2, t2', h1, h2, h3⟩ := rlePaint_only w cs _ _ _ _ h
        refine ⟨t2, t2', h1, h2, ?_⟩
        rw [paint]
        have e' : RleDecoder.next ⟨t2' ++ d'.bytes, cc, n⟩ = (.ok cc, ⟨t2' ++ d'.bytes, cc, n - 1⟩) := by
          unfold RleDecoder.next
          simp only [if_neg hn]
        simp only
        rw [e']
        simp only [hp]
        exact h3

/-- The codecs whose files are not compressed with one of the zip methods. -/
def AnyCodec.unzipped : AnyCodec → Bool
  | .hilbert .zip | .zip _ => false
  | _ => true

/-- **C128**, what narrow targets decode: apart from the zip methods, bytes that a narrower target decodes are, but for bits
that are set in addition, bytes that a 64-bit target decodes to the same picture, leaving the reader at the same position. -/
theorem C128_only {w : Nat} (p : Setup) {c : AnyCodec} (hc : c.unzipped = true) {l r : List UInt8} {img : RgbImage}
    (h : c.decodeOn w p l = (.ok img, r)) :
    ∃ t t', l = t ++ r ∧ Cleared t t' ∧ c.decodeFrom p (t' ++ r) = (.ok img, r) := by
  cases c with
  | clusterColors n => exact hufmanDecodeOn_only h
  | voronoi n => exact voronoiDecodeOn_only h
  | delta =>
    obtain ⟨t, rfl⟩ := (decodeFrom_settled p .delta).suffix h
    exact ⟨t, t, rfl, .refl t, h⟩
  | hilbert m =>
    cases m with
    | rle e =>
      obtain ⟨d, l1, h1, h2⟩ := bind_ok_inv h
      obtain ⟨h3, h4⟩ := Prod.mk.inj h2
      replace h4 : (decodeAny p.scan (RleDecoder.nextOn w) d (RleDecoder.new l1)).2.bytes = r := h4
      generalize hd : (decodeAny p.scan (RleDecoder.nextOn w) d (RleDecoder.new l1)).2 = d' at h4
      obtain ⟨im, s1, h5, h6⟩ := bind_ok_inv (show decodeAny p.scan (RleDecoder.nextOn w) d (RleDecoder.new l1) = (.ok img, d') from Prod.ext h3 hd)
      have e1 : RgbImage.new d.1 d.2 = some im ∧ s1 = RleDecoder.new l1 := by
        rcases hh : RgbImage.new d.1 d.2 with _ | im' <;> rw [hh] at h5 <;> cases h5
        exact ⟨rfl, rfl⟩
      obtain ⟨e1, rfl⟩ := e1
      obtain ⟨t, t', h7, h8, h9⟩ := rlePaint_only w _ _ _ _ _ h6
      rw [h4] at h7 h9
      obtain ⟨-, rfl⟩ := LawfulSer.canon _ _ _ h1
      refine ⟨bytes d ++ t, bytes d ++ t', ?_, (Cleared.refl _).append h8, ?_⟩
      · rw [List.append_assoc, ← h7]
        rfl
      · rw [List.append_assoc]
        refine (Proc.bind_ok (LawfulSer.de_bytes d (dims_valid d.1 d.2) (t' ++ r))).trans ?_
        have h10 : decodeAny p.scan RleDecoder.next d (RleDecoder.new (t' ++ r)) = _ :=
          (Proc.bind_ok (a := im) (s' := _) (by rw [e1]; rfl)).trans h9
        show ((decodeAny p.scan RleDecoder.next d (RleDecoder.new (t' ++ r))).1, (decodeAny p.scan RleDecoder.next d (RleDecoder.new (t' ++ r))).2.bytes) = _
        rw [h10, h4]
    | zip => cases hc
  | hufman => exact hufmanDecodeOn_only h
  | zip z => cases hc

/-- What the reader finds in the stream `next`, the other one finds in a list of the bytes that it took from `next`. -/
def Spelt {σ α : Type} (next : Rd σ UInt8) (d : Rd σ α) (d' : Rd (List UInt8) α) : Prop :=
  ∀ s a s', d s = (.ok a, s') → ∃ t, Reaches next s' s t ∧ ∀ r, d' (t ++ r) = (.ok a, r)

namespace Spelt

variable {σ : Type} {next : Rd σ UInt8}

theorem one : Spelt next next listNext := fun _ a _ h => ⟨[a], ⟨_, h, rfl⟩, fun _ => rfl⟩

theorem pure {α : Type} (a : α) : Spelt next (Pure.pure a) (Pure.pure a) := fun s b s' h => by
  cases h
  exact ⟨[], rfl, fun _ => rfl⟩

theorem none {α : Type} : Spelt next (Rd.none : Rd σ α) Rd.none := fun s b s' h => by cases h

theorem orPanic {α : Type} (o : Option α) : Spelt next (Cniic.orPanic o) (Cniic.orPanic o) := by
  cases o with
  | none => intro s b s' h; cases h
  | some a => exact pure a

theorem bind {α β : Type} {d : Rd σ α} {d' : Rd (List UInt8) α} {f : α → Rd σ β} {f' : α → Rd (List UInt8) β}
    (h : Spelt next d d') (hf : ∀ a, Spelt next (f a) (f' a)) : Spelt next (d >>= f) (d' >>= f') := by
  intro s b s' hb
  obtain ⟨a, s1, h1, h2⟩ := bind_ok_inv hb
  obtain ⟨t1, r1, k1⟩ := h _ _ _ h1
  obtain ⟨t2, r2, k2⟩ := hf a _ _ _ h2
  refine ⟨t1 ++ t2, r1.trans r2, fun r => ?_⟩
  rw [List.append_assoc]
  exact (Proc.bind_ok (k1 _)).trans (k2 r)

theorem readBytes : ∀ n, Spelt next (Cniic.readBytes next n) (Cniic.readBytes listNext n)
  | 0 => pure _
  | n + 1 => bind one fun _ => bind (readBytes n) fun _ => pure _

theorem readN {α : Type} {i : Ser α} (h : Spelt next (i.de next) (i.de listNext)) :
    ∀ n, Spelt next (@Cniic.readN α _ i next n) (@Cniic.readN α _ i listNext n)
  | 0 => pure _
  | n + 1 => bind h fun _ => bind (readN h n) fun _ => pure _

theorem dims : Spelt next (de next : Rd σ (UInt32 × UInt32)) (de listNext) :=
  bind (bind (readBytes 4) fun _ => pure _) fun _ => bind (bind (readBytes 4) fun _ => pure _) fun _ => pure _

theorem rgb (w : Nat) : Spelt next (rgbDeOn w next) (rgbDeOn w listNext) :=
  bind (bind (bind (bind (readBytes 8) fun _ => pure _) fun _ => pure _) fun n =>
      readN (α := UInt8) one n) fun v =>
    match v with
    | [_, _, _] => pure _
    | [] => none
    | [_] => none
    | [_, _] => none
    | _ :: _ :: _ :: _ :: _ => none

theorem rebuild (w : Nat) : Spelt next (rebuildImageOn w next) (rebuildImageOn w listNext) :=
  bind dims fun _ => bind (orPanic _) fun _ => bind (readN (i := rgbSerOn w) (rgb w) _) fun _ => pure _

end Spelt

theorem rebuildOn_only {w : Nat} {t : List UInt8} {img : RgbImage} (h : rebuildImageOn w listNext t = (.ok img, [])) :
    ∃ t', Cleared t t' ∧ rebuildImage listNext t' = (.ok img, []) := by
  obtain ⟨d, l1, h1, k1⟩ := bind_ok_inv h
  obtain ⟨im, l1', h2, k2⟩ := bind_ok_inv k1
  obtain ⟨px, l2, h3, k3⟩ := bind_ok_inv k2
  cases k3
  have e1 : RgbImage.new d.1 d.2 = some im ∧ l1' = l1 := by
    rcases hh : RgbImage.new d.1 d.2 with _ | im' <;> rw [hh] at h2 <;> cases h2
    exact ⟨rfl, rfl⟩
  obtain ⟨e1, rfl⟩ := e1
  obtain ⟨-, rfl⟩ := LawfulSer.canon _ _ _ h1
  obtain ⟨t, rfl, c⟩ := Loose.readN (i := rgbSerOn w) (rgbDeOn_loose w) _ _ _ _ h3
  have e3 := @readN_length _ _ (rgbSerOn w) _ _ _ _ _ h3
  refine ⟨bytes d ++ px.flatMap bytes, (Cleared.refl _).append (by simpa using c), ?_⟩
  have h4 : readN listNext im.pixels.length (px.flatMap bytes ++ []) = (.ok px, []) := by
    rw [← e3]
    exact readN_bytes px (fun c _ => rgb_valid c) _
  rw [List.append_nil] at h4
  unfold rebuildImage
  refine (Proc.bind_ok (LawfulSer.de_bytes d (dims_valid d.1 d.2) _)).trans ?_
  refine (Proc.bind_ok (a := im) (s' := _) (by rw [e1]; rfl)).trans ?_
  exact (Proc.bind_ok h4).trans rfl

theorem zipOn_only {σ : Type} {w : Nat} {next : Rd σ UInt8} {start : List UInt8 → σ} {left : σ → List UInt8}
    {l r : List UInt8} {img : RgbImage} (h : borrowing start left (rebuildImageOn w next) l = (.ok img, r)) :
    ∃ e t t', Reaches next e (start l) t ∧ left e = r ∧ Cleared t t' ∧ rebuildImage listNext t' = (.ok img, []) := by
  obtain ⟨h1, h2⟩ := Prod.mk.inj h
  obtain ⟨t, h3, h4⟩ := Spelt.rebuild w _ _ _ (show rebuildImageOn w next (start l) = (.ok img, _) from Prod.ext h1 rfl)
  have h5 := h4 []
  rw [List.append_nil] at h5
  obtain ⟨t', h6, h7⟩ := rebuildOn_only h5
  exact ⟨_, t, t', h3, h2, h6, h7⟩

/-- **C128**, the zip codec: where a narrower target decodes a file, the decompressed bytes that it takes are, but for bits
that are set in addition, bytes from which a 64-bit target builds the same picture. -/
theorem C128_zip {w : Nat} (p : Setup) {l r : List UInt8} {img : RgbImage} :
    ((AnyCodec.zip .dict).decodeOn w p l = (.ok img, r) → ∃ e t t', Reaches DictDecoder.next e (zipDictDecode l) t ∧
      e.encoded = r ∧ Cleared t t' ∧ rebuildImage listNext t' = (.ok img, [])) ∧
    ((AnyCodec.zip .back).decodeOn w p l = (.ok img, r) →
      ∃ e t t', Reaches Back.Decoder.next e (Back.zipBackDecode Back.ringSize l) t ∧
      e.iter = r ∧ Cleared t t' ∧ rebuildImage listNext t' = (.ok img, [])) :=
  ⟨zipOn_only, zipOn_only⟩

namespace NarrowExamples
open AnyCodecExamples PositionExamples

/-- Files of the five exact codecs, with two more bytes after them, are decoded on a 32-bit target. -/
example : ∀ c ∈ [AnyCodec.delta, .hilbert (.rle (.fin 0)), .hilbert .zip, .hufman, .zip .dict],
    ∃ file, Written setup c file example43.toRgb ∧ ((file ++ [0, 7]).length < 2 ^ 32 →
      c.decodeOn 32 setup (file ++ [0, 7]) = (.ok example43.toRgb, [0, 7])) := by
  intro c hc
  obtain ⟨file, hf⟩ := written43 hc
  exact ⟨file, hf, fun hl => C128_written (by decide) setup_lawful sortByDist_isSort hf [0, 7] hl⟩

/-- A file that no encoder writes, with bits beyond the pixels, on a 16-bit target. -/
example : AnyCodec.decodeOn 16 setup .hufman [1, 0, 0, 0, 1, 0, 0, 0, 0, 3, 0, 0, 0, 0, 0, 0, 0, 1, 2, 3, 9] =
    (.ok { width := 1, height := 1, pixels := [⟨1, 2, 3⟩] }, [9]) :=
  C128_same (by decide) setup (by decide) (by decide) (by decide +kernel)

/-- The length 2³² + 3. -/
example : rgbDeOn 32 listNext [3, 0, 0, 0, 1, 0, 0, 0, 1, 2, 3, 9] = (.ok ⟨1, 2, 3⟩, [9]) :=
  (C128_colours (by decide) _ _ _).mpr ⟨4294967299, by decide, by decide⟩

/-- No colour on a 64-bit target. -/
example : ∀ c r, rgbDeOn 64 listNext [3, 0, 0, 0, 1, 0, 0, 0, 1, 2, 3, 9] ≠ (.ok c, r) := by
  intro c r h
  have : (rgbDeOn 64 listNext [3, 0, 0, 0, 1, 0, 0, 0, 1, 2, 3, 9]).1 = .err () := by rfl
  rw [h] at this
  cases this

/-- The file of the voronoi codec on a 16-bit target. -/
example : AnyCodec.decodeOn 16 setup (.voronoi 3) [1, 0, 0, 0, 1, 0, 0, 0, 1, 0, 0, 0, 0, 0, 0, 128, 0, 0, 0, 0, 0, 0, 0, 0,
    3, 0, 0, 0, 0, 0, 0, 128, 7, 8, 9] = (.ok { width := 1, height := 1, pixels := [⟨7, 8, 9⟩] }, []) :=
  (C128_more (by decide) (by decide) (p := setup) (.refl _) (by decide)).1

/-- The bits that make the length of `longRgb` too long are cleared. -/
example : Cleared longRgb [3, 0, 0, 0, 0, 0, 0, 0, 7, 8, 9] := by
  refine ⟨?_, ?_, ?_, ?_, ?_, ?_, ?_, ?_, ?_, ?_, ?_, trivial⟩ <;> decide

example : ¬ Cleared [3, 0] [4, 0] := fun h => absurd h.1 (by decide)

/-- Somewhere below the file that a 16-bit target decodes there is one that a 64-bit target decodes to the same picture. -/
example : ∃ t t', longFile (.hilbert (.rle (.fin 3))) = t ++ [] ∧ Cleared t t' ∧
    AnyCodec.decodeFrom setup (.hilbert (.rle (.fin 3))) (t' ++ []) = (.ok longPicture, []) :=
  C128_only (w := 16) setup rfl (C128_more (by decide) (by decide) (p := setup) (.refl _) (by decide)).1

/-- The same for what is compressed in a file of the zip codec. -/
example : ∃ e t t', Reaches Back.Decoder.next e (Back.zipBackDecode Back.ringSize (longFile (.zip .back))) t ∧
    e.iter = [] ∧ Cleared t t' ∧ rebuildImage listNext t' = (.ok longPicture, []) :=
  (C128_zip (w := 32) setup).2 (C128_more (by decide) (by decide) (p := setup) (.refl _) (by decide)).1

end NarrowExamples

end Cniic
