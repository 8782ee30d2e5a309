import Verif.Props.Decode
import Verif.Props.Sizes
import Verif.Spec.WrongCodec

/-!
# Proofs: reading files with another codec
-/

namespace Cniic
open Spec SerSpec Kmeans

/-! ## What files look like -/

/-- What follows the size in a file of the picture. -/
inductive Shape (img : Img) : Format → List UInt8 → Prop where
  | colors (t : BinTrie (Rgb UInt8)) (payload : List UInt8) : Shape img .colors (treeBytes t ++ payload)
  | differences (t : BinTrie SignedColor) (payload : List UInt8) : Shape img .differences (treeBytes t ++ payload)
  | runs (n : UInt8) (c : Rgb UInt8) (runs : List (UInt8 × Rgb UInt8)) : n ≠ 0 →
      Shape img .runs (runBytes (n, c) ++ runs.flatMap runBytes)
  | packed (cols : List (Rgb UInt8)) (syms : List UInt16) : cols ≠ [] → Parse oneByteSeqs (cols.flatMap bytes) syms →
      Shape img .packed (symBytes syms)
  | points (c : ColorPos) (cs : List ColorPos) : cs.length + 1 ≤ img.pixels.length →
      Shape img .points (le 8 (cs.length + 1) ++ (bytes c ++ cs.flatMap bytes))

theorem hufman_shape {p : Setup} (hp : p.Lawful) {img : Img} (hne : img.pixels ≠ []) :
    ∃ t payload, bytesOf (hufmanEncode p.heapRgb p.orderRgb img) =
        .ok (bytes (img.width, img.height) ++ (treeBytes t ++ payload)) ∧
      (symbols t).Nodup ∧ ∀ x, x ∈ symbols t ↔ x ∈ img.rgbPixels := by
  have hpx : img.rgbPixels ≠ [] := by simpa [Img.rgbPixels] using hne
  obtain ⟨enc, dec, payload, k, -, hnd, hmem, -, -, he, -⟩ :=
    encodeAll_spec p.heapRgb p.orderRgb hp.orderRgb img.rgbPixels hpx (fun x _ => rgb_valid x)
  exact ⟨dec, payload, (Emits.bind (anyWay_of_err (emits_dims img)) he).bytesOf, hnd, hmem⟩

theorem colorsAlong_ne {scan : Scan} {img : Img} (hs : VisitsOnce scan img.width.toNat img.height.toNat)
    (hne : img.pixels ≠ []) : colorsAlong scan img ≠ [] := by
  intro h
  have : (colorsAlong scan img).length = img.pixels.length := by
    rw [colorsAlong, List.length_map, linearize_length hs, ← img.size]
  rw [h] at this
  exact hne (List.length_eq_zero_iff.1 this.symm)

/-- The file of a codec whose format begins with the size. -/
theorem file_shape {p : Setup} (hp : p.Lawful) (hsort : IsSort p.out.sort) {fuel : Nat} {c : AnyCodec} {img : Img}
    (hc : c.format.sized = true) (ha : Addressable img) (hs : VisitsOnce p.scan img.width.toNat img.height.toNat)
    (hne : img.pixels ≠ []) {m : W Unit} {file : List UInt8} (hm : c.encode p fuel img = .ok m)
    (hb : bytesOf m = .ok file) : ∃ rest, file = bytes (img.width, img.height) ++ rest ∧ Shape img c.format rest := by
  cases c with
  | zip z => cases z <;> cases hc
  | hufman =>
    cases hm
    obtain ⟨t, payload, h, -⟩ := hufman_shape hp hne
    rw [h] at hb
    exact ⟨_, (Ret.ok.inj hb).symm, .colors t payload⟩
  | clusterColors n =>
    simp only [AnyCodec.encode, clusterColorsEncode] at hm
    obtain ⟨cl, hcl', hm⟩ := Ret.bind_ok.1 hm
    obtain ⟨red, hred, hm⟩ := Ret.bind_ok.1 hm
    split at hm
    · rename_i hlen
      cases hm
      have hdim : red.width = img.width ∧ red.height = img.height := by
        unfold reducedImg at hred
        rw [new_eq img ha] at hred
        simp only [Option.bind_eq_bind, Option.bind_some] at hred
        cases ho : optMap (lastLookup (reducedColors cl)) img.rgbPixels with
        | none => rw [ho] at hred; cases hred
        | some px => rw [ho] at hred; cases hred; exact ⟨rfl, rfl⟩
      by_cases hne : (red.toImg hlen).pixels = []
      · rw [C28_empty_image_panics p.heapRgb p.orderRgb hp.orderRgb _ hne] at hb
        cases hb
      · obtain ⟨t, payload, h, -⟩ := hufman_shape hp hne
        rw [h] at hb
        refine ⟨_, (Ret.ok.inj hb).symm.trans ?_, .colors t payload⟩
        show bytes (red.width, red.height) ++ _ = _
        rw [hdim.1, hdim.2]
    · cases hm
  | delta =>
    cases hm
    have hd := delta_ne hs hne
    obtain ⟨enc, dec, payload, k, -, -, -, -, -, he, -⟩ :=
      encodeAll_spec p.heapDiff p.orderDiff hp.orderDiff _ hd (fun x _ => signedColor_valid x)
    rw [deltaEncode_eq p.chk _ _ hs] at hb
    rw [(Emits.bind (anyWay_of_err (emits_dims img)) (f := fun _ => _) he).bytesOf] at hb
    exact ⟨_, (Ret.ok.inj hb).symm, .differences dec payload⟩
  | voronoi n =>
    obtain ⟨cl, -, hl, hperm, he⟩ := voronoi_file hsort hm
    rw [he.bytesOf] at hb
    have hn : n.toNat ≤ img.pixels.length := by
      by_cases h : n.toNat ≤ img.pixels.length
      · exact h
      · have h1 := hm.symm.trans (C49_voronoi (.inr (Nat.lt_of_not_le h)))
        cases h1
    have h0 : n ≠ 0 := by
      rintro rfl
      have h1 := hm.symm.trans (C49_voronoi (.inl rfl))
      cases h1
    have h0' : n.toNat ≠ 0 := fun e => h0 (UInt64.toNat_inj.1 e)
    have hl' : (cl.intoIter.map (·.1)).length = n.toNat := by rw [List.length_map, hl]
    revert hl' hb
    generalize cl.intoIter.map (·.1) = cs
    intro hb hl'
    cases cs with
    | nil => exact absurd hl'.symm h0'
    | cons c cs =>
      refine ⟨_, (Ret.ok.inj hb).symm.trans ?_, .points c cs (by simp at hl'; omega)⟩
      simp [voronoiBytes]
      rfl
  | hilbert me =>
    cases me with
    | zip =>
      cases hm
      obtain ⟨syms, hpar, he⟩ := zipDictEncode_spec ((colorsAlong p.scan img).flatMap bytes)
      rw [hilbertEncode_zip_eq p.out.fl hs, (Emits.bind (emits_dims img) (f := fun _ => _) he).bytesOf] at hb
      exact ⟨_, (Ret.ok.inj hb).symm, .packed _ syms (colorsAlong_ne hs hne) hpar⟩
    | rle d =>
      cases hm
      have hcne := colorsAlong_ne hs hne
      cases hd : d.isZero with
      | true =>
        obtain ⟨runs, h1, h2, -, he⟩ := hilbertEncode_exact p.out.fl hs hd
        rw [he.bytesOf] at hb
        cases runs with
        | nil => exact absurd h2.symm hcne
        | cons r runs =>
          refine ⟨_, (Ret.ok.inj hb).symm, .runs r.1 r.2 runs ?_⟩
          intro h
          have := h1 r (by simp)
          rw [h] at this
          exact absurd this (by decide)
      | false =>
        obtain ⟨groups, hg, he⟩ := hilbertEncode_approx hp.float hs hd
        rw [he.bytesOf] at hb
        revert hg hcne
        generalize colorsAlong p.scan img = cols
        intro hcne hg
        cases hg with
        | nil => exact absurd rfl hcne
        | @group g rest groups h1 h2 =>
          refine ⟨_, (Ret.ok.inj hb).symm, .runs _ _ _ ?_⟩
          intro h
          have h3 := congrArg UInt8.toNat h
          simp only [UInt8.toNat_ofNat', UInt8.toNat_ofNat] at h3
          have := List.length_pos_iff.2 h1
          omega

/-! ## What the readers find -/

section
variable {T : Type} [SerSpec T]

theorem treeBytes_head (t : BinTrie T) : ∃ l, treeBytes t = 0 :: l ∨ treeBytes t = 1 :: l := by
  cases t with
  | leaf v => exact ⟨_, .inl rfl⟩
  | branch l r => exact ⟨_, .inr rfl⟩

/-- The first byte of a code tree. -/
theorem treeIn_bad {a : UInt8} {l : List UInt8} (h0 : a ≠ 0) (h1 : a ≠ 1) : treeIn (T := T) (a :: l) = none := by
  apply treeIn_none
  intro t rest _ e
  obtain ⟨l', h | h⟩ := treeBytes_head t <;> rw [h, List.cons_append] at e <;> cases e <;> contradiction

/-- After a branch comes another tree. -/
theorem treeIn_bad_branch {a : UInt8} {l : List UInt8} (h0 : a ≠ 0) (h1 : a ≠ 1) : treeIn (T := T) (1 :: a :: l) = none := by
  apply treeIn_none
  intro t rest _ e
  cases t with
  | leaf v => cases e
  | branch x y =>
    obtain ⟨l', h | h⟩ := treeBytes_head x <;> rw [treeBytes, h] at e <;> cases e <;> contradiction

end

/-- A run where a tree should be. -/
theorem treeIn_run {T : Type} [SerSpec T] {n : UInt8} (h : n ≠ 0) (c : Rgb UInt8) (l : List UInt8) :
    treeIn (T := T) (runBytes (n, c) ++ l) = none := by
  by_cases h1 : n = 1
  · subst h1
    exact treeIn_bad_branch (a := 3) (by decide) (by decide)
  · exact treeIn_bad h h1

theorem rleColors_zero (l : List UInt8) : rleColors (0 :: l) = ([], false) := by
  unfold rleColors
  split
  · next h => cases h
  · next h => cases h; rfl
  · rfl

theorem rleColors_second {a b : UInt8} {l : List UInt8} (h : b ≠ 3) : rleColors (a :: b :: l) = ([], false) := by
  unfold rleColors
  split
  · next h => cases h
  · next e => cases e; exact absurd rfl h
  · rfl

/-- Nothing to paint, and a panic at the first attempt to read. -/
theorem paintedOr_panic {scan : Scan} {w h : UInt32} {cols : List (Rgb UInt8) × Bool}
    (hl : cols.1.length < w.toNat * h.toNat) (h2 : cols.2 = false) : paintedOr scan w h cols = .panic := by
  unfold paintedOr
  rw [if_neg (by rw [h2]; simp; omega)]

theorem rleColors_tree {T : Type} [SerSpec T] (t : BinTrie T) (l : List UInt8) : rleColors (treeBytes t ++ l) = ([], false) := by
  cases t with
  | leaf v => exact rleColors_zero _
  | branch x y =>
    obtain ⟨l', h | h⟩ := treeBytes_head x <;> rw [treeBytes, h] <;> exact rleColors_second (by decide)

theorem rleColors_third (a b c d : UInt8) (l : List UInt8) : (l.head? = some 3) → rleColors (a :: b :: c :: d :: l) = ([], false) := by
  intro h
  unfold rleColors
  split
  · next h => cases h
  · next e => cases e; cases h
  · rfl

/-- A sequence of coloured points read as runs. -/
theorem rleColors_points (n : Nat) (c : ColorPos) (l : List UInt8) :
    (rleColors (le 8 n ++ (bytes c ++ l))).2 = false ∧
      ((rleColors (le 8 n ++ (bytes c ++ l))).1 = [] ∨ 768 ≤ n ∧ (rleColors (le 8 n ++ (bytes c ++ l))).1.length ≤ 255) := by
  obtain ⟨x, y, ⟨r, g, b⟩⟩ := c
  have e : ∃ b0 b1 b2 b3 b4 b5 b6 b7 x0 x1 x2 x3 y0 y1 y2 y3 : UInt8, le 8 n ++ (bytes (⟨x, y, ⟨r, g, b⟩⟩ : ColorPos) ++ l) =
      b0 :: b1 :: b2 :: b3 :: b4 :: b5 :: b6 :: b7 :: x0 :: x1 :: x2 :: x3 :: y0 :: y1 :: y2 :: y3 ::
        3 :: 0 :: 0 :: 0 :: 0 :: 0 :: 0 :: 0 :: r :: g :: b :: l ∧ b1 = UInt8.ofNat (n / 256) := by
    refine ⟨_, _, _, _, _, _, _, _, _, _, _, _, _, _, _, _, rfl, rfl⟩
  obtain ⟨b0, b1, b2, b3, b4, b5, b6, b7, x0, x1, x2, x3, y0, y1, y2, y3, e, hb1⟩ := e
  rw [e]
  clear e
  by_cases h3 : b1 = 3
  · have hn : 768 ≤ n := by
      rw [h3] at hb1
      have := congrArg UInt8.toNat hb1
      simp only [UInt8.toNat_ofNat', UInt8.toNat_ofNat] at this
      omega
    have h4 := rleColors_third y0 y1 y2 y3 (3 :: 0 :: 0 :: 0 :: 0 :: 0 :: 0 :: 0 :: r :: g :: b :: l)
    generalize hq : y0 :: y1 :: y2 :: y3 :: 3 :: 0 :: 0 :: 0 :: 0 :: 0 :: 0 :: 0 :: r :: g :: b :: l = q at *
    unfold rleColors
    split
    · next h => cases h
    · next e =>
      cases e
      split
      · exact ⟨rfl, .inl rfl⟩
      · rw [h4 rfl]
        refine ⟨rfl, .inr ⟨hn, ?_⟩⟩
        have := b0.toNat_lt
        simp
        omega
    · exact ⟨rfl, .inl rfl⟩
  · rw [rleColors_second h3]
    exact ⟨rfl, .inl rfl⟩

/-! ## The first symbols of compressed data -/

theorem Longest.unique {known : List (List UInt8)} (hn : known.Nodup) {i x y r q : List UInt8} {s t : UInt16}
    (h1 : Longest known i s x r) (h2 : Longest known i t y q) : s = t ∧ x = y ∧ r = q := by
  have p1 : x <+: i := ⟨r, h1.split.symm⟩
  have p2 : y <+: i := ⟨q, h2.split.symm⟩
  have m1 := List.mem_of_getElem? h1.isKnown
  have m2 := List.mem_of_getElem? h2.isKnown
  have hl : x.length = y.length := Nat.le_antisymm (h2.longest x m1 p1) (h1.longest y m2 p2)
  have hxy : x = y := (List.prefix_of_prefix_length_le p1 p2 (Nat.le_of_eq hl)).eq_of_length hl
  subst hxy
  refine ⟨?_, rfl, List.append_cancel_left (h1.split.symm.trans h2.split)⟩
  apply UInt16.toNat_inj.1
  have b1 := (List.getElem?_eq_some_iff.1 h1.isKnown).1
  exact (List.getElem?_inj b1 hn).1 (h1.isKnown.trans h2.isKnown.symm)

/-- The first pair of symbols, if it is known what they are. -/
theorem Parse.first {known : List (List UInt8)} (hn : known.Nodup) {i x1 i' x2 i'' : List UInt8} {s1 s2 : UInt16} {syms : List UInt16}
    (h1 : Longest known i s1 x1 i') (h2 : Longest known i' s2 x2 i'') (h : Parse known i syms) :
    ∃ rest, syms = s1 :: s2 :: rest ∧ Parse (learn known (x1 ++ x2)) i'' rest := by
  cases h with
  | nil => exact absurd (List.append_eq_nil_iff.1 h1.split.symm).1 h1.nonempty
  | one h =>
    obtain ⟨-, -, h3⟩ := Longest.unique hn h h1
    rw [← h3] at h2
    exact absurd (List.append_eq_nil_iff.1 h2.split.symm).1 h2.nonempty
  | two h3 h4 h5 =>
    obtain ⟨rfl, rfl, rfl⟩ := Longest.unique hn h3 h1
    obtain ⟨rfl, rfl, rfl⟩ := Longest.unique hn h4 h2
    exact ⟨_, rfl, h5⟩

theorem mem_ones {y : List UInt8} : y ∈ oneByteSeqs → ∃ b, y = [b] := by
  intro h
  obtain ⟨b, -, rfl⟩ := List.mem_map.1 h
  exact ⟨_, rfl⟩

theorem ones_get (b : UInt8) : oneByteSeqs[b.toNat]? = some [b] := by
  have := b.toNat_lt
  simp [oneByteSeqs, List.getElem?_map, List.getElem?_range (show b.toNat < 256 from this)]

theorem ones_length : oneByteSeqs.length = 256 := by simp [oneByteSeqs]

theorem ones_nodup : oneByteSeqs.Nodup := by
  unfold oneByteSeqs
  refine List.Nodup.map_on ?_ List.nodup_range
  intro a ha b hb h
  simp only [List.mem_range] at ha hb
  have := congrArg UInt8.toNat (List.cons.inj h).1
  simp only [UInt8.toNat_ofNat'] at this
  omega

/-- A byte that begins no longer known sequence. -/
theorem longest_byte {more : List (List UInt8)} {b : UInt8} {l : List UInt8} (h : ∀ y ∈ more, ¬ y <+: b :: l) :
    Longest (oneByteSeqs ++ more) (b :: l) (UInt16.ofNat b.toNat) [b] l := by
  have hb := b.toNat_lt
  have hs : (UInt16.ofNat b.toNat).toNat = b.toNat := by simp
  refine ⟨rfl, by simp, ?_, ?_⟩
  · rw [hs, List.getElem?_append_left (by rw [ones_length]; exact hb), ones_get]
  · intro y hy hp
    rcases List.mem_append.1 hy with hy | hy
    · obtain ⟨a, rfl⟩ := mem_ones hy
      simp
    · exact absurd hp (h y hy)

theorem learn_ones {more : List (List UInt8)} (h : more.length < 100) (x : List UInt8) :
    learn (oneByteSeqs ++ more) x = oneByteSeqs ++ (more ++ [x]) := by
  rw [learn, if_pos (by rw [List.length_append, ones_length]; omega), List.append_assoc]

theorem ones_append_nodup {more : List (List UInt8)} (h : more.Nodup) (h2 : ∀ y ∈ more, y.length ≠ 1) :
    (oneByteSeqs ++ more).Nodup := by
  refine List.nodup_append.2 ⟨ones_nodup, h, ?_⟩
  rintro y hy _ hz rfl
  obtain ⟨b, rfl⟩ := mem_ones hy
  exact h2 _ hz rfl

/-- The first six symbols of compressed colours: the length 3 of the first colour in 8 bytes. -/
theorem parse_colors {l : List UInt8} {syms : List UInt16} (h : Parse oneByteSeqs (3 :: 0 :: 0 :: 0 :: 0 :: 0 :: 0 :: 0 :: l) syms) :
    ∃ rest, syms = 3 :: 0 :: 0 :: 0 :: 257 :: 257 :: rest ∧
      Parse (oneByteSeqs ++ [[3, 0], [0, 0], [0, 0, 0, 0]]) l rest := by
  have hones : oneByteSeqs = oneByteSeqs ++ [] := (List.append_nil _).symm
  rw [hones] at h
  obtain ⟨r1, rfl, h1⟩ := Parse.first (ones_append_nodup (by simp) (by simp)) (longest_byte (by simp)) (longest_byte (by simp)) h
  rw [learn_ones (by decide)] at h1
  obtain ⟨r2, rfl, h2⟩ := Parse.first (ones_append_nodup (by simp) (by simp)) (longest_byte (by simp)) (longest_byte (by simp)) h1
  rw [learn_ones (by decide)] at h2
  have h257 : ∀ l, Longest (oneByteSeqs ++ [[3, 0], [0, 0]]) (0 :: 0 :: l) 257 [0, 0] l := by
    intro l
    refine ⟨rfl, by simp, by rw [List.getElem?_append_right (by rw [ones_length]; decide), ones_length]; rfl, ?_⟩
    intro y hy hp
    rcases List.mem_append.1 hy with hy | hy
    · obtain ⟨a, rfl⟩ := mem_ones hy
      simp
    · simp only [List.mem_cons, List.not_mem_nil, or_false] at hy
      rcases hy with rfl | rfl <;> simp
  obtain ⟨r3, rfl, h3⟩ := Parse.first (ones_append_nodup (by decide) (by simp)) (h257 _) (h257 _) h2
  rw [learn_ones (by decide)] at h3
  exact ⟨r3, rfl, h3⟩

/-- Two single zeros are not written where a double zero is known. -/
theorem parse_no_zeros {known : List (List UInt8)} {i : List UInt8} {syms : List UInt16} (h0 : known[0]? = some [0])
    (h2 : [0, 0] ∈ known) : ¬ Parse known i (0 :: 0 :: syms) := by
  intro h
  cases h with
  | two a b c =>
    have ha := a.isKnown
    have hb := b.isKnown
    rw [show (0 : UInt16).toNat = 0 from rfl, h0] at ha hb
    cases ha
    cases hb
    have h3 := a.longest _ h2 ⟨_, by rw [a.split, b.split]; rfl⟩
    simp at h3

theorem learn_keeps {known : List (List UInt8)} (h0 : known[0]? = some [0]) (h2 : [0, 0] ∈ known) (x : List UInt8) :
    (learn known x)[0]? = some [0] ∧ [0, 0] ∈ learn known x := by
  unfold learn
  split
  · refine ⟨?_, List.mem_append_left _ h2⟩
    rw [List.getElem?_append_left (List.getElem?_eq_some_iff.1 h0).1, h0]
  · exact ⟨h0, h2⟩

theorem sym_zero {s : UInt16} (h1 : UInt8.ofNat s.toNat = 0) (h2 : UInt8.ofNat (s.toNat / 256) = 0) : s = 0 := by
  have h3 := congrArg UInt8.toNat h1
  have h4 := congrArg UInt8.toNat h2
  have := s.toNat_lt
  simp only [UInt8.toNat_ofNat', UInt8.toNat_ofNat] at h3 h4
  apply UInt16.toNat_inj.1
  show s.toNat = 0
  omega

theorem pointsIn_record {k : Nat} {l : List UInt8} {ps : List ColorPos} (h : pointsIn (k + 1) l = some ps) :
    ∃ x0 x1 x2 x3 y0 y1 y2 y3 r g b rest,
      l = x0 :: x1 :: x2 :: x3 :: y0 :: y1 :: y2 :: y3 :: 3 :: 0 :: 0 :: 0 :: 0 :: 0 :: 0 :: 0 :: r :: g :: b :: rest := by
  unfold pointsIn at h
  split at h
  · omega
  · exact ⟨_, _, _, _, _, _, _, _, _, _, _, _, rfl⟩
  · cases h

/-- Compressed colours are no coloured points. -/
theorem centroidsIn_packed {l : List UInt8} {syms : List UInt16}
    (h : Parse oneByteSeqs (3 :: 0 :: 0 :: 0 :: 0 :: 0 :: 0 :: 0 :: l) syms) : centroidsIn (symBytes syms) = none := by
  obtain ⟨rest, rfl, h'⟩ := parse_colors h
  replace h := h'
  have e : symBytes (3 :: 0 :: 0 :: 0 :: 257 :: 257 :: rest) = 3 :: 0 :: 0 :: 0 :: 0 :: 0 :: 0 :: 0 :: 1 :: 1 :: 1 :: 1 :: symBytes rest :=
    rfl
  rw [e, centroidsIn, if_neg (by simp)]
  show pointsIn 3 (1 :: 1 :: 1 :: 1 :: symBytes rest) = none
  cases hp : pointsIn 3 (1 :: 1 :: 1 :: 1 :: symBytes rest) with
  | none => rfl
  | some ps =>
    exfalso
    obtain ⟨x0, x1, x2, x3, y0, y1, y2, y3, r, g, b, q, e⟩ := pointsIn_record hp
    have k1 : (oneByteSeqs ++ [[3, 0], [0, 0], [0, 0, 0, 0]])[0]? = some [0] := by
      rw [List.getElem?_append_left (by rw [ones_length]; decide)]
      exact ones_get 0
    have k2 : [0, 0] ∈ oneByteSeqs ++ [[3, 0], [0, 0], [0, 0, 0, 0]] := by simp
    generalize oneByteSeqs ++ [[3, 0], [0, 0], [0, 0, 0, 0]] = known at *
    cases h with
    | nil => cases e
    | one h => cases e
    | @two _ _ s1 z1 _ s2 z2 _ rest h1 h2 h =>
      obtain ⟨k1, k2⟩ := learn_keeps k1 k2 (z1 ++ z2)
      generalize learn known (z1 ++ z2) = known at *
      cases h with
      | nil => cases e
      | one h => have := congrArg List.length e; simp [symBytes] at this
      | @two _ _ s1 z1 _ s2 z2 _ rest h1 h2 h =>
        obtain ⟨k1, k2⟩ := learn_keeps k1 k2 (z1 ++ z2)
        generalize learn known (z1 ++ z2) = known at *
        cases h with
        | nil => have := congrArg List.length e; simp [symBytes] at this
        | @one _ _ s1 _ h =>
          simp only [symBytes_cons, List.cons.injEq] at e
          exact absurd e.2.2.2.2.2.2.2.2.2.2.2.2.2.2.1 (by decide)
        | @two _ _ s1 z1 _ s2 z2 _ rest h1 h2 h =>
          simp only [symBytes_cons, List.cons.injEq] at e
          obtain ⟨-, -, -, -, -, -, -, -, -, -, -, -, e1, e2, e3, e4, -⟩ := e
          have f1 := sym_zero e1 e2
          have f2 := sym_zero e3 e4
          subst f1
          subst f2
          exact parse_no_zeros k1 k2 (.two h1 h2 h)

/-- Runs are no coloured points. -/
theorem centroidsIn_runs (n : UInt8) (c : Rgb UInt8) (runs : List (UInt8 × Rgb UInt8)) :
    centroidsIn (runBytes (n, c) ++ runs.flatMap runBytes) = none := by
  obtain ⟨r, g, b⟩ := c
  have e : runBytes (n, ⟨r, g, b⟩) ++ runs.flatMap runBytes =
    n :: 3 :: 0 :: 0 :: 0 :: 0 :: 0 :: 0 :: 0 :: r :: g :: b :: runs.flatMap runBytes := rfl
  rw [e, centroidsIn, if_neg (by simp)]
  have hk : ∃ k, num ((n :: 3 :: 0 :: 0 :: 0 :: 0 :: 0 :: 0 :: 0 :: r :: g :: b :: runs.flatMap runBytes).take 8) = k + 1 := by
    refine ⟨n.toNat + 767, ?_⟩
    simp [num]
  obtain ⟨k, hk⟩ := hk
  rw [hk]
  show pointsIn (k + 1) (0 :: r :: g :: b :: runs.flatMap runBytes) = none
  cases hp : pointsIn (k + 1) (0 :: r :: g :: b :: runs.flatMap runBytes) with
  | none => rfl
  | some ps =>
    exfalso
    obtain ⟨x0, x1, x2, x3, y0, y1, y2, y3, r, g, b, q, e⟩ := pointsIn_record hp
    cases runs with
    | nil => cases e
    | cons a runs =>
      obtain ⟨m, r, g, b⟩ := a
      cases e

/-- The first symbol decides whether there may be a colour. -/
theorem recColors_meaning {ends : Bool} {a b : UInt8} {l : List UInt8} (h3 : a.toNat + 256 * b.toNat ≠ 3)
    (h5 : a.toNat + 256 * b.toNat ≠ 65535) : (recColors ends (meaning oneByteSeqs (a :: b :: l)).1).1 = [] := by
  have hnil : ∀ e, (recColors e []).1 = [] := fun _ => rfl
  have hcons : ∀ e (x : UInt8) (l : List UInt8), x ≠ 3 → (recColors e (x :: l)).1 = [] := by
    intro e x l hx
    unfold recColors
    split
    · next h => cases h; exact absurd rfl hx
    · rfl
  unfold meaning
  split
  · next e =>
    cases e
    split
    · next x y hx hy =>
      rw [expand, if_neg h5] at hx
      have hlt := (List.getElem?_eq_some_iff.1 hx).1
      rw [ones_length] at hlt
      have hb : b.toNat = 0 := by omega
      rw [hb, Nat.mul_zero, Nat.add_zero, ones_get] at hx
      cases hx
      exact hcons _ _ _ fun h => h3 (by rw [h, hb]; rfl)
    · exact hnil _
  · exact hnil _

/-- The second byte of the first symbol. -/
theorem meaning_unknown {a b : UInt8} {l : List UInt8} (h : 256 ≤ a.toNat + 256 * b.toNat)
    (h5 : a.toNat + 256 * b.toNat ≠ 65535) (hl : 2 ≤ l.length) : meaning oneByteSeqs (a :: b :: l) = ([], false) := by
  match l, hl with
  | c :: d :: l, _ =>
    have : expand oneByteSeqs (a.toNat + 256 * b.toNat) = none := by
      rw [expand, if_neg h5]
      exact List.getElem?_eq_none (by rw [ones_length]; exact h)
    unfold meaning
    rw [this]

theorem num_le_eight (n : Nat) (h : n < 2 ^ 16) : ∃ a b : UInt8, le 8 n = a :: b :: 0 :: 0 :: 0 :: 0 :: 0 :: 0 :: [] ∧
    a.toNat + 256 * b.toNat = n ∧ a.toNat = n % 256 := by
  refine ⟨UInt8.ofNat n, UInt8.ofNat (n / 256), ?_, ?_, ?_⟩
  · show [byteAt n 0, byteAt n 1, byteAt n 2, byteAt n 3, byteAt n 4, byteAt n 5, byteAt n 6, byteAt n 7] = _
    simp only [byteAt]
    have h2 : n / 256 ^ 2 = 0 := by omega
    have h3 : n / 256 ^ 3 = 0 := by omega
    have h4 : n / 256 ^ 4 = 0 := by omega
    have h5 : n / 256 ^ 5 = 0 := by omega
    have h6 : n / 256 ^ 6 = 0 := by omega
    have h7 : n / 256 ^ 7 = 0 := by omega
    rw [h2, h3, h4, h5, h6, h7]
    simp
  · simp only [UInt8.toNat_ofNat']
    omega
  · simp only [UInt8.toNat_ofNat']

/-- The code tree of colours is not found in a number below 768. -/
theorem treeIn_points {n : Nat} (h : n < 768) (l : List UInt8) : treeIn (T := Rgb UInt8) (le 8 n ++ l) = none := by
  obtain ⟨a, b, e, hn, -⟩ := num_le_eight n (by omega)
  rw [e]
  by_cases h0 : a = 0
  · subst h0
    apply treeIn_none
    intro t rest _ e
    cases t with
    | leaf v =>
      have : b = 3 := (List.cons.inj (List.cons.inj e).2).1
      subst this
      exact absurd hn (by show 0 + 256 * 3 ≠ n; omega)
    | branch x y => cases e
  · by_cases h1 : a = 1
    · subst h1
      apply treeIn_none
      intro t rest _ e
      cases t with
      | leaf v => cases e
      | branch x y =>
        cases x with
        | leaf v => cases e
        | branch x x' =>
          cases x with
          | leaf v => cases e
          | branch => cases e
    · exact treeIn_bad h0 h1

end Cniic
