import Verif.Proofs.WrongCodec
import Verif.Props.Extreme

/-!
# Reading files with another codec (C96)

A file does not say which codec wrote it.
-/

namespace Cniic
open Spec SerSpec Kmeans

/-- **C96**, parameters: decoding depends on the format only, not on numbers of clusters or allowances. -/
theorem C96_parameters {c d : AnyCodec} (h : c.format = d.format) (p : Setup) (file : List UInt8) :
    c.decode p file = d.decode p file := by
  cases c with
  | hilbert m =>
    cases m <;> (cases d with
    | hilbert m' => cases m' <;> first | rfl | cases h
    | zip z => cases z <;> cases h
    | _ => cases h)
  | zip z =>
    cases z <;> (cases d with
    | hilbert m' => cases m' <;> cases h
    | zip z => cases z <;> first | rfl | cases h
    | _ => cases h)
  | _ =>
    cases d with
    | hilbert m' => cases m' <;> cases h
    | zip z => cases z <;> cases h
    | _ => first | rfl | cases h

theorem sized_decode {p : Setup} (hs : ∀ w h, VisitsOnce p.scan w h) {d : AnyCodec} (hd : d.format.sized = true) {w h : UInt32}
    {rest : List UInt8} {out : RgbImage} (ho : d.decode p (bytes (w, h) ++ rest) = .ok out) :
    out.width = w ∧ out.height = h := by
  have huf : AnyCodec.hufman.decode p (bytes (w, h) ++ rest) = .ok out → out.width = w ∧ out.height = h := by
    intro ho
    rw [C75_hufman, C75_size] at ho
    split at ho
    · cases ho
    · split at ho
      · cases ho
      · dsimp only at ho
        split at ho
        · cases ho; exact ⟨rfl, rfl⟩
        · cases ho
  cases d with
  | hufman => exact huf ho
  | clusterColors n => exact huf ho
  | delta =>
    rw [C75_delta hs, C75_size] at ho
    split at ho
    · cases ho
    · split at ho
      · cases ho
      · rw [paintedOr_ok ho]; exact ⟨rfl, rfl⟩
  | hilbert m =>
    cases m with
    | rle a =>
      rw [C75_hilbert_rle hs, C75_size] at ho
      split at ho
      · cases ho
      · rw [paintedOr_ok ho]; exact ⟨rfl, rfl⟩
    | zip =>
      rw [C75_hilbert_zip hs, C75_size] at ho
      split at ho
      · cases ho
      · rw [paintedOr_ok ho]; exact ⟨rfl, rfl⟩
  | voronoi n =>
    rw [C75_voronoi, C75_size] at ho
    split at ho
    · cases ho
    · next ha =>
      split at ho
      · next cs hc =>
        have h1 := voronoiDecode_eq p.chk w h cs [] (by omega) (centroidsIn_length hc)
        rw [List.append_nil, ho] at h1
        split at h1
        · cases h1; exact ⟨rfl, rfl⟩
        · cases h1
      · cases ho
  | zip z => cases z <;> cases hd

/-- **C96**, sizes: if a codec that begins its files with the size reads a file of another such codec, it gets the size of the
picture right, or nothing. -/
theorem C96_size {p : Setup} (hp : p.Lawful) (hsort : IsSort p.out.sort) (hs : ∀ w h, VisitsOnce p.scan w h) {fuel : Nat}
    {c d : AnyCodec} {img : Img} (hc : c.format.sized = true) (hd : d.format.sized = true) (ha : Addressable img)
    (hne : img.pixels ≠ []) {m : W Unit} {file : List UInt8} (hm : c.encode p fuel img = .ok m) (hb : bytesOf m = .ok file)
    {out : RgbImage} (ho : d.decode p file = .ok out) :
    out.width = img.width ∧ out.height = img.height ∧ out.pixels.length = img.pixels.length := by
  obtain ⟨rest, rfl, -⟩ := file_shape hp hsort hc ha (hs _ _) hne hm hb
  obtain ⟨h1, h2⟩ := sized_decode hs hd ho
  refine ⟨h1, h2, ?_⟩
  rw [(C75_well_formed hs ho).1, h1, h2, img.size]

/-- **C96**, refusals: the pairs of formats in which a file is never accepted. -/
theorem C96_refused {p : Setup} (hp : p.Lawful) (hsort : IsSort p.out.sort) (hs : ∀ w h, VisitsOnce p.scan w h) {fuel : Nat}
    {c d : AnyCodec} {img : Img} {panics : Bool} (hr : c.format.refuses d.format = some panics) (ha : Addressable img)
    (hne : img.pixels ≠ []) {m : W Unit} {file : List UInt8} (hm : c.encode p fuel img = .ok m) (hb : bytesOf m = .ok file) :
    d.decode p file = refusal panics := by
  have hc : c.format.sized = true := by
    cases hf : c.format <;> first | rfl | (rw [hf] at hr; cases hr)
  obtain ⟨rest, rfl, hsh⟩ := file_shape hp hsort hc ha (hs _ _) hne hm hb
  have hpos : 0 < img.width.toNat * img.height.toNat := by
    rw [← img.size]; exact List.length_pos_iff.2 hne
  have hna : ¬ 2 ^ 63 ≤ 3 * (img.width.toNat * img.height.toNat) := Nat.not_le.2 ha
  have hrgb : ∀ (cols : List (Rgb UInt8)), cols ≠ [] → ∃ l, cols.flatMap bytes = 3 :: 0 :: 0 :: 0 :: 0 :: 0 :: 0 :: 0 :: l := by
    intro cols h
    cases cols with
    | nil => exact absurd rfl h
    | cons c cols => exact ⟨_, rfl⟩
  have hfd : ∀ d' : AnyCodec, d'.format = d.format → d.decode p (bytes (img.width, img.height) ++ rest) =
      d'.decode p (bytes (img.width, img.height) ++ rest) := fun d' h => C96_parameters h.symm p _
  generalize c.format = f at *
  cases hsh with
  | colors t payload =>
    cases hdf : d.format <;> rw [hdf] at hr <;> cases hr
    rw [hfd (.hilbert (.rle (.fin 0))) hdf.symm, C75_hilbert_rle hs, C75_size, if_neg hna, rleColors_tree]
    exact paintedOr_panic hpos rfl
  | differences t payload =>
    cases hdf : d.format <;> rw [hdf] at hr <;> cases hr
    rw [hfd (.hilbert (.rle (.fin 0))) hdf.symm, C75_hilbert_rle hs, C75_size, if_neg hna, rleColors_tree]
    exact paintedOr_panic hpos rfl
  | runs n c runs hn =>
    cases hdf : d.format <;> rw [hdf] at hr <;> cases hr
    · rw [hfd .hufman hdf.symm, C75_hufman, C75_size, if_neg hna, treeIn_run hn]; rfl
    · rw [hfd .delta hdf.symm, C75_delta hs, C75_size, if_neg hna, treeIn_run hn]; rfl
    · rw [hfd (.hilbert .zip) hdf.symm, C75_hilbert_zip hs, C75_size, if_neg hna]
      have := meaning_unknown (a := n) (b := 3) (l := 0 :: 0 :: 0 :: 0 :: 0 :: 0 :: 0 :: c.r :: c.g :: c.b :: runs.flatMap runBytes)
        (by show 256 ≤ n.toNat + 768; omega) (by show n.toNat + 768 ≠ 65535; have := n.toNat_lt; omega) (by simp)
      rw [show runBytes (n, c) ++ runs.flatMap runBytes =
        n :: 3 :: 0 :: 0 :: 0 :: 0 :: 0 :: 0 :: 0 :: c.r :: c.g :: c.b :: runs.flatMap runBytes from rfl, this]
      exact paintedOr_panic hpos rfl
    · rw [hfd (.voronoi 0) hdf.symm, C75_voronoi, C75_size, if_neg hna, centroidsIn_runs]; rfl
  | packed cols syms hcols hpar =>
    obtain ⟨l, hl⟩ := hrgb cols hcols
    rw [hl] at hpar
    obtain ⟨rest, rfl, -⟩ := parse_colors hpar
    have e : symBytes (3 :: 0 :: 0 :: 0 :: 257 :: 257 :: rest) = 3 :: 0 :: symBytes (0 :: 0 :: 0 :: 257 :: 257 :: rest) := rfl
    cases hdf : d.format <;> rw [hdf] at hr <;> cases hr
    · rw [hfd .hufman hdf.symm, C75_hufman, C75_size, if_neg hna, e, treeIn_bad (by decide) (by decide)]; rfl
    · rw [hfd .delta hdf.symm, C75_delta hs, C75_size, if_neg hna, e, treeIn_bad (by decide) (by decide)]; rfl
    · rw [hfd (.hilbert (.rle (.fin 0))) hdf.symm, C75_hilbert_rle hs, C75_size, if_neg hna, e, rleColors_second (by decide)]
      exact paintedOr_panic hpos rfl
    · rw [hfd (.voronoi 0) hdf.symm, C75_voronoi, C75_size, if_neg hna, centroidsIn_packed hpar]; rfl
  | points c cs hcs =>
    cases hdf : d.format <;> rw [hdf] at hr <;> cases hr
    rw [hfd (.hilbert (.rle (.fin 0))) hdf.symm, C75_hilbert_rle hs, C75_size, if_neg hna]
    obtain ⟨h1, h2⟩ := rleColors_points (cs.length + 1) c (cs.flatMap bytes)
    refine paintedOr_panic ?_ h1
    rcases h2 with h2 | ⟨h2, h3⟩
    · rw [h2]; exact hpos
    · rw [img.size] at hcs; omega

/-- **C96**, hilbert(zip): files with a code tree, and those of voronoi with few clusters but not three, are read as a black
picture or with a panic. -/
theorem C96_black {p : Setup} (hp : p.Lawful) (hsort : IsSort p.out.sort) (hs : ∀ w h, VisitsOnce p.scan w h) {fuel : Nat}
    {c : AnyCodec} {img : Img} (hc : c.format = .colors ∨ c.format = .differences ∨ ∃ n : UInt64, c = .voronoi n ∧ n.toNat < 65535 ∧ n ≠ 3)
    (ha : Addressable img) (hne : img.pixels ≠ []) {m : W Unit} {file : List UInt8} (hm : c.encode p fuel img = .ok m)
    (hb : bytesOf m = .ok file) :
    (AnyCodec.hilbert .zip).decode p file = .panic ∨ (AnyCodec.hilbert .zip).decode p file =
      .ok { width := img.width, height := img.height, pixels := List.replicate img.pixels.length black } := by
  have hc' : c.format.sized = true := by
    rcases hc with h | h | ⟨n, rfl, -⟩ <;> first | rw [h]; rfl | rfl
  obtain ⟨rest, rfl, hsh⟩ := file_shape hp hsort hc' ha (hs _ _) hne hm hb
  have hna : ¬ 2 ^ 63 ≤ 3 * (img.width.toNat * img.height.toNat) := Nat.not_le.2 ha
  have h8 : ∀ n, (le 8 n).length = 8 := fun n => by simp [le]
  have hex : ∃ a b l, rest = a :: b :: l ∧ a.toNat + 256 * b.toNat ≠ 3 ∧ a.toNat + 256 * b.toNat ≠ 65535 := by
    have hf : c.format = .points → ∃ n : UInt64, c = .voronoi n ∧ n.toNat < 65535 ∧ n ≠ 3 := by
      intro h
      rcases hc with h' | h' | h'
      · rw [h] at h'; cases h'
      · rw [h] at h'; cases h'
      · exact h'
    have hf2 : c.format = .colors ∨ c.format = .differences ∨ c.format = .points := by
      rcases hc with h' | h' | ⟨n, rfl, -⟩
      · exact .inl h'
      · exact .inr (.inl h')
      · exact .inr (.inr rfl)
    have hlen : ∀ n, c = .voronoi n → rest.take 8 = le 8 n.toNat := by
      rintro n rfl
      obtain ⟨cl, -, hl, -, he⟩ := voronoi_file hsort hm
      rw [he.bytesOf] at hb
      have hb := Ret.ok.inj hb
      rw [voronoiBytes, List.append_assoc, List.length_map, hl,
        show bytes img.width ++ bytes img.height = bytes (img.width, img.height) from rfl] at hb
      rw [← List.append_cancel_left hb, List.take_left' (h8 _)]
    generalize hfe : c.format = f at *
    cases hsh with
    | colors t payload =>
      cases t with
      | leaf v => exact ⟨0, 3, _, rfl, by decide, by decide⟩
      | branch x y =>
        obtain ⟨l', h | h⟩ := treeBytes_head x
        · exact ⟨1, 0, _, by rw [treeBytes, h]; rfl, by decide, by decide⟩
        · exact ⟨1, 1, _, by rw [treeBytes, h]; rfl, by decide, by decide⟩
    | differences t payload =>
      cases t with
      | leaf v =>
        refine ⟨0, _, _, rfl, ?_, ?_⟩
        · show 0 + _ ≠ 3; omega
        · show 0 + _ ≠ 65535; omega
      | branch x y =>
        obtain ⟨l', h | h⟩ := treeBytes_head x
        · exact ⟨1, 0, _, by rw [treeBytes, h]; rfl, by decide, by decide⟩
        · exact ⟨1, 1, _, by rw [treeBytes, h]; rfl, by decide, by decide⟩
    | points c' cs hcs =>
      obtain ⟨n, rfl, hn, hn3⟩ := hf rfl
      have hl := hlen n rfl
      rw [List.take_left' (h8 _)] at hl
      obtain ⟨a, b, e, hab, -⟩ := num_le_eight n.toNat (by omega)
      refine ⟨a, b, _, by rw [hl, e]; rfl, ?_, ?_⟩
      · rw [hab]
        intro h
        exact hn3 (UInt64.toNat_inj.1 h)
      · rw [hab]; omega
    | runs => simp at hf2
    | packed => simp at hf2
  obtain ⟨a, b, l, rfl, h1, h2⟩ := hex
  rw [C75_hilbert_zip hs, C75_size, if_neg hna]
  have hcols := recColors_meaning (ends := (meaning oneByteSeqs (a :: b :: l)).2) (l := l) h1 h2
  unfold paintedOr
  split
  · right
    rw [hcols, painted]
    congr 2
    rw [img.size, ← cells_length, ← List.map_const']
    apply List.map_congr_left
    intro x _
    simp
  · exact .inl rfl

theorem addUp_ramp (k : Nat) : ∀ j, j ≤ 85 → addUp ((3 * j : Nat), 0, 0) (List.replicate k ⟨3, 0, 0⟩) =
    ((List.range (min k (85 - j))).map fun i => ⟨UInt8.ofNat (3 * (j + i + 1)), 0, 0⟩, decide (j + k ≤ 85)) := by
  induction k with
  | zero => intro j hj; simp [addUp, hj]
  | succ k ih =>
    intro j hj
    rw [List.replicate_succ, addUp]
    have e : ((3 * j : Nat) : Int) + (3 : Int16).toInt = ((3 * (j + 1) : Nat) : Int) := by
      rw [show (3 : Int16).toInt = 3 from rfl]; omega
    have z : (0 : Int) + (0 : Int16).toInt = 0 := rfl
    dsimp only
    rw [e, z]
    by_cases hj' : j + 1 ≤ 85
    · have hch : isChannel ((3 * (j + 1) : Nat) : Int) = true := by simp [isChannel]; omega
      rw [hch, show isChannel 0 = true from rfl, if_pos (by rfl), ih (j + 1) hj']
      have hm : min (k + 1) (85 - j) = min k (85 - (j + 1)) + 1 := by omega
      rw [hm, List.range_succ_eq_map, List.map_cons, List.map_map]
      refine Prod.ext ?_ ?_
      · refine List.cons_eq_cons.2 ⟨?_, List.map_congr_left fun i _ => ?_⟩
        · rw [Int.toNat_natCast]; rfl
        · have hi : j + 1 + i + 1 = j + (i + 1) + 1 := by omega
          rw [hi]; rfl
      · simp only [decide_eq_decide]; omega
    · have hch : isChannel ((3 * (j + 1) : Nat) : Int) = false := by simp [isChannel]; omega
      rw [hch]
      have hm : min (k + 1) (85 - j) = 0 := by omega
      rw [hm]
      simp
      omega

theorem spelled_one {T : Type} (d : T) (n : Nat) (bits : List Bool) : spelled (.leaf d) n bits = List.replicate n d := by
  induction n generalizing bits with
  | zero => rfl
  | succ n ih =>
    rw [spelled]
    have : firstSymbol (.leaf d) bits = some (d, bits) := by simp [firstSymbol, leaves]
    rw [this, List.replicate_succ]
    simp only [ih]

/-- **C96**, delta: a hufman file of a picture in one colour, whatever this is, is read as a picture in which red grows by 3
from pixel to pixel along the traversal, if it has at most 85 pixels.  With more pixels there is a panic. -/
theorem C96_ramp {p : Setup} (hp : p.Lawful) (hs : ∀ w h, VisitsOnce p.scan w h) (fuel : Nat) {img : Img} {c : Rgb UInt8}
    (ha : Addressable img) (hne : img.pixels ≠ []) (hc : ∀ x ∈ img.rgbPixels, x = c) :
    ∃ m file, AnyCodec.hufman.encode p fuel img = .ok m ∧ bytesOf m = .ok file ∧
      AnyCodec.delta.decode p file = if img.pixels.length ≤ 85
        then .ok (painted p.scan img.width img.height (redRamp img.pixels.length)) else .panic := by
  obtain ⟨t, payload, h1, h2, h3⟩ := hufman_shape hp hne
  refine ⟨_, _, rfl, h1, ?_⟩
  have ht : t = .leaf c := by
    cases t with
    | leaf v =>
      have := (h3 v).1 (by simp [symbols, leaves])
      rw [hc v this]
    | branch x y =>
      exfalso
      have hx : ∀ t : BinTrie (Rgb UInt8), ∃ v, v ∈ symbols t := by
        intro t
        induction t with
        | leaf v => exact ⟨v, by simp [symbols, leaves]⟩
        | branch x y ih _ =>
          obtain ⟨v, hv⟩ := ih
          exact ⟨v, by rw [symbols_branch]; exact List.mem_append_left _ hv⟩
      obtain ⟨v, hv⟩ := hx x
      obtain ⟨u, hu⟩ := hx y
      rw [symbols_branch] at h2 h3
      have e1 := hc v ((h3 v).1 (List.mem_append_left _ hv))
      have e2 := hc u ((h3 u).1 (List.mem_append_right _ hu))
      exact (List.nodup_append.1 h2).2.2 v hv u hu (e1.trans e2.symm)
  subst ht
  rw [C75_delta hs, C75_size, if_neg (Nat.not_le.2 ha),
    show treeBytes (.leaf c) ++ payload = treeBytes (.leaf (⟨3, 0, 0⟩ : SignedColor)) ++ (0 :: 0 :: c.r :: c.g :: c.b :: payload)
      from rfl, C75_tree_diff]
  dsimp only
  have hup := addUp_ramp img.pixels.length 0 (by omega)
  rw [spelled_one, ← img.size, show ((0, 0, 0) : Int × Int × Int) = (((3 * 0 : Nat) : Int), 0, 0) from rfl, hup]
  unfold paintedOr
  by_cases hk : img.pixels.length ≤ 85
  · rw [if_pos (.inr (by simp; omega)), if_pos hk, redRamp]
    congr 2
    have : min img.pixels.length (85 - 0) = img.pixels.length := by omega
    rw [this]
    apply List.map_congr_left
    intro i _
    rw [Nat.zero_add]
  · rw [if_neg hk, if_neg]
    rw [← img.size]
    simp
    omega

/-- **C96**, hufman and cluster-colors: a file of voronoi with fewer than 768 clusters is never accepted. -/
theorem C96_voronoi {p : Setup} (hsort : IsSort p.out.sort) {fuel : Nat}
    {n : UInt64} (hn : n.toNat < 768) {img : Img} (ha : Addressable img) {m : W Unit} {file : List UInt8}
    (hm : (AnyCodec.voronoi n).encode p fuel img = .ok m) (hb : bytesOf m = .ok file) :
    AnyCodec.hufman.decode p file = .err () := by
  obtain ⟨cl, -, hl, -, he⟩ := voronoi_file hsort hm
  rw [he.bytesOf] at hb
  rw [← Ret.ok.inj hb, voronoiBytes, List.append_assoc, C75_hufman,
    show bytes img.width ++ bytes img.height = bytes (img.width, img.height) from rfl, C75_size, if_neg (Nat.not_le.2 ha),
    List.length_map, hl, treeIn_points hn]

/-- **C96**, zip(dict): no file that begins with a width from 256 on (below 65535, or likewise after a multiple of 65536)
is accepted. -/
theorem C96_zip_dict_reads {p : Setup} (hp : p.Lawful) (hsort : IsSort p.out.sort) (hs : ∀ w h, VisitsOnce p.scan w h) {fuel : Nat}
    {c : AnyCodec} {img : Img} (hc : c.format.sized = true) (ha : Addressable img) (hne : img.pixels ≠ [])
    (hw : 256 ≤ img.width.toNat % 65536) (hw' : img.width.toNat % 65536 ≠ 65535) {m : W Unit} {file : List UInt8}
    (hm : c.encode p fuel img = .ok m) (hb : bytesOf m = .ok file) : (AnyCodec.zip .dict).decode p file = .panic := by
  obtain ⟨rest, rfl, -⟩ := file_shape hp hsort hc ha (hs _ _) hne hm hb
  have e : bytes (img.width, img.height) ++ rest = byteAt img.width.toNat 0 :: byteAt img.width.toNat 1 ::
    (byteAt img.width.toNat 2 :: byteAt img.width.toNat 3 :: (bytes img.height ++ rest)) := rfl
  have hv : (byteAt img.width.toNat 0).toNat + 256 * (byteAt img.width.toNat 1).toNat = img.width.toNat % 65536 := by
    simp only [byteAt, UInt8.toNat_ofNat']
    omega
  rw [C75_zip_dict, e, meaning_unknown (by rw [hv]; exact hw) (by rw [hv]; exact hw') (by simp), unpacked, if_pos (by simp)]

/-- What a file of zip(dict) begins with. -/
theorem zipDict_head {img : Img} (hw : img.width.toNat < 65536) (h0 : img.width.toNat % 256 ≠ 0) {file : List UInt8}
    (hb : bytesOf (zipDictEncode (zipData img)) = .ok file) :
    ∃ rest, file = bytes (UInt32.ofNat (img.width.toNat % 256 + 65536 * (img.width.toNat / 256)), (0 : UInt32)) ++ rest := by
  obtain ⟨syms, hpar, he⟩ := zipDictEncode_spec (zipData img)
  rw [he.bytesOf] at hb
  rw [← Ret.ok.inj hb]
  obtain ⟨a, b, h, hab, ha, hdata⟩ : ∃ (a b : UInt8) (l : List UInt8), a.toNat + 256 * b.toNat = img.width.toNat ∧ a ≠ 0 ∧
      zipData img = a :: b :: 0 :: 0 :: l := by
    refine ⟨byteAt img.width.toNat 0, byteAt img.width.toNat 1, bytes img.height ++ img.rgbPixels.flatMap bytes, ?_, ?_, ?_⟩
    · simp only [byteAt, UInt8.toNat_ofNat']; omega
    · intro h
      have := congrArg UInt8.toNat h
      simp only [byteAt, UInt8.toNat_ofNat', UInt8.toNat_ofNat] at this
      omega
    · show byteAt img.width.toNat 0 :: byteAt img.width.toNat 1 :: byteAt img.width.toNat 2 :: byteAt img.width.toNat 3 :: _ = _
      have h2 : byteAt img.width.toNat 2 = 0 := by
        rw [byteAt, show img.width.toNat / 256 ^ 2 = 0 by omega]; rfl
      have h3 : byteAt img.width.toNat 3 = 0 := by
        rw [byteAt, show img.width.toNat / 256 ^ 3 = 0 by omega]; rfl
      rw [h2, h3]
      rfl
  rw [hdata, ← List.append_nil oneByteSeqs] at hpar
  obtain ⟨r1, rfl, h1⟩ := Parse.first (ones_append_nodup (by simp) (by simp)) (longest_byte (by simp)) (longest_byte (by simp)) hpar
  rw [learn_ones (by decide)] at h1
  obtain ⟨r2, rfl, h2⟩ := Parse.first (ones_append_nodup (by simp) (by simp)) (longest_byte (by simp [ha])) (longest_byte (by simp [ha])) h1
  refine ⟨symBytes r2, ?_⟩
  have hal := a.toNat_lt
  have hbl := b.toNat_lt
  have hw1 : img.width.toNat % 256 = a.toNat := by omega
  have hw2 : img.width.toNat / 256 = b.toNat := by omega
  rw [hw1, hw2]
  have z16 : UInt16.ofNat (UInt8.toNat 0) = 0 := rfl
  rw [z16, symBytes_cons, symBytes_cons, symBytes_cons, symBytes_cons]
  have hz : bytes (UInt32.ofNat (a.toNat + 65536 * b.toNat), (0 : UInt32)) =
      bytes (UInt32.ofNat (a.toNat + 65536 * b.toNat)) ++ [0, 0, 0, 0] := by
    rw [← show bytes (0 : UInt32) = [0, 0, 0, 0] by decide +kernel]; rfl
  have hb4 : bytes (UInt32.ofNat (a.toNat + 65536 * b.toNat)) =
      [byteAt (UInt32.ofNat (a.toNat + 65536 * b.toNat)).toNat 0, byteAt (UInt32.ofNat (a.toNat + 65536 * b.toNat)).toNat 1,
       byteAt (UInt32.ofNat (a.toNat + 65536 * b.toNat)).toNat 2, byteAt (UInt32.ofNat (a.toNat + 65536 * b.toNat)).toNat 3] := rfl
  rw [hz, hb4]
  have e16 : ∀ x : UInt8, (UInt16.ofNat x.toNat).toNat = x.toNat := by intro x; have := x.toNat_lt; simp
  have e32 : (UInt32.ofNat (a.toNat + 65536 * b.toNat)).toNat = a.toNat + 65536 * b.toNat := by
    simp only [UInt32.toNat_ofNat']; omega
  rw [e16, e16, e32]
  congr 1
  · apply UInt8.toNat_inj.1; simp only [byteAt, UInt8.toNat_ofNat']; omega
  congr 1
  · apply UInt8.toNat_inj.1; simp only [byteAt, UInt8.toNat_ofNat']; omega
  congr 1
  · apply UInt8.toNat_inj.1; simp only [byteAt, UInt8.toNat_ofNat']; omega
  congr 1
  · rw [byteAt, show b.toNat / 256 = 0 by omega, show (a.toNat + 65536 * b.toNat) / 256 ^ 3 = 0 by
      apply Nat.div_eq_of_lt; omega]

/-- **C96**, files of zip(dict): whoever expects the size at the beginning finds the height 0, so the picture is empty. -/
theorem C96_zip_dict_file {p : Setup} (hs : ∀ w h, VisitsOnce p.scan w h) {fuel : Nat}
    {d : AnyCodec} {img : Img} (hd : d.format.sized = true) (hw : img.width.toNat < 65536) (h0 : img.width.toNat % 256 ≠ 0)
    {m : W Unit} {file : List UInt8} (hm : (AnyCodec.zip .dict).encode p fuel img = .ok m) (hb : bytesOf m = .ok file)
    {out : RgbImage} (ho : d.decode p file = .ok out) : out.height = 0 ∧ out.pixels = [] := by
  cases hm
  rw [zipEncode_dict] at hb
  obtain ⟨rest, rfl⟩ := zipDict_head hw h0 hb
  obtain ⟨-, h2⟩ := sized_decode hs hd ho
  refine ⟨h2, List.length_eq_zero_iff.1 ?_⟩
  rw [(C75_well_formed hs ho).1, h2]
  rfl

/-- **C96**, files of zip(dict) read by hilbert: there is always such an empty picture. -/
theorem C96_zip_dict_hilbert {p : Setup} (hs : ∀ w h, VisitsOnce p.scan w h) {fuel : Nat}
    (me : CompressionMethod) {img : Img} (hw : img.width.toNat < 65536) (h0 : img.width.toNat % 256 ≠ 0)
    {m : W Unit} {file : List UInt8} (hm : (AnyCodec.zip .dict).encode p fuel img = .ok m) (hb : bytesOf m = .ok file) :
    (AnyCodec.hilbert me).decode p file = .ok
      { width := UInt32.ofNat (img.width.toNat % 256 + 65536 * (img.width.toNat / 256)), height := 0, pixels := [] } := by
  cases hm
  rw [zipEncode_dict] at hb
  obtain ⟨rest, rfl⟩ := zipDict_head hw h0 hb
  have hz : ∀ w : UInt32, w.toNat * (0 : UInt32).toNat = 0 := fun w => by simp
  have hp : ∀ w cols, paintedOr p.scan w 0 cols = .ok { width := w, height := 0, pixels := [] } := by
    intro w cols
    rw [paintedOr, if_pos (.inl (by rw [hz]; exact Nat.zero_le _)), painted]
    simp [cells]
  cases me with
  | rle a => rw [C75_hilbert_rle hs, C75_size, hz, if_neg (by decide), hp]
  | zip => rw [C75_hilbert_zip hs, C75_size, hz, if_neg (by decide), hp]


namespace WrongCodecExamples
open AnyCodecExamples DecodeExamples ExtremeExamples

/-- One pixel. -/
def dot : Img := { width := 1, height := 1, pixels := [⟨7, 8, 9, 255⟩], size := rfl }

/-- Seventeen pixels in two colours. -/
def stripe : Img where
  width := 17
  height := 1
  pixels := List.replicate 7 ⟨5, 0, 7, 255⟩ ++ List.replicate 9 ⟨9, 0, 0, 255⟩ ++ [⟨5, 0, 7, 255⟩]
  size := rfl

/-- Three hundred pixels. -/
def wide : Img where
  width := 300
  height := 1
  pixels := List.replicate 300 ⟨5, 0, 7, 255⟩
  size := by rw [List.length_replicate]; rfl

theorem stripe_written : (match AnyCodec.hufman.encode setup 0 stripe with | .ok m => bytesOf m | _ => .panic) = .ok
    (bytes ((17 : UInt32), (1 : UInt32)) ++
    [1, 0, 3, 0, 0, 0, 0, 0, 0, 0, 5, 0, 7, 0, 3, 0, 0, 0, 0, 0, 0, 0, 9, 0, 0, 1, 255, 0]) := by
  decide +kernel

theorem stripe_black : (AnyCodec.hilbert .zip).decode setup (bytes ((17 : UInt32), (1 : UInt32)) ++
    [1, 0, 3, 0, 0, 0, 0, 0, 0, 0, 5, 0, 7, 0, 3, 0, 0, 0, 0, 0, 0, 0, 9, 0, 0, 1, 255, 0]) =
    .ok { width := 17, height := 1, pixels := List.replicate 17 black } := by
  rw [C75_hilbert_zip visits, C75_size, if_neg (by decide)]
  have : meaning oneByteSeqs [1, 0, 3, 0, 0, 0, 0, 0, 0, 0, 5, 0, 7, 0, 3, 0, 0, 0, 0, 0, 0, 0, 9, 0, 0, 1, 255, 0] =
    ([1, 3, 0, 0, 0, 5, 7, 3, 0, 0, 0, 9, 1, 3, 255], true) := by decide +kernel
  rw [this]
  rfl

end WrongCodecExamples

open WrongCodecExamples AnyCodecExamples DecodeExamples in
/-- **C96**, undetected: the files of one lossless codec can be read by another without any sign that something is wrong. -/
theorem C96_undetected :
    (∃ (p : Setup) (img : Img) (m : W Unit) (file : List UInt8), p.Lawful ∧ (∀ w h, VisitsOnce p.scan w h) ∧
      AnyCodec.hufman.encode p 0 img = .ok m ∧ bytesOf m = .ok file ∧ AnyCodec.hufman.decode p file = .ok img.toRgb ∧
      AnyCodec.delta.decode p file = .ok { img.toRgb with pixels := [⟨3, 0, 0⟩] } ∧ img.toRgb.pixels = [⟨7, 8, 9⟩]) ∧
    (∃ (p : Setup) (img : Img) (m : W Unit) (file : List UInt8), p.Lawful ∧ (∀ w h, VisitsOnce p.scan w h) ∧
      AnyCodec.hufman.encode p 0 img = .ok m ∧ bytesOf m = .ok file ∧ AnyCodec.hufman.decode p file = .ok img.toRgb ∧
      (AnyCodec.hilbert .zip).decode p file = .ok { img.toRgb with pixels := List.replicate 17 black } ∧
      black ∉ img.toRgb.pixels) := by
  refine ⟨?_, ?_⟩
  · have ha : Addressable dot := by unfold Addressable; decide
    obtain ⟨m, file, h1, h2, h3⟩ := C96_ramp setup_lawful visits 0 (img := dot) (c := ⟨7, 8, 9⟩) ha (by decide) (by decide)
    obtain ⟨m', file', h4, h5, h6⟩ := C39_completes (c := .hufman) setup_lawful 0 rfl (by intro h; cases h) (.refl _) ha (by decide)
    rw [h1] at h4
    cases h4
    rw [h2] at h5
    cases h5
    refine ⟨_, dot, _, _, setup_lawful, visits, h1, h2, h6, ?_, rfl⟩
    rw [h3]
    rfl
  · have ha : Addressable stripe := by unfold Addressable; decide
    obtain ⟨m, file, h4, h5, h6⟩ := C39_completes (c := .hufman) setup_lawful 0 rfl (by intro h; cases h) (.refl _) ha (by decide)
    have h := stripe_written
    rw [h4] at h
    dsimp only at h
    rw [h5] at h
    cases h
    refine ⟨_, stripe, _, _, setup_lawful, visits, h4, h5, h6, stripe_black, by decide⟩

namespace WrongCodecExamples
open AnyCodecExamples DecodeExamples ExtremeExamples

theorem written {c : AnyCodec} {img : Img} (hc : c.isLossless = true) (hb : c ≠ .zip .back) (ha : Addressable img)
    (hne : img.pixels ≠ []) : ∃ m file, c.encode setup 0 img = .ok m ∧ bytesOf m = .ok file := by
  obtain ⟨m, file, h1, h2, -⟩ := C39_completes setup_lawful 0 hc hb (.refl _) ha hne
  exact ⟨m, file, h1, h2⟩

example : ∀ file, (AnyCodec.voronoi 4).decode setup file = (AnyCodec.voronoi 9).decode setup file :=
  fun file => C96_parameters rfl setup file

example : ∃ m file, AnyCodec.delta.encode setup 0 stripe = .ok m ∧ bytesOf m = .ok file ∧
    (AnyCodec.hilbert (.rle (.fin 5))).decode setup file = .panic := by
  have ha : Addressable stripe := by unfold Addressable; decide
  obtain ⟨m, file, h1, h2⟩ := written (c := .delta) rfl (by intro h; cases h) ha (by decide)
  exact ⟨m, file, h1, h2, C96_refused setup_lawful sortByDist_isSort visits (c := .delta) (panics := true) rfl ha (by decide) h1 h2⟩

example : ∃ m file, (AnyCodec.hilbert .zip).encode setup 0 stripe = .ok m ∧ bytesOf m = .ok file ∧
    (AnyCodec.voronoi 4).decode setup file = .err () := by
  have ha : Addressable stripe := by unfold Addressable; decide
  obtain ⟨m, file, h1, h2⟩ := written (c := .hilbert .zip) rfl (by intro h; cases h) ha (by decide)
  exact ⟨m, file, h1, h2, C96_refused setup_lawful sortByDist_isSort visits (c := .hilbert .zip) (panics := false) rfl ha (by decide) h1 h2⟩

/-- The hypotheses of `C96_size` and `C96_black` are met by the picture `stripe`. -/
example : ∃ m file out, AnyCodec.hufman.encode setup 0 stripe = .ok m ∧ bytesOf m = .ok file ∧
    (AnyCodec.hilbert .zip).decode setup file = .ok out ∧ out.width = stripe.width ∧
    out.pixels = List.replicate stripe.pixels.length black := by
  have ha : Addressable stripe := by unfold Addressable; decide
  obtain ⟨m, file, h1, h2⟩ := written (c := .hufman) rfl (by intro h; cases h) ha (by decide)
  have h := stripe_written
  rw [h1] at h
  dsimp only at h
  rw [h2] at h
  cases h
  refine ⟨m, _, _, h1, h2, stripe_black,
    (C96_size setup_lawful sortByDist_isSort visits (c := .hufman) (d := .hilbert .zip) rfl rfl ha (by decide) h1 h2 stripe_black).1, ?_⟩
  rcases C96_black setup_lawful sortByDist_isSort visits (c := .hufman) (.inl rfl) ha (by decide) h1 h2 with h | h
  · rw [stripe_black] at h; cases h
  · have := Ret.ok.inj (h.symm.trans stripe_black)
    exact (congrArg RgbImage.pixels this).symm

/-- Voronoi with as many clusters as pixels. -/
example : ∃ m file, (AnyCodec.voronoi 1).encode release 2 dot = .ok m ∧ bytesOf m = .ok file ∧
    AnyCodec.hufman.decode release file = .err () := by
  have ha : Addressable dot := by unfold Addressable; decide
  obtain ⟨m, h1, h2⟩ := voronoi_all release_lawful sortByDist_isSort rfl 0 (n := 1) (img := dot) (by decide) rfl
  exact ⟨m, _, h1, h2, C96_voronoi sortByDist_isSort (by decide) ha h1 h2⟩

theorem wide_addressable : Addressable wide := by
  unfold Addressable
  rw [show wide.width.toNat = 300 from rfl, show wide.height.toNat = 1 from rfl]
  decide

theorem wide_nonempty : wide.pixels ≠ [] := by
  intro h
  have := congrArg List.length h
  rw [wide.size] at this
  cases this

/-- A picture of width 300 written by delta and read by zip(dict). -/
example : ∃ m file, AnyCodec.delta.encode setup 0 wide = .ok m ∧ bytesOf m = .ok file ∧
    (AnyCodec.zip .dict).decode setup file = .panic := by
  obtain ⟨m, file, h1, h2⟩ := written (c := .delta) rfl (by intro h; cases h) wide_addressable wide_nonempty
  exact ⟨m, file, h1, h2, C96_zip_dict_reads setup_lawful sortByDist_isSort visits (c := .delta) rfl wide_addressable
    wide_nonempty (by decide) (by decide) h1 h2⟩

/-- It is written by zip(dict) and read by hilbert as a picture of width 65580 and height 0. -/
example : ∃ m file, (AnyCodec.zip .dict).encode setup 0 wide = .ok m ∧ bytesOf m = .ok file ∧
    (AnyCodec.hilbert .zip).decode setup file = .ok { width := 65580, height := 0, pixels := [] } ∧
    ∀ out, AnyCodec.delta.decode setup file = .ok out → out.pixels = [] := by
  obtain ⟨m, file, h1, h2⟩ := written (c := .zip .dict) rfl (by intro h; cases h) wide_addressable wide_nonempty
  exact ⟨m, file, h1, h2, C96_zip_dict_hilbert visits .zip (by decide) (by decide) h1 h2,
    fun out ho => (C96_zip_dict_file visits (d := .delta) rfl (by decide) (by decide) h1 h2 ho).2⟩

end WrongCodecExamples
end Cniic
