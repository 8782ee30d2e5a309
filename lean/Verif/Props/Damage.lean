import Verif.Proofs.Damage
import Verif.Props.Edit

/-!
# C113: how far damage reaches

What a file says before the first damaged byte is not affected by the damage, with every codec but voronoi.  What comes after it
is affected in different ways.
-/

namespace Cniic
open Spec SerSpec

/-! ## Before the damage -/

/-- **C113**, hufman and cluster-colors: files that agree in the beginning of the payload give pictures that agree in the pixels
that this beginning spells. -/
theorem C113_hufman_before {p : Setup} {w h : UInt32} {t : BinTrie (Rgb UInt8)} {payload rest rest' : List UInt8}
    {out out' : RgbImage} (ho : AnyCodec.hufman.decode p (bytes (w, h) ++ (treeBytes t ++ (payload ++ rest))) = .ok out)
    (ho' : AnyCodec.hufman.decode p (bytes (w, h) ++ (treeBytes t ++ (payload ++ rest'))) = .ok out') :
    let known := spelled t (w.toNat * h.toNat) (bitsOf payload)
    known <+: out.pixels ∧ known <+: out'.pixels := by
  have key : ∀ {rest out}, AnyCodec.hufman.decode p (bytes (w, h) ++ (treeBytes t ++ (payload ++ rest))) = .ok out →
      spelled t (w.toNat * h.toNat) (bitsOf payload) <+: out.pixels := by
    intro rest out ho
    rw [C75_hufman, C75_size] at ho
    split at ho
    · cases ho
    · rw [C75_tree] at ho
      dsimp only at ho
      split at ho
      · cases ho
        have : bitsOf (payload ++ rest) = bitsOf payload ++ bitsOf rest := List.flatMap_append
        rw [this]
        exact spelled_more _ _ _ _
      · cases ho
  exact ⟨key ho, key ho'⟩

/-- **C113**, delta: the same, along the traversal, for the colours reached by the differences that the beginning spells. -/
theorem C113_delta_before {p : Setup} (hs : ∀ w h, VisitsOnce p.scan w h) {w h : UInt32} {t : BinTrie SignedColor}
    {payload rest rest' : List UInt8} {out out' : RgbImage}
    (ho : AnyCodec.delta.decode p (bytes (w, h) ++ (treeBytes t ++ (payload ++ rest))) = .ok out)
    (ho' : AnyCodec.delta.decode p (bytes (w, h) ++ (treeBytes t ++ (payload ++ rest'))) = .ok out') :
    let known := (addUp (0, 0, 0) (spelled t (w.toNat * h.toNat) (bitsOf payload))).1
    known <+: along p.scan out ∧ known <+: along p.scan out' := by
  have key : ∀ {rest out}, AnyCodec.delta.decode p (bytes (w, h) ++ (treeBytes t ++ (payload ++ rest))) = .ok out →
      (addUp (0, 0, 0) (spelled t (w.toNat * h.toNat) (bitsOf payload))).1 <+: along p.scan out := by
    intro rest out ho
    rw [C75_delta hs, C75_size] at ho
    split at ho
    · cases ho
    · rw [C75_tree_diff] at ho
      dsimp only at ho
      have e : bitsOf (payload ++ rest) = bitsOf payload ++ bitsOf rest := List.flatMap_append
      rw [paintedOr_ok ho, e, along_painted (hs _ _)]
      have h1 := addUp_prefix (spelled_more t (w.toNat * h.toNat) (bitsOf payload) (bitsOf rest)) (0, 0, 0)
      refine painted_prefix h1 ?_
      refine Nat.le_trans (addUp_le _ _) (spelled_length _ _ _)
  exact ⟨key ho, key ho'⟩

/-- **C113**, hilbert(rle): files that agree in the first runs give pictures that agree in the pixels of these runs. -/
theorem C113_rle_before {p : Setup} (hs : ∀ w h, VisitsOnce p.scan w h) {d : F64} {w h : UInt32}
    {runs : List (UInt8 × Rgb UInt8)} (h1 : ∀ r ∈ runs, 1 ≤ r.1.toNat) {rest rest' : List UInt8} {out out' : RgbImage}
    (ho : (AnyCodec.hilbert (.rle d)).decode p (bytes (w, h) ++ (runs.flatMap runBytes ++ rest)) = .ok out)
    (ho' : (AnyCodec.hilbert (.rle d)).decode p (bytes (w, h) ++ (runs.flatMap runBytes ++ rest')) = .ok out') :
    let known := (expandRuns runs).take (w.toNat * h.toNat)
    known <+: along p.scan out ∧ known <+: along p.scan out' := by
  have key : ∀ {rest out}, (AnyCodec.hilbert (.rle d)).decode p (bytes (w, h) ++ (runs.flatMap runBytes ++ rest)) = .ok out →
      (expandRuns runs).take (w.toNat * h.toNat) <+: along p.scan out := by
    intro rest out ho
    rw [C75_hilbert_rle hs, C75_size] at ho
    split at ho
    · cases ho
    · rw [rleColors_runs _ h1] at ho
      rw [paintedOr_ok ho, along_painted (hs _ _)]
      exact painted_prefix ((List.take_prefix _ _).trans (List.prefix_append _ _)) (by simp)
  exact ⟨key ho, key ho'⟩

/-- **C113**, hilbert(zip): files that agree in the beginning give pictures that agree, along the traversal, in one pixel for each
11 bytes that this beginning (without the size) decompresses to. -/
theorem C113_hilbert_zip_before {p : Setup} (hs : ∀ w h, VisitsOnce p.scan w h) {w h : UInt32} {a rest rest' : List UInt8}
    {out out' : RgbImage} (ho : (AnyCodec.hilbert .zip).decode p (bytes (w, h) ++ (a ++ rest)) = .ok out)
    (ho' : (AnyCodec.hilbert .zip).decode p (bytes (w, h) ++ (a ++ rest')) = .ok out') :
    let k := (meaning oneByteSeqs a).1.length / 11
    (along p.scan out).take k = (along p.scan out').take k := by
  intro k
  rw [C75_hilbert_zip hs, C75_size] at ho ho'
  split at ho
  · cases ho
  · next hn =>
    rw [if_neg hn] at ho'
    rw [paintedOr_ok ho, paintedOr_ok ho']
    apply along_take (hs _ _)
    rw [recColors_take _ true, recColors_take _ true]
    rw [prefix_take (meaning_more oneByteSeqs a rest) (meaning_more oneByteSeqs a rest')]
    omega

/-- Data that agree in the beginning give pictures that agree in one pixel for each 11 bytes after the size. -/
theorem unpacked_before {ends ends' : Bool} {a data data' : List UInt8} {out out' : RgbImage} (h : a <+: data) (h' : a <+: data')
    (ho : unpacked ends data = .ok out) (ho' : unpacked ends' data' = .ok out') (h8 : 8 ≤ a.length) :
    out.width = out'.width ∧ out.height = out'.height ∧
      out.pixels.take ((a.length - 8) / 11) = out'.pixels.take ((a.length - 8) / 11) := by
  unfold unpacked at ho ho'
  split at ho
  · cases ho
  split at ho'
  · cases ho'
  obtain ⟨-, w, ht, r, rfl, hn, ho⟩ := withSize_ok ho
  obtain ⟨-, w', ht', r', rfl, hn', ho'⟩ := withSize_ok ho'
  have hlen : ∀ w h : UInt32, (bytes (w, h)).length = 8 := fun _ _ => rfl
  have e8 : bytes (w, ht) = bytes (w', ht') := by
    have := prefix_take h h' h8
    rwa [List.take_left' (hlen _ _), List.take_left' (hlen _ _)] at this
  have ew : w = w' ∧ ht = ht' := by
    have := congrArg (fun l => withSize (l ++ []) fun w h _ => .ok ⟨w, h, []⟩) e8
    simp only [C75_size, if_neg (Nat.not_le.2 hn), if_neg (Nat.not_le.2 hn')] at this
    exact ⟨congrArg RgbImage.width (Ret.ok.inj this), congrArg RgbImage.height (Ret.ok.inj this)⟩
  obtain ⟨rfl, rfl⟩ := ew
  dsimp only at ho ho'
  split at ho
  · split at ho'
    · cases ho
      cases ho'
      refine ⟨rfl, rfl, ?_⟩
      dsimp only
      rw [List.take_take, List.take_take, Nat.min_comm, ← List.take_take, ← List.take_take]
      congr 1
      rw [recColors_take _ true, recColors_take _ true]
      have := prefix_take h h' (k := 8 + 11 * ((a.length - 8) / 11)) (by omega)
      rw [List.take_append, List.take_append, hlen, Nat.add_sub_cancel_left] at this
      rw [List.take_of_length_le (by rw [hlen]; omega)] at this
      rw [List.append_cancel_left this]
    · split at ho' <;> cases ho'
  · split at ho <;> cases ho

/-- **C113**, zip(dict). -/
theorem C113_zip_dict_before {p : Setup} {a rest rest' : List UInt8} {out out' : RgbImage}
    (ho : (AnyCodec.zip .dict).decode p (a ++ rest) = .ok out) (ho' : (AnyCodec.zip .dict).decode p (a ++ rest') = .ok out')
    (h8 : 8 ≤ (meaning oneByteSeqs a).1.length) :
    out.width = out'.width ∧ out.height = out'.height ∧
      let k := ((meaning oneByteSeqs a).1.length - 8) / 11
      out.pixels.take k = out'.pixels.take k := by
  rw [C75_zip_dict] at ho ho'
  exact unpacked_before (meaning_more oneByteSeqs a rest) (meaning_more oneByteSeqs a rest') ho ho' h8

/-- **C113**, zip(back). -/
theorem C113_zip_back_before {p : Setup} {a rest rest' data : List UInt8} {e : Ending} {out out' : RgbImage}
    (ha : Reads Back.ringSize [] a data e)
    (ho : (AnyCodec.zip .back).decode p (a ++ rest) = .ok out) (ho' : (AnyCodec.zip .back).decode p (a ++ rest') = .ok out')
    (h8 : 8 ≤ data.length) :
    out.width = out'.width ∧ out.height = out'.height ∧
      let k := (data.length - 8) / 11
      out.pixels.take k = out'.pixels.take k := by
  obtain ⟨d1, e1, h1, h2⟩ := reads_more ha rest
  obtain ⟨d2, e2, h3, h4⟩ := reads_more ha rest'
  rw [C75_zip_back p h1] at ho
  rw [C75_zip_back p h3] at ho'
  exact unpacked_before h2 h4 ho ho' h8

/-! ## Runs -/

/-- **C113**, hilbert(rle), exactly: whatever byte of whatever run of a file is changed to whatever other value.  The first byte of a run
is the number of its pixels: the rest of the picture moves along the traversal, unless it is zero, which makes the decoder panic.
The next eight make it panic.  The last three are the colour of the run. -/
theorem C113_rle {p : Setup} (hp : p.Lawful) (hs : ∀ w h, VisitsOnce p.scan w h) (fuel : Nat) (d : F64) {img : Img}
    (ha : Addressable img) :
    ∃ m runs, (AnyCodec.hilbert (.rle d)).encode p fuel img = .ok m ∧
      bytesOf m = .ok (bytes (img.width, img.height) ++ runs.flatMap runBytes) ∧
      ∀ before run after, runs = before ++ run :: after → ∀ k b, k < 12 → (runBytes run)[k]? ≠ some b →
        (AnyCodec.hilbert (.rle d)).decode p (bytes (img.width, img.height) ++
            (before.flatMap runBytes ++ ((runBytes run).set k b ++ after.flatMap runBytes))) =
          if k = 0 ∧ b = 0 ∨ 1 ≤ k ∧ k ≤ 8 then .panic
          else .ok (painted p.scan img.width img.height (expandRuns (before ++
            (if k = 0 then (b, run.2) else (run.1, setChannel run.2 (k - 9) b)) :: after))) := by
  obtain ⟨m, runs, h1, h2, h3, h4⟩ := C108_rle_form hp fuel d (hs img.width.toNat img.height.toNat)
  refine ⟨m, runs, h1, h2, ?_⟩
  rintro before run after rfl k b hk hb
  have hbef : ∀ r ∈ before, 1 ≤ r.1.toNat := fun r hr => h3 r (by simp [hr])
  have haft : ∀ r ∈ after, 1 ≤ r.1.toNat := fun r hr => h3 r (by simp [hr])
  have hrun : 1 ≤ run.1.toNat := h3 run (by simp)
  have hlt : (expandRuns before).length < img.width.toNat * img.height.toNat := by
    rw [← h4]
    simp only [expandRuns, List.flatMap_append, List.flatMap_cons, List.length_append, List.length_replicate]
    omega
  have hend : ∀ run' : UInt8 × Rgb UInt8, 1 ≤ run'.1.toNat →
      rleColors (before.flatMap runBytes ++ (runBytes run' ++ after.flatMap runBytes)) =
        (expandRuns (before ++ run' :: after), true) := by
    intro run' hr
    have := rleColors_runs (before ++ run' :: after) (by
      intro r hr'
      simp only [List.mem_append, List.mem_cons] at hr'
      rcases hr' with h | rfl | h
      · exact hbef r h
      · exact hr
      · exact haft r h) []
    simpa [rleColors] using this
  rw [C75_hilbert_rle hs, C75_size, if_neg (by unfold Addressable at ha; omega)]
  have stop : ∀ l, rleColors l = ([], false) →
      paintedOr p.scan img.width img.height (rleColors (before.flatMap runBytes ++ l)) = .panic := by
    intro l hl
    rw [rleColors_runs _ hbef, hl]
    unfold paintedOr
    rw [if_neg]
    simp
    omega
  split
  · next hc =>
    apply stop
    rcases hc with ⟨rfl, rfl⟩ | ⟨h1, h8⟩
    · exact rleColors_zero _
    · exact rleColors_length h1 h8 hb _
  · next hc =>
    by_cases hk0 : k = 0
    · subst hk0
      rw [if_pos rfl, set_count, hend _ (by
        have : b ≠ 0 := fun h => hc (.inl ⟨rfl, h⟩)
        show 1 ≤ b.toNat
        have : b.toNat ≠ 0 := fun h => this (UInt8.toNat_inj.1 h)
        omega)]
      unfold paintedOr
      rw [if_pos (.inr rfl)]
    · rw [if_neg hk0, set_color (by omega) hk, hend (run.1, setChannel run.2 (k - 9) b) hrun]
      unfold paintedOr
      rw [if_pos (.inr rfl)]

/-- **C113**, hilbert(rle): another colour of a run changes its pixels only, so at most 255. -/
theorem C113_rle_color {scan : Scan} {w h : UInt32} (hs : VisitsOnce scan w.toNat h.toNat)
    (before after : List (UInt8 × Rgb UInt8)) (n : UInt8) (c c' : Rgb UInt8) :
    differences (painted scan w h (expandRuns (before ++ (n, c) :: after))).pixels
      (painted scan w h (expandRuns (before ++ (n, c') :: after))).pixels ≤ n.toNat := by
  have hlen : (scan w.toNat h.toNat).length = w.toNat * h.toNat := by rw [hs.length_eq, cells_length]
  have hnd : (scan w.toNat h.toNat).Nodup := hs.nodup_iff.2 (cells_nodup _ _)
  have hl : ∀ cols, (painted scan w h cols).pixels.length = w.toNat * h.toNat := by simp [painted, cells_length]
  have hout : ∀ (x : Rgb UInt8) j, ¬ ((expandRuns before).length ≤ j ∧ j < (expandRuns before).length + n.toNat) →
      (expandRuns (before ++ (n, x) :: after))[j]? = (expandRuns (before ++ (n, c) :: after))[j]? := by
    intro x j hj
    have e : ∀ y, expandRuns (before ++ (n, y) :: after) = expandRuns before ++ (List.replicate n.toNat y ++ expandRuns after) := by
      simp [expandRuns]
    rw [e, e]
    by_cases hb : j < (expandRuns before).length
    · rw [List.getElem?_append_left hb, List.getElem?_append_left hb]
    · have hr : ∀ y : Rgb UInt8, (List.replicate n.toNat y ++ expandRuns after)[j - (expandRuns before).length]? =
          (expandRuns after)[j - (expandRuns before).length - n.toNat]? := by
        intro y
        rw [List.getElem?_append_right (by rw [List.length_replicate]; omega), List.length_replicate]
      have hq : ∀ y : Rgb UInt8, (expandRuns before ++ (List.replicate n.toNat y ++ expandRuns after))[j]? =
          (expandRuns after)[j - (expandRuns before).length - n.toNat]? := by
        intro y
        rw [List.getElem?_append_right (by omega), hr]
      rw [hq, hq]
  let q : Nat × Nat → Bool := fun cell => decide ((expandRuns before).length ≤ (scan w.toNat h.toNat).idxOf cell ∧
    (scan w.toNat h.toNat).idxOf cell < (expandRuns before).length + n.toNat)
  have h1 : differences (painted scan w h (expandRuns (before ++ (n, c) :: after))).pixels
      (painted scan w h (expandRuns (before ++ (n, c') :: after))).pixels ≤ (cells w.toNat h.toNat).countP q := by
    unfold differences
    rw [hl, hl, Nat.max_self, cells, List.countP_map]
    apply List.countP_mono_left
    intro i hi hne
    rw [List.mem_range] at hi
    simp only [decide_eq_true_eq] at hne
    apply Classical.byContradiction
    intro hq
    apply hne
    unfold painted
    simp only [List.getElem?_map, cells, List.getElem?_range hi, Option.map_some]
    rw [hout c' _ (by simpa [q] using hq)]
  refine Nat.le_trans h1 ?_
  rw [← hs.countP_eq q]
  have h2 : (scan w.toNat h.toNat).map (fun cell => (scan w.toNat h.toNat).idxOf cell) = List.range (w.toNat * h.toNat) := by
    apply List.ext_getElem (by simp [hlen])
    intro j h1 h2
    rw [List.getElem_map, List.getElem_range, hnd.idxOf_getElem j (by simpa using h1)]
  have h3 : (scan w.toNat h.toNat).countP q = (List.range (w.toNat * h.toNat)).countP fun j =>
      decide ((expandRuns before).length ≤ j ∧ j < (expandRuns before).length + n.toNat) := by
    rw [← h2, List.countP_map]
    rfl
  rw [h3]
  exact countP_interval _ _ _

/-! ## Differences -/

/-- **C113**, delta: if one difference is read instead of another one and everything else is read as before, then all pixels from there
on are shifted, along the traversal, by the same amount, to the end of the picture. -/
theorem C113_delta_shift {p : Setup} (hs : ∀ w h, VisitsOnce p.scan w h) {w h : UInt32} {t : BinTrie SignedColor}
    {payload payload' : List UInt8} {before after : List SignedColor} {d d' : SignedColor}
    (h1 : spelled t (w.toNat * h.toNat) (bitsOf payload) = before ++ d :: after)
    (h2 : spelled t (w.toNat * h.toNat) (bitsOf payload') = before ++ d' :: after) {out out' : RgbImage}
    (ho : AnyCodec.delta.decode p (bytes (w, h) ++ (treeBytes t ++ payload)) = .ok out)
    (ho' : AnyCodec.delta.decode p (bytes (w, h) ++ (treeBytes t ++ payload')) = .ok out') :
    (along p.scan out).take before.length = (along p.scan out').take before.length ∧
    ∀ j x y, before.length ≤ j → j ≤ before.length + after.length → (along p.scan out)[j]? = some x →
      (along p.scan out')[j]? = some y → (y.r.toNat : Int) - x.r.toNat = d'.r.toInt - d.r.toInt ∧
        (y.g.toNat : Int) - x.g.toNat = d'.g.toInt - d.g.toInt ∧ (y.b.toNat : Int) - x.b.toNat = d'.b.toInt - d.b.toInt := by
  rw [C75_delta hs, C75_size] at ho ho'
  split at ho
  · cases ho
  next hn =>
  rw [if_neg hn] at ho'
  rw [C75_tree_diff] at ho ho'
  dsimp only at ho ho'
  rw [h1] at ho
  rw [h2] at ho'
  have hlen : before.length + 1 + after.length ≤ w.toNat * h.toNat := by
    have := spelled_length t (w.toNat * h.toNat) (bitsOf payload)
    rw [h1] at this
    simp at this
    omega
  have fine : ∀ {ds out}, paintedOr p.scan w h (addUp (0, 0, 0) ds) = .ok out → ds.length ≤ w.toNat * h.toNat →
      (addUp (0, 0, 0) ds).2 = true := by
    intro ds out ho hl
    unfold paintedOr at ho
    split at ho
    · next hc =>
      rcases hc with hc | hc
      · cases hb : (addUp (0, 0, 0) ds).2 with
        | true => rfl
        | false => have := addUp_short _ _ hb; omega
      · exact hc
    · cases ho
  have f1 := fine ho (by simp; omega)
  have f2 := fine ho' (by simp; omega)
  rw [paintedOr_ok ho, paintedOr_ok ho']
  constructor
  · apply along_take (hs _ _)
    exact prefix_take (addUp_prefix (List.prefix_append before _) _) (addUp_prefix (List.prefix_append before _) _) (by
      rw [addUp_length _ _ (addUp_front f1)])
  · intro j x y hj hj' hx hy
    rw [along_painted (hs _ _), List.getElem?_map, List.getElem?_range (by omega), Option.map_some] at hx hy
    have l1 : j < (addUp (0, 0, 0) (before ++ d :: after)).1.length := by rw [addUp_length _ _ f1]; simp; omega
    have l2 : j < (addUp (0, 0, 0) (before ++ d' :: after)).1.length := by rw [addUp_length _ _ f2]; simp; omega
    rw [List.getElem?_eq_getElem l1] at hx
    rw [List.getElem?_eq_getElem l2] at hy
    rw [Option.getD_some, Option.some.injEq] at hx hy
    obtain ⟨a1, a2, a3⟩ := addUp_getElem f1 l1
    obtain ⟨b1, b2, b3⟩ := addUp_getElem f2 l2
    rw [hx] at a1 a2 a3
    rw [hy] at b1 b2 b3
    obtain ⟨k, rfl⟩ : ∃ k, j = before.length + k := ⟨j - before.length, by omega⟩
    have e : ∀ (f : SignedColor → Int) (z : SignedColor), (((before ++ z :: after).take (before.length + k + 1)).map f).sum =
        (before.map f).sum + (f z + ((after.take k).map f).sum) := by
      intro f z
      rw [Nat.add_assoc, List.take_append, List.take_of_length_le (by omega), Nat.add_sub_cancel_left, List.take_succ_cons,
        List.map_append, List.sum_append, List.map_cons, List.sum_cons]
    rw [e] at a1 a2 a3 b1 b2 b3
    omega

/-! ## Codes -/

/-- **C113**, hufman and cluster-colors: if one colour is read instead of another one and everything else is read as before, then one pixel
changes. -/
theorem C113_hufman_one {p : Setup} {w h : UInt32} {t : BinTrie (Rgb UInt8)} {payload payload' : List UInt8}
    {before after : List (Rgb UInt8)} {x x' : Rgb UInt8}
    (h1 : spelled t (w.toNat * h.toNat) (bitsOf payload) = before ++ x :: after)
    (h2 : spelled t (w.toNat * h.toNat) (bitsOf payload') = before ++ x' :: after) {out : RgbImage}
    (ho : AnyCodec.hufman.decode p (bytes (w, h) ++ (treeBytes t ++ payload)) = .ok out) :
    AnyCodec.hufman.decode p (bytes (w, h) ++ (treeBytes t ++ payload')) =
      .ok { out with pixels := out.pixels.set before.length x' } := by
  rw [C75_hufman, C75_size, C75_tree] at ho ⊢
  split at ho
  · cases ho
  next hn =>
  rw [if_neg hn]
  dsimp only at ho ⊢
  rw [h1] at ho
  rw [h2]
  split at ho
  · next hl =>
    cases ho
    rw [if_pos (by simpa using hl)]
    simp
  · cases ho

/-! ## Centroids -/

/-- **C113**, voronoi (release builds): if a centroid is replaced by any other point, a pixel keeps its colour unless it belonged to
the one or belongs to the other. -/
theorem C113_voronoi {p : Setup} (hrel : p.chk = false) (n : UInt64) {w h : UInt32} {before after : List ColorPos} (c c' : ColorPos)
    (rest : List UInt8) (ha : 3 * (w.toNat * h.toNat) < 2 ^ 63) (hl : before.length + 1 + after.length < 2 ^ 64) :
    ∃ px px', (AnyCodec.voronoi n).decode p (voronoiBytes w h (before ++ c :: after) ++ rest) = .ok ⟨w, h, px⟩ ∧
      (AnyCodec.voronoi n).decode p (voronoiBytes w h (before ++ c' :: after) ++ rest) = .ok ⟨w, h, px'⟩ ∧
      ∀ i, i < w.toNat * h.toNat →
        let dist := fun c => wrappedSqDist c (i % w.toNat) (i / w.toNat)
        px[i]? = px'[i]? ∨ IsFirstMin dist (before ++ c :: after) c ∨ IsFirstMin dist (before ++ c' :: after) c' := by
  obtain ⟨px, h1, -, h2⟩ := C48_release w h (before ++ c :: after) rest ha (by simp; omega) (by simp)
  obtain ⟨px', h3, -, h4⟩ := C48_release w h (before ++ c' :: after) rest ha (by simp; omega) (by simp)
  refine ⟨px, px', ?_, ?_, ?_⟩
  · show voronoiDecode p.chk _ = _
    rw [hrel, h1]
  · show voronoiDecode p.chk _ = _
    rw [hrel, h3]
  · intro i hi dist
    obtain ⟨best, e1, m1⟩ := h2 i hi
    obtain ⟨best', e2, m2⟩ := h4 i hi
    rcases firstMin_replaced m1 m2 with h | rfl | rfl
    · left; rw [e1, e2, h]
    · exact .inr (.inl m1)
    · exact .inr (.inr m2)

/-! ## Damage that spreads -/

/-- The number of pixels that are different when byte `i` of the file of a picture is replaced by `b` (`none` if it is not decoded
any more). -/
def damageDone (p : Setup) (c : AnyCodec) (img : Img) (i : Nat) (b : UInt8) : Option (Option Nat) :=
  match c.encode p 0 img with
  | .ok m =>
    match bytesOf m with
    | .ok file =>
      if i < file.length then
        match c.decode p (file.set i b) with
        | .ok out => some (some (differences img.rgbPixels out.pixels))
        | _ => some none
      else none
    | _ => none
  | _ => none

/-- **C113**, the other codecs have no such bound: in a row of ten equal pixels one changed byte of the file changes all of them
with zip(dict) and five of them with zip(back); in a row of ten pixels of five colours one changed byte of the bits of the hufman
codec changes eight, and in a row of nine pixels of three colours one changed byte makes the file undecodable. -/
theorem C113_spreads :
    damageDone ExtremeExamples.release (.zip .dict) (redRow [9, 9, 9, 9, 9, 9, 9, 9, 9, 9] (by decide)) 24 7 = some (some 10) ∧
    damageDone ExtremeExamples.release (.zip .back) (redRow [9, 9, 9, 9, 9, 9, 9, 9, 9, 9] (by decide)) 18 7 = some (some 5) ∧
    damageDone ExtremeExamples.release .hufman (redRow [1, 1, 1, 1, 2, 2, 3, 3, 4, 5] (by decide)) 72 0x90 = some (some 8) ∧
    damageDone ExtremeExamples.release .hufman (redRow [1, 1, 1, 1, 1, 1, 1, 2, 3] (by decide)) 46 0x00 = some none := by
  decide +kernel

/-! ## Concrete cases -/

namespace DamageExamples
open ExtremeExamples (release release_lawful)
open EditExamples (visits tree file hufman_file row voronoi_row)

/-- C113, hufman: two files that agree in the first byte of the bits, the first eight of nine pixels. -/
example : ∃ out out', AnyCodec.hufman.decode release (bytes ((3, 3) : UInt32 × UInt32) ++ (treeBytes tree ++ ([0x60] ++ [0x00]))) = .ok out ∧
    AnyCodec.hufman.decode release (bytes ((3, 3) : UInt32 × UInt32) ++ (treeBytes tree ++ ([0x60] ++ [0x80]))) = .ok out' ∧
    out.pixels.take 8 = out'.pixels.take 8 ∧ out ≠ out' := by
  have h : AnyCodec.hufman.decode release (bytes ((3, 3) : UInt32 × UInt32) ++ (treeBytes tree ++ ([0x60] ++ [0x00]))) =
      .ok ⟨3, 3, spelled tree 9 (bitsOf [0x60, 0x00])⟩ := by
    rw [C75_hufman, C75_size, if_neg (by decide), C75_tree]
    exact if_pos (by decide +kernel)
  have h' : AnyCodec.hufman.decode release (bytes ((3, 3) : UInt32 × UInt32) ++ (treeBytes tree ++ ([0x60] ++ [0x80]))) =
      .ok ⟨3, 3, spelled tree 9 (bitsOf [0x60, 0x80])⟩ := by
    rw [C75_hufman, C75_size, if_neg (by decide), C75_tree]
    exact if_pos (by decide +kernel)
  refine ⟨_, _, h, h', ?_, by decide +kernel⟩
  obtain ⟨h1, h2⟩ := C113_hufman_before h h'
  have e : (spelled tree ((3 : UInt32).toNat * (3 : UInt32).toNat) (bitsOf [0x60])).length = 8 := by decide +kernel
  rw [← e, ← List.prefix_iff_eq_take.1 h1, ← List.prefix_iff_eq_take.1 h2]

/-- Two differences: up by ten, and none. -/
def steps : BinTrie SignedColor := .branch (.leaf ⟨10, 0, 5⟩) (.leaf ⟨0, 0, 0⟩)

theorem delta_steps (b : UInt8) (hb : b = 0x70 ∨ b = 0x30) :
    AnyCodec.delta.decode release (bytes ((4, 1) : UInt32 × UInt32) ++ (treeBytes steps ++ [b])) =
      .ok (painted release.scan 4 1 (addUp (0, 0, 0) (spelled steps 4 (bitsOf [b]))).1) := by
  rw [C75_delta visits, C75_size, if_neg (by decide), C75_tree_diff]
  rcases hb with rfl | rfl <;> exact if_pos (by decide +kernel)

/-- C113, delta: up once, then the same colour three times; with another bit, up twice. -/
example : (∀ x y, (along release.scan (painted release.scan 4 1 (addUp (0, 0, 0) (spelled steps 4 (bitsOf [0x70]))).1))[3]? = some x →
    (along release.scan (painted release.scan 4 1 (addUp (0, 0, 0) (spelled steps 4 (bitsOf [0x30]))).1))[3]? = some y →
    (y.r.toNat : Int) - x.r.toNat = 10 ∧ (y.g.toNat : Int) - x.g.toNat = 0 ∧ (y.b.toNat : Int) - x.b.toNat = 5) := by
  intro x y hx hy
  exact (C113_delta_shift visits (w := 4) (h := 1) (t := steps) (payload := [0x70]) (payload' := [0x30])
    (before := [⟨10, 0, 5⟩]) (d := ⟨0, 0, 0⟩) (d' := ⟨10, 0, 5⟩) (after := [⟨0, 0, 0⟩, ⟨0, 0, 0⟩]) (by decide +kernel) (by decide +kernel)
    (delta_steps _ (.inl rfl)) (delta_steps _ (.inr rfl))).2 3 x y (by decide) (by decide) hx hy

/-- C113, delta: the beginning. -/
example : ∃ l, l.length = 4 ∧ l <+: along release.scan (painted release.scan 4 1 (addUp (0, 0, 0) (spelled steps 4 (bitsOf [0x70]))).1) :=
  ⟨_, by decide +kernel, (C113_delta_before visits (w := 4) (h := 1) (t := steps) (payload := [0x70]) (rest := []) (rest' := [])
    (delta_steps _ (.inl rfl)) (delta_steps _ (.inl rfl))).1⟩

/-- C113, hufman: one bit, one pixel. -/
example : AnyCodec.hufman.decode release (bytes ((2, 2) : UInt32 × UInt32) ++ (treeBytes tree ++ [0x40])) =
    .ok ⟨2, 2, [⟨10, 20, 30⟩, ⟨200, 100, 0⟩, ⟨10, 20, 30⟩, ⟨10, 20, 30⟩]⟩ :=
  C113_hufman_one (t := tree) (payload := [0x60]) (before := [⟨10, 20, 30⟩, ⟨200, 100, 0⟩]) (x := ⟨200, 100, 0⟩)
    (x' := ⟨10, 20, 30⟩) (after := [⟨10, 20, 30⟩]) (by decide +kernel) (by decide +kernel) hufman_file

theorem rle_row (rest : List UInt8) (hr : rest = runBytes (2, ⟨7, 7, 7⟩) ∨ rest = runBytes (2, ⟨8, 8, 8⟩)) :
    (AnyCodec.hilbert (.rle (.fin 0))).decode release (bytes ((4, 1) : UInt32 × UInt32) ++ ([(2, ⟨1, 2, 3⟩)].flatMap runBytes ++ rest)) =
      .ok (painted release.scan 4 1 (rleColors ([(2, ⟨1, 2, 3⟩)].flatMap runBytes ++ rest)).1) := by
  rw [C75_hilbert_rle visits, C75_size, if_neg (by decide)]
  rcases hr with rfl | rfl <;> exact if_pos (by decide +kernel)

/-- C113, hilbert(rle): the first two pixels. -/
example : [⟨1, 2, 3⟩, ⟨1, 2, 3⟩] <+: along release.scan (painted release.scan 4 1
    (rleColors ([(2, ⟨1, 2, 3⟩)].flatMap runBytes ++ runBytes (2, ⟨8, 8, 8⟩))).1) :=
  (C113_rle_before visits (by decide) (rle_row _ (.inl rfl)) (rle_row _ (.inr rfl))).2

/-- C113, hilbert(rle): a file that is written, and the count of its first run set to 2. -/
example : ∃ m runs, (AnyCodec.hilbert (.rle (.fin 0))).encode release 0 (redRow [5, 6, 6, 7] (by decide)) = .ok m ∧
    bytesOf m = .ok (bytes ((4, 1) : UInt32 × UInt32) ++ runs.flatMap runBytes) ∧
    ∀ before run after, runs = before ++ run :: after → run.1 ≠ 2 →
      (AnyCodec.hilbert (.rle (.fin 0))).decode release (bytes ((4, 1) : UInt32 × UInt32) ++
        (before.flatMap runBytes ++ ((runBytes run).set 0 2 ++ after.flatMap runBytes))) =
        .ok (painted release.scan 4 1 (expandRuns (before ++ (2, run.2) :: after))) := by
  obtain ⟨m, runs, h1, h2, h3⟩ := C113_rle release_lawful visits 0 (.fin 0) (img := redRow [5, 6, 6, 7] (by decide))
    (by unfold Addressable; decide)
  refine ⟨m, runs, h1, h2, ?_⟩
  intro before run after h hne
  have := h3 before run after h 0 2 (by decide) (by rw [runBytes_mk]; simpa using hne)
  rw [if_neg (by decide)] at this
  exact this

/-- C113, hilbert(rle): the bound is reached. -/
example : differences (painted release.scan 4 1 (expandRuns ([(1, ⟨5, 0, 0⟩)] ++ (2, ⟨6, 0, 0⟩) :: [(1, ⟨7, 0, 0⟩)]))).pixels
    (painted release.scan 4 1 (expandRuns ([(1, ⟨5, 0, 0⟩)] ++ (2, ⟨9, 0, 0⟩) :: [(1, ⟨7, 0, 0⟩)]))).pixels = 2 := by decide +kernel

/-- C113, voronoi: the second centroid moved. -/
example : ∃ px px', (AnyCodec.voronoi 2).decode release (row ++ []) = .ok ⟨4, 2, px⟩ ∧
    (AnyCodec.voronoi 2).decode release (voronoiBytes 4 2 ([⟨0, 0, ⟨10, 20, 30⟩⟩] ++ ⟨2, 1, ⟨200, 100, 0⟩⟩ :: []) ++ []) = .ok ⟨4, 2, px'⟩ ∧
    ∀ i, i < 8 → px[i]? = px'[i]? ∨
      IsFirstMin (fun c => wrappedSqDist c (i % 4) (i / 4)) [⟨0, 0, ⟨10, 20, 30⟩⟩, ⟨3, 1, ⟨200, 100, 0⟩⟩] ⟨3, 1, ⟨200, 100, 0⟩⟩ ∨
      IsFirstMin (fun c => wrappedSqDist c (i % 4) (i / 4)) [⟨0, 0, ⟨10, 20, 30⟩⟩, ⟨2, 1, ⟨200, 100, 0⟩⟩] ⟨2, 1, ⟨200, 100, 0⟩⟩ :=
  C113_voronoi rfl 2 (before := [⟨0, 0, ⟨10, 20, 30⟩⟩]) (after := []) ⟨3, 1, ⟨200, 100, 0⟩⟩ ⟨2, 1, ⟨200, 100, 0⟩⟩ [] (by decide) (by decide)

/-- The data of a row of pixels, nothing compressed: each byte a symbol of two bytes. -/
def plain (l : List UInt8) : List UInt8 := l.flatMap fun b => [b, 0]

/-- The size 2 × 1, one pixel, and the first byte of the next one. -/
def front : List UInt8 := plain ([2, 0, 0, 0, 1, 0, 0, 0] ++ [3, 0, 0, 0, 0, 0, 0, 0, 9, 9, 9, 3])

/-- The rest of another pixel. -/
def back (x : UInt8) : List UInt8 := plain [0, 0, 0, 0, 0, 0, 0, x, x, x]

theorem dict_decodes (x : UInt8) (hx : x = 1 ∨ x = 2) : (AnyCodec.zip .dict).decode release (front ++ back x) =
    .ok ⟨2, 1, [⟨9, 9, 9⟩, ⟨x, x, x⟩]⟩ := by
  rw [C75_zip_dict]
  rcases hx with rfl | rfl <;> decide +kernel

theorem take_of {a b : List (Rgb UInt8)} {n : Nat} (h : let k := n; a.take k = b.take k) {m : Nat} (e : n = m) : a.take m = b.take m :=
  e ▸ h

/-- C113, zip(dict). -/
example : (RgbImage.mk 2 1 [⟨9, 9, 9⟩, ⟨1, 1, 1⟩]).pixels.take 1 = (RgbImage.mk 2 1 [⟨9, 9, 9⟩, ⟨2, 2, 2⟩]).pixels.take 1 :=
  take_of (C113_zip_dict_before (dict_decodes 1 (.inl rfl)) (dict_decodes 2 (.inr rfl)) (by decide +kernel)).2.2 (by decide +kernel)

theorem hilbert_zip_decodes (x : UInt8) (hx : x = 1 ∨ x = 2) : (AnyCodec.hilbert .zip).decode release
    (bytes ((2, 1) : UInt32 × UInt32) ++ (plain [3, 0, 0, 0, 0, 0, 0, 0, 9, 9, 9, 3] ++ back x)) =
    .ok ⟨2, 1, [⟨9, 9, 9⟩, ⟨x, x, x⟩]⟩ := by
  rw [C75_hilbert_zip visits, C75_size, if_neg (by decide)]
  rcases hx with rfl | rfl <;> decide +kernel

/-- C113, hilbert(zip). -/
example : (along release.scan ⟨2, 1, [⟨9, 9, 9⟩, ⟨1, 1, 1⟩]⟩).take 1 = (along release.scan ⟨2, 1, [⟨9, 9, 9⟩, ⟨2, 2, 2⟩]⟩).take 1 :=
  take_of (C113_hilbert_zip_before visits (hilbert_zip_decodes 1 (.inl rfl)) (hilbert_zip_decodes 2 (.inr rfl))) (by decide +kernel)

/-- The size 2 × 1 and one pixel as literal bytes: nineteen of them. -/
def literal : List UInt8 := [2, 0, 0, 0, 1, 0, 0, 0] ++ [3, 0, 0, 0, 0, 0, 0, 0, 9, 9, 9]

/-- The other pixel, as literal bytes. -/
def other (x : UInt8) : List UInt8 := [3, 0, 0, 0, 0, 0, 0, 0, x, x, x]

theorem reads_literal (rest out : List UInt8) (e : Ending) (h : Reads Back.ringSize literal rest out e) :
    Reads Back.ringSize [] (symbolBytes (.explicit literal) ++ rest) (literal ++ out) e :=
  .symbol (by simp [Fits, literal]) rfl (by decide) h

theorem back_decodes (x : UInt8) : (AnyCodec.zip .back).decode release
    (symbolBytes (.explicit literal) ++ (symbolBytes (.explicit (other x)) ++ [])) = .ok ⟨2, 1, [⟨9, 9, 9⟩, ⟨x, x, x⟩]⟩ := by
  rw [C75_zip_back _ (reads_literal _ _ _ (.symbol (x := other x) (by simp [Fits, other]) rfl (by simp [other]) (.stop (by decide))))]
  rfl

/-- C113, zip(back). -/
example : (RgbImage.mk 2 1 [⟨9, 9, 9⟩, ⟨1, 1, 1⟩]).pixels.take 1 = (RgbImage.mk 2 1 [⟨9, 9, 9⟩, ⟨2, 2, 2⟩]).pixels.take 1 := by
  have h := reads_literal [] [] _ (.stop (by decide))
  rw [List.append_nil, List.append_nil] at h
  exact take_of (C113_zip_back_before h (back_decodes 1) (back_decodes 2) (by decide)).2.2 (by decide)

end DamageExamples
end Cniic
