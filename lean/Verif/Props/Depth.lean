import Verif.Proofs.DictDepth
import Verif.Props.Sizes
import Verif.Props.Huf

/-!
# Depth of code trees (C84)

`BinTrie::deserialize`, `BinTrie::serialize` and the destructor of a tree call themselves for both children.  `fib` are
the Fibonacci numbers.
-/

namespace Cniic
open Spec SerSpec

/-! ## Files that were written by the encoders -/

/-- **C84**, codes are short: in a sequence of `n` items a code of `k` bits needs `fib (k + 2) ≤ n`, and a code has fewer
bits than there are different items.  The whole tree obeys the bound, and writing it takes one more nested call than its
height: with more room it makes no difference, with less the stack overflows. -/
theorem C84_code_length {T : Type} [DecidableEq T] [Ser T] [SerSpec T] [LawfulSer T] (M : MinHeap T)
    {ho : List (T × Nat) → List (T × Nat)} (hho : IsOrder ho) {items : List T} (hne : items ≠ [])
    (hv : ∀ x ∈ items, valid x) {S : List T} (hS : Distinct S items) :
    ∃ enc dec, build M (ho (countFreqs items)) = some (enc, dec) ∧
      (∀ x ∈ items, ∃ code, enc.get x = BitArray.fromSlice code .msbFirst ∧ fib (code.length + 2) ≤ items.length ∧
        code.length < S.length) ∧
      fib (height dec + 2) ≤ items.length ∧ height dec < S.length ∧
      ∀ depth, (height dec < depth → dec.serDepth depth = dec.ser) ∧
        (depth ≤ height dec → bytesOf (dec.serDepth depth) = .panic) := by
  obtain ⟨enc, dec, payload, k, hb, hnd, hmem, _, htv, he, hk, hbits, hget, _⟩ := encodeAll_spec M ho hho items hne hv
  have hh := build_height M hho items hb
  have hsz : dec.size = S.length := by
    rw [← leaves_length, show (leaves dec).length = (symbols dec).length by simp [symbols]]
    apply List.Perm.length_eq
    rw [List.perm_ext_iff_of_nodup hnd hS.1]
    intro x
    rw [hmem, hS.2]
  have hlt := height_lt_size dec
  refine ⟨enc, dec, hb, ?_, hh, by omega, fun depth => ⟨serDepth_height dec depth, fun hd => ?_⟩⟩
  rotate_left
  · have := serDepth_overflow dec htv depth hd (Sink.mem []) (fun _ => rfl)
    unfold bytesOf
    rcases hr : dec.serDepth depth (Sink.mem []) with ⟨_ | _ | _, s⟩ <;> rw [hr] at this <;> simp at this ⊢
  intro x hx
  have hle := path_le_height dec _ (codeOf_mem ((hmem x).2 hx))
  exact ⟨codeOf dec x, hget x ((hmem x).2 hx), Nat.le_trans (fib_mono (by simpa using hle)) hh, by
    have : (codeOf dec x).length ≤ height dec := hle
    omega⟩

theorem hufman_depth (M : MinHeap (Rgb UInt8)) {ho : List (Rgb UInt8 × Nat) → List (Rgb UInt8 × Nat)} (hho : IsOrder ho)
    (img : Img) (ha : Addressable img) {file : List UInt8} (hm : bytesOf (hufmanEncode M ho img) = .ok file) (depth : Nat)
    (hd : img.pixels.length < fib (depth + 2)) : hufmanDecodeDepth depth file = hufmanDecode file := by
  by_cases hne : img.pixels = []
  · rw [C28_empty_image_panics M ho hho img hne] at hm; cases hm
  have hpx : img.rgbPixels ≠ [] := by simpa [Img.rgbPixels] using hne
  obtain ⟨enc, dec, payload, k, hb, hnd, hmem, _, htv, he, _⟩ :=
    encodeAll_spec M ho hho img.rgbPixels hpx fun x _ => rgb_valid x
  have hfile : file = bytes (img.width, img.height) ++ (treeBytes dec ++ payload) := by
    have h := Emits.bind (f := fun _ => encodeAll M ho img.rgbPixels) (anyWay_of_err (emits_dims img)) he
    exact (Ret.ok.inj (h.bytesOf.symm.trans hm)).symm
  have hh := build_height M hho img.rgbPixels hb
  have hlt : height dec < depth := by
    apply Nat.lt_of_not_le
    intro hc
    have := fib_mono (m := depth + 2) (n := height dec + 2) (by omega)
    rw [rgbPixels_length, ← img.size] at hh
    omega
  rw [hfile]
  exact (hufmanDecodeDepth_eq depth img ha _).1 (by
    rw [decodeAllDepth_tree dec htv payload depth hlt, decodeAll_tree dec htv payload])

theorem delta_depth (chk : Bool) {scan : Scan} (M : MinHeap SignedColor)
    {ho : List (SignedColor × Nat) → List (SignedColor × Nat)} (hho : IsOrder ho) (img : Img)
    (hs : VisitsOnce scan img.width.toNat img.height.toNat) (ha : Addressable img) {file : List UInt8}
    (hm : bytesOf (deltaEncode chk scan M ho img) = .ok file) (depth : Nat)
    (hd : img.pixels.length < fib (depth + 2)) :
    deltaDecodeDepth depth chk scan file = deltaDecode chk scan file := by
  have hlen : (diffs black (colorsAlong scan img)).length = img.pixels.length := by
    rw [diffs_length, colorsAlong, List.length_map, linearize_length hs, ← img.size]
  by_cases hne : diffs black (colorsAlong scan img) = []
  · exfalso
    rw [deltaEncode_eq chk M ho hs, hne] at hm
    obtain ⟨n, hn⟩ := (emits_dims img).run_mem []
    unfold bytesOf at hm
    rw [Proc.bind_ok hn, C08_empty_input_panics M ho hho] at hm
    cases hm
  obtain ⟨enc, dec, payload, k, hb, hnd, hmem, _, htv, he, _⟩ :=
    encodeAll_spec M ho hho _ hne fun (x : SignedColor) _ => signedColor_valid x
  have hfile : file = bytes (img.width, img.height) ++ (treeBytes dec ++ payload) := by
    rw [deltaEncode_eq chk M ho hs] at hm
    have h := Emits.bind (f := fun _ => encodeAll M ho (diffs black (colorsAlong scan img)))
      (anyWay_of_err (emits_dims img)) he
    exact (Ret.ok.inj (h.bytesOf.symm.trans hm)).symm
  have hh := build_height M hho _ hb
  have hlt : height dec < depth := by
    apply Nat.lt_of_not_le
    intro hc
    have := fib_mono (m := depth + 2) (n := height dec + 2) (by omega)
    omega
  rw [hfile]
  exact (deltaDecodeDepth_eq depth chk scan img ha _).1 (by
    rw [decodeAllDepth_tree dec htv payload depth hlt, decodeAll_tree dec htv payload])

/-- **C84**, files written by an encoder: for a picture of fewer than `fib (depth + 2)` pixels the decoder needs at most
`depth` nested calls (and 2 for the dictionary). -/
theorem C84_files {p : Setup} (hp : p.Lawful) {fuel : Nat} {c : AnyCodec} {img : Img} (hs : VisitsOnce p.scan img.width.toNat img.height.toNat)
    (ha : Addressable img) {m : W Unit} (hm : c.encode p fuel img = .ok m) {file : List UInt8} (hf : bytesOf m = .ok file) (depth : Nat)
    (hd : img.pixels.length < fib (depth + 2)) (h2 : 2 ≤ depth) : c.decodeDepth p depth file = c.decode p file := by
  cases c with
  | hufman =>
    cases hm
    exact hufman_depth p.heapRgb hp.orderRgb img ha hf depth hd
  | delta =>
    cases hm
    exact delta_depth p.chk p.heapDiff hp.orderDiff img hs ha hf depth hd
  | clusterColors n =>
    simp only [AnyCodec.encode, clusterColorsEncode] at hm
    obtain ⟨cl, hcl', hm⟩ := Ret.bind_ok.1 hm
    obtain ⟨red, hred, hm⟩ := Ret.bind_ok.1 hm
    split at hm
    · rename_i hlen
      cases hm
      have hdim : red.width = img.width ∧ red.height = img.height := by
        unfold reducedImg at hred
        rw [new_eq img ha] at hred
        simp only [Option.bind_eq_bind, Option.bind_some] at hred
        cases ho : optMap (lastLookup (reducedColors cl)) img.rgbPixels with
        | none => rw [ho] at hred; cases hred
        | some px => rw [ho] at hred; cases hred; exact ⟨rfl, rfl⟩
      have har : Addressable (red.toImg hlen) := by
        unfold Addressable RgbImage.toImg
        simp only [hdim.1, hdim.2]
        exact ha
      have hpl : (red.toImg hlen).pixels.length = img.pixels.length := by
        rw [(red.toImg hlen).size, img.size]
        show red.width.toNat * red.height.toNat = _
        rw [hdim.1, hdim.2]
      exact hufman_depth p.heapRgb hp.orderRgb (red.toImg hlen) har hf depth (by rw [hpl]; exact hd)
    · cases hm
  | voronoi n => rfl
  | hilbert m =>
    cases hm
    cases m with
    | rle d => rfl
    | zip => exact hilbertZip_depth _ hs hf h2
  | zip z =>
    cases hm
    cases z with
    | back => rfl
    | dict => exact zipDict_depth p.cap hf h2

theorem fib_small : fib 48 = 4807526976 ∧ fib 94 = 19740274219868223167 := by
  decide +kernel

/-- **C84**, numbers: 46 nested calls are enough for pictures of up to 2^32 pixels, 92 for all pictures. -/
theorem C84_enough {p : Setup} (hp : p.Lawful) {fuel : Nat} {c : AnyCodec} {img : Img} (hs : VisitsOnce p.scan img.width.toNat img.height.toNat)
    (ha : Addressable img) {m : W Unit} (hm : c.encode p fuel img = .ok m) {file : List UInt8} (hf : bytesOf m = .ok file) :
    (img.pixels.length ≤ 2 ^ 32 → c.decodeDepth p 46 file = c.decode p file) ∧
    c.decodeDepth p 92 file = c.decode p file := by
  refine ⟨fun h => C84_files hp hs ha hm hf 46 ?_ (by omega), C84_files hp hs ha hm hf 92 ?_ (by omega)⟩
  · rw [fib_small.1]; omega
  · rw [fib_small.2]
    have : 3 * (img.width.toNat * img.height.toNat) < 2 ^ 63 := ha
    rw [img.size]
    omega

/-! ## Any files -/

/-- **C84**, any file: a limited stack either makes no difference or overflows. -/
theorem C84_any_file (p : Setup) (depth : Nat) (c : AnyCodec) (l : List UInt8) :
    c.decodeDepth p depth l = c.decode p l ∨ c.decodeDepth p depth l = .panic := by
  cases c with
  | hufman => exact hufmanDecodeDepth_or depth l
  | clusterColors n => exact hufmanDecodeDepth_or depth l
  | delta => exact deltaDecodeDepth_or depth p.chk p.scan l
  | voronoi n => exact .inl rfl
  | hilbert m =>
    cases m with
    | rle d => exact .inl rfl
    | zip => exact hilbertZipDepth_or depth p.scan l
  | zip z =>
    cases z with
    | back => exact .inl rfl
    | dict => exact zipDictDepth_or depth l

/-- **C84**, crafted files: whatever the room on the stack, a file one byte longer per nested call overflows it, although
without a limit it is refused. -/
theorem C84_crafted (p : Setup) (depth : Nat) (img : Img) (ha : Addressable img) (n : UInt64) :
    let file := bytes (img.width, img.height) ++ List.replicate depth 1
    file.length = 8 + depth ∧
    (AnyCodec.decodeDepth p depth .hufman file = .panic ∧ AnyCodec.decode p .hufman file = .err ()) ∧
    (AnyCodec.decodeDepth p depth (.clusterColors n) file = .panic ∧
      AnyCodec.decode p (.clusterColors n) file = .err ()) ∧
    AnyCodec.decodeDepth p depth .delta file = .panic := by
  have hov : ∀ {T : Type} [Ser T],
      (decodeAllDepth depth (List.replicate depth 1) : Ret Unit (DecStream T) × _).1 = .panic := by
    intro T _
    have := deFuel_ones (T := T) depth []
    rw [List.append_nil] at this
    rcases hr : (BinTrie.deFuel listNext depth (List.replicate depth 1) : Ret Unit (BinTrie T) × _) with ⟨_ | _ | _, s⟩ <;>
      rw [hr] at this <;> simp at this
    exact congrArg Prod.fst (Proc.bind_panic (m := BinTrie.deFuel listNext depth) hr)
  have hrej : (decodeAll (List.replicate depth 1) : Ret Unit (DecStream (Rgb UInt8)) × _).1 = .err () := by
    have := deFuel_only_ones (T := Rgb UInt8) ((List.replicate depth (1 : UInt8)).length + 1) depth (by simp)
    rcases hr : (BinTrie.de (List.replicate depth 1) : Ret Unit (BinTrie (Rgb UInt8)) × _) with ⟨_ | _ | _, s⟩ <;>
      rw [show BinTrie.deFuel listNext ((List.replicate depth (1 : UInt8)).length + 1) (List.replicate depth 1) =
        (BinTrie.de (List.replicate depth 1) : Ret Unit (BinTrie (Rgb UInt8)) × _) from rfl, hr] at this <;>
      simp at this
    exact congrArg Prod.fst (Proc.bind_err (m := BinTrie.de) hr)
  have hhuf : hufmanDecodeDepth depth (bytes (img.width, img.height) ++ List.replicate depth 1) = .panic ∧
      hufmanDecode (bytes (img.width, img.height) ++ List.replicate depth 1) = .err () := by
    refine ⟨(hufmanDecodeDepth_eq depth img ha _).2 hov, ?_⟩
    rw [hufmanDecode_eq img ha]
    rcases hr : (decodeAll (List.replicate depth 1) : Ret Unit (DecStream (Rgb UInt8)) × _) with ⟨_ | _ | _, s⟩ <;>
      rw [hr] at hrej <;> simp at hrej ⊢
  refine ⟨?_, hhuf, hhuf, (deltaDecodeDepth_eq depth p.chk p.scan img ha _).2 hov⟩
  rw [List.length_append, List.length_replicate]
  rfl

/-! ## The bound is almost reached -/

theorem fib_pos (n : Nat) : 1 ≤ fib (n + 1) := fib_mono (m := 1) (n := n + 1) (by omega)

theorem fib_lt (n : Nat) : fib (n + 2) < fib (n + 3) := by
  show fib (n + 2) < fib (n + 1) + fib (n + 2)
  have := fib_pos n
  omega

/-- From a heap the two entries lighter than all others are taken first. -/
theorem pop_two {T : Type} (M : MinHeap T) {h : M.H} {a b : Suffix T} {l : List (Suffix T)}
    (hp : (M.contents h).Perm (a :: b :: l)) (ha : ∀ u ∈ l, a.freq < u.freq) (hb : ∀ u ∈ l, b.freq < u.freq) :
    ∃ x h1 y h2, M.pop h = some (x, h1) ∧ M.pop h1 = some (y, h2) ∧ ((x = a ∧ y = b) ∨ (x = b ∧ y = a)) ∧
      (M.contents h2).Perm l := by
  cases e1 : M.pop h with
  | none =>
    rw [M.pop_none h e1] at hp
    exact absurd hp.symm.eq_nil (by simp)
  | some r =>
    obtain ⟨x, h1⟩ := r
    obtain ⟨p1, m1⟩ := M.pop_some _ _ _ e1
    have hx : x ∈ a :: b :: l := hp.mem_iff.1 (p1.mem_iff.2 (by simp))
    have hxa := m1 a (hp.mem_iff.2 (by simp))
    have hxl : x ∉ l := fun hc => by have := ha x hc; omega
    have second : ∀ o, (M.contents h1).Perm (o :: l) → (∀ u ∈ l, o.freq < u.freq) →
        ∃ h2, M.pop h1 = some (o, h2) ∧ (M.contents h2).Perm l := by
      intro o ho hlt
      cases e2 : M.pop h1 with
      | none =>
        rw [M.pop_none h1 e2] at ho
        exact absurd ho.symm.eq_nil (by simp)
      | some r =>
        obtain ⟨y, h2⟩ := r
        obtain ⟨p2, m2⟩ := M.pop_some _ _ _ e2
        have hy : y ∈ o :: l := ho.mem_iff.1 (p2.mem_iff.2 (by simp))
        have hyo := m2 o (ho.mem_iff.2 (by simp))
        rcases List.mem_cons.1 hy with rfl | hy
        · exact ⟨h2, rfl, (p2.symm.trans ho).cons_inv⟩
        · have := hlt y hy; omega
    rcases List.mem_cons.1 hx with rfl | hx
    · obtain ⟨h2, e2, hl⟩ := second b (p1.symm.trans hp).cons_inv hb
      exact ⟨x, h1, b, h2, rfl, e2, .inl ⟨rfl, rfl⟩, hl⟩
    · rcases List.mem_cons.1 hx with rfl | hx
      · obtain ⟨h2, e2, hl⟩ := second a (p1.symm.trans (hp.trans (.swap _ _ _))).cons_inv ha
        exact ⟨x, h1, a, h2, rfl, e2, .inr ⟨rfl, rfl⟩, hl⟩
      · exact absurd hx hxl

/-- The leaves of the symbols `j … k`. -/
def fibLeaves {T : Type} (f : Nat → T) (j n : Nat) : List (Suffix T) :=
  (List.range n).map fun i => { freq := fib (j + i + 1), tree := .leaf (f (j + i)) }

theorem buildLoop_fib {T : Type} (M : MinHeap T) (f : Nat → T) (n j : Nat) (h : M.H) (t : Suffix T)
    (hp : (M.contents h).Perm (t :: fibLeaves f (j + 1) n)) (ht : t.freq + 1 = fib (j + 3)) (hh : height t.tree = j)
    {tree : BinTrie T} (hb : buildLoop M h = some tree) : height tree = j + n := by
  induction n generalizing j h t with
  | zero =>
    have hl := hp.length_eq
    rw [buildLoop, if_neg (by rw [M.len_eq, hl]; simp [fibLeaves])] at hb
    cases e : M.pop h with
    | none => rw [e] at hb; cases hb
    | some r =>
      rw [e] at hb
      cases hb
      have := hp.mem_iff.1 ((M.pop_some h r.1 r.2 e).1.mem_iff.2 (List.mem_cons_self ..))
      simp [fibLeaves] at this
      rw [this, hh]; rfl
  | succ n ih =>
    have hsplit : fibLeaves f (j + 1) (n + 1) =
        { freq := fib (j + 2), tree := .leaf (f (j + 1)) } :: fibLeaves f (j + 2) n := by
      unfold fibLeaves
      rw [List.range_succ_eq_map]
      simp only [List.map_cons, List.map_map, Nat.add_zero]
      congr 1
      apply List.map_congr_left
      intro i _
      simp only [Function.comp, Nat.succ_eq_add_one]
      rw [show j + 1 + (i + 1) = j + 2 + i by omega]
    rw [hsplit] at hp
    have hrest : ∀ u ∈ fibLeaves f (j + 2) n, fib (j + 3) ≤ u.freq := by
      intro u hu
      obtain ⟨i, -, rfl⟩ := List.mem_map.1 hu
      exact fib_mono (by omega)
    obtain ⟨x, h1, y, h2, e1, e2, hxy, hl⟩ := pop_two M hp
      (fun u hu => by have := hrest u hu; omega)
      (fun u hu => by have := hrest u hu; have := fib_lt j; simp only; omega)
    have hlen := hp.length_eq
    rw [buildLoop, if_pos (by rw [M.len_eq, hlen]; simp)] at hb
    split at hb
    · cases hb
    · rename_i left h1' el
      rw [e1] at el
      cases el
      split at hb
      · cases hb
      · rename_i right h2' er
        rw [e2] at er
        cases er
        have := ih (j + 1) _ _ ((M.contents_push h2 _).trans (hl.cons _)) (by
          show x.freq + y.freq + 1 = fib (j + 2) + fib (j + 3)
          rcases hxy with ⟨rfl, rfl⟩ | ⟨rfl, rfl⟩ <;> simp only <;> omega) (by
          show max (height x.tree) (height y.tree) + 1 = j + 1
          rcases hxy with ⟨rfl, rfl⟩ | ⟨rfl, rfl⟩ <;> simp only [height] <;> omega) hb
        omega

/-- The symbols `0 … k`, as often as the Fibonacci numbers say: 1, 1, 2, 3, 5, … -/
def fibItems {T : Type} (f : Nat → T) (k : Nat) : List T :=
  (List.range (k + 1)).flatMap fun i => List.replicate (fib (i + 1)) (f i)

theorem fibItems_length {T : Type} (f : Nat → T) (k : Nat) : (fibItems f k).length + 1 = fib (k + 3) := by
  induction k with
  | zero => rfl
  | succ k ih =>
    have : fibItems f (k + 1) = fibItems f k ++ List.replicate (fib (k + 2)) (f (k + 1)) := by
      unfold fibItems
      rw [List.range_succ, List.flatMap_append]
      simp
    rw [this, List.length_append, List.length_replicate]
    show _ = fib (k + 2) + fib (k + 3)
    omega

theorem fibItems_count {T : Type} [DecidableEq T] {f : Nat → T} {k : Nat} (hf : ∀ i ≤ k, ∀ j ≤ k, f i = f j → i = j)
    {i : Nat} (hi : i ≤ k) : (fibItems f k).count (f i) = fib (i + 1) := by
  have key : ∀ m ≤ k, (fibItems f m).count (f i) = if i ≤ m then fib (i + 1) else 0 := by
    intro m
    induction m with
    | zero =>
      intro _
      have e : fibItems f 0 = [f 0] := rfl
      rw [e]
      by_cases h0 : i = 0
      · subst h0; simp [fib]
      · have : f 0 ≠ f i := fun h => h0 (hf 0 (by omega) i hi h).symm
        simp [this, h0]
    | succ m ih =>
      intro hm
      have : fibItems f (m + 1) = fibItems f m ++ List.replicate (fib (m + 2)) (f (m + 1)) := by
        unfold fibItems
        rw [List.range_succ, List.flatMap_append]
        simp
      rw [this, List.count_append, ih (by omega), List.count_replicate]
      by_cases h1 : i = m + 1
      · subst h1; simp
      · have hne : ¬ f (m + 1) = f i := fun h => h1 (hf _ hm _ hi h).symm
        by_cases h2 : i ≤ m
        · simp [hne, h2, show i ≤ m + 1 by omega]
        · simp [hne, h2, show ¬ i ≤ m + 1 by omega]
  rw [key k (Nat.le_refl _), if_pos hi]

theorem mem_fibItems {T : Type} (f : Nat → T) (k : Nat) (x : T) : x ∈ fibItems f k ↔ ∃ i ≤ k, f i = x := by
  unfold fibItems
  simp only [List.mem_flatMap, List.mem_range, List.mem_replicate]
  constructor
  · rintro ⟨i, hi, -, rfl⟩; exact ⟨i, by omega, rfl⟩
  · rintro ⟨i, hi, rfl⟩; exact ⟨i, by omega, by have := fib_pos i; omega, rfl⟩

/-- **C84**, the bound is almost reached: `k + 1` symbols that occur as often as the Fibonacci numbers say, altogether
`fib (k + 3) - 1` items, get a tree of height `k` from every heap. -/
theorem C84_reached {T : Type} [DecidableEq T] (M : MinHeap T) {ho : List (T × Nat) → List (T × Nat)} (hho : IsOrder ho)
    {f : Nat → T} {k : Nat} (hf : ∀ i ≤ k, ∀ j ≤ k, f i = f j → i = j) {enc : Enc T} {dec : BinTrie T}
    (hb : build M (ho (countFreqs (fibItems f k))) = some (enc, dec)) :
    (fibItems f k).length + 1 = fib (k + 3) ∧ height dec = k := by
  refine ⟨fibItems_length f k, ?_⟩
  have hperm : (ho (countFreqs (fibItems f k))).Perm ((List.range (k + 1)).map fun i => (f i, fib (i + 1))) := by
    refine (hho _).trans ?_
    have hn1 : (countFreqs (fibItems f k)).Nodup := by
      have := countFreqs_nodup (fibItems f k)
      exact List.Nodup.of_map _ this
    have hn2 : ((List.range (k + 1)).map fun i => (f i, fib (i + 1))).Nodup := by
      rw [List.nodup_iff_pairwise_ne, List.pairwise_map]
      refine List.Pairwise.imp_of_mem ?_ (List.nodup_range (n := k + 1))
      intro a b ha hb hab hc
      rw [List.mem_range] at ha hb
      exact hab (hf a (by omega) b (by omega) (Prod.mk.inj hc).1)
    rw [List.perm_ext_iff_of_nodup hn1 hn2]
    rintro ⟨x, c⟩
    simp only [List.mem_map, List.mem_range, Prod.mk.injEq]
    constructor
    · intro h
      have hx := (mem_countFreqs (fibItems f k) x).1 (List.mem_map.2 ⟨(x, c), h, rfl⟩)
      obtain ⟨i, hi, rfl⟩ := (mem_fibItems f k x).1 hx
      have hc := countFreqs_count (fibItems f k) _ h
      rw [fibItems_count hf hi] at hc
      exact ⟨i, by omega, rfl, hc.symm⟩
    · rintro ⟨i, hi, rfl, rfl⟩
      obtain ⟨q, hq, e⟩ := List.mem_map.1 ((mem_countFreqs (fibItems f k) (f i)).2
        ((mem_fibItems f k _).2 ⟨i, by omega, rfl⟩))
      have hc := countFreqs_count (fibItems f k) _ hq
      rw [e, fibItems_count hf (by omega)] at hc
      rw [show (f i, fib (i + 1)) = q from Prod.ext e.symm hc.symm]
      exact hq
  unfold build at hb
  split at hb
  · cases hb
  · rename_i t ht
    split at hb
    · cases hb
    · simp only [Option.some.injEq, Prod.mk.injEq] at hb
      obtain ⟨-, rfl⟩ := hb
      unfold buildDec at ht
      simp only at ht
      split at ht
      · have := buildLoop_fib M f k 0 _ { freq := 1, tree := .leaf (f 0) }
          ((M.contents_fromIter _).trans ((hperm.map Suffix.ofItem).trans (by
            rw [List.map_map, List.range_succ_eq_map]
            unfold fibLeaves
            simp only [List.map_cons, List.map_map, Function.comp_def, Suffix.ofItem]
            refine .of_eq ?_
            congr 1
            apply List.map_congr_left
            intro i _
            rw [show 0 + 1 + i = i + 1 by omega]))) rfl rfl ht
        omega
      · cases ht

/-- A row of pixels in shades of red that occur as often as the Fibonacci numbers say. -/
def fibRow (k : Nat) (hk : k ≤ 44) : Img where
  width := UInt32.ofNat (fib (k + 3) - 1)
  height := 1
  pixels := fibItems (fun i => ⟨UInt8.ofNat i, 0, 0, 255⟩) k
  size := by
    have h1 := fibItems_length (fun i => (⟨UInt8.ofNat i, 0, 0, 255⟩ : Rgba)) k
    have h2 := fib_mono (m := k + 3) (n := 47) (by omega)
    have h3 : fib 47 = 2971215073 := by decide +kernel
    show _ = (UInt32.ofNat (fib (k + 3) - 1)).toNat * 1
    rw [UInt32.toNat_ofNat', Nat.mod_eq_of_lt (by omega)]
    omega

theorem fibRow_rgb (k : Nat) (hk : k ≤ 44) :
    (fibRow k hk).rgbPixels = fibItems (fun i => (⟨UInt8.ofNat i, 0, 0⟩ : Rgb UInt8)) k := by
  show List.map _ (fibItems _ k) = _
  unfold fibItems
  rw [List.map_flatMap]
  simp only [List.map_replicate]
  rfl

/-- **C84**, in pictures: for each `k` up to 44 there is a picture of `fib (k + 3) - 1` pixels whose hufman file overflows
a stack with room for `k` nested calls. -/
theorem C84_needed {p : Setup} (hp : p.Lawful) (fuel k : Nat) (hk : k ≤ 44) :
    (fibRow k hk).pixels.length + 1 = fib (k + 3) ∧
    ∃ m file, AnyCodec.hufman.encode p fuel (fibRow k hk) = .ok m ∧ bytesOf m = .ok file ∧
      AnyCodec.hufman.decode p file = .ok (fibRow k hk).toRgb ∧ AnyCodec.hufman.decodeDepth p k file = .panic := by
  have hlen : (fibRow k hk).pixels.length + 1 = fib (k + 3) := fibItems_length _ k
  have hb2 := fib_mono (m := k + 3) (n := 47) (by omega)
  have h47 : fib 47 = 2971215073 := by decide +kernel
  have ha : Addressable (fibRow k hk) := by
    show 3 * ((fibRow k hk).width.toNat * (fibRow k hk).height.toNat) < 2 ^ 63
    rw [← (fibRow k hk).size]
    omega
  have hne : (fibRow k hk).rgbPixels ≠ [] := by
    intro h
    have h1 : fib (k + 1 + 1) < fib (k + 3) := fib_lt k
    have h2 := fib_pos (k + 1)
    rw [← List.length_eq_zero_iff, rgbPixels_length, ← (fibRow k hk).size] at h
    omega
  obtain ⟨enc, dec, payload, pad, hb, hnd, hmem, _, htv, he, _⟩ :=
    encodeAll_spec p.heapRgb p.orderRgb hp.orderRgb (fibRow k hk).rgbPixels hne fun x _ => rgb_valid x
  have hem := Emits.bind (f := fun _ => encodeAll p.heapRgb p.orderRgb (fibRow k hk).rgbPixels)
    (anyWay_of_err (emits_dims (fibRow k hk))) he
  obtain ⟨bytes', e', d'⟩ := C28_hufman_lossless p.heapRgb p.orderRgb hp.orderRgb (fibRow k hk) ha
    (by intro h; exact hne (by simp [Img.rgbPixels, h]))
  have hfile : bytes' = bytes ((fibRow k hk).width, (fibRow k hk).height) ++ (treeBytes dec ++ payload) :=
    Ret.ok.inj (e'.bytesOf.symm.trans hem.bytesOf)
  refine ⟨hlen, _, bytes', rfl, e'.bytesOf, d', ?_⟩
  rw [hfile]
  refine (hufmanDecodeDepth_eq k (fibRow k hk) ha _).2 ?_
  rw [fibRow_rgb] at hb
  have hh := (C84_reached p.heapRgb hp.orderRgb (f := fun i => (⟨UInt8.ofNat i, 0, 0⟩ : Rgb UInt8)) (k := k) (by
    intro i hi j hj hij
    have h1 := congrArg (fun c : Rgb UInt8 => c.r.toNat) hij
    simp only [UInt8.toNat_ofNat'] at h1
    omega) hb).2
  have := (deFuel_height dec htv k payload).2 (by omega)
  rcases hr : (BinTrie.deFuel listNext k (treeBytes dec ++ payload) : Ret Unit (BinTrie (Rgb UInt8)) × _) with
    ⟨_ | _ | _, s⟩ <;> rw [hr] at this <;> simp at this
  exact congrArg Prod.fst (Proc.bind_panic (m := BinTrie.deFuel listNext k) hr)

/-! ## Concrete cases -/

/-- C84: five symbols, twelve items, a code of four bits. -/
example : ∃ enc dec, build (listHeap UInt8) (countFreqs (fibItems (fun i => UInt8.ofNat i) 4)) = some (enc, dec) ∧
    height dec = 4 ∧ (fibItems (fun i => UInt8.ofNat i) 4).length = 12 := by
  obtain ⟨enc, dec, hb, -⟩ := C84_code_length (listHeap UInt8) (ho := id) (fun _ => .refl _)
    (items := fibItems (fun i => UInt8.ofNat i) 4) (by decide) (fun _ _ => trivial) (S := [0, 1, 2, 3, 4])
    ⟨by decide, by
      intro x
      rw [mem_fibItems]
      constructor
      · intro hx
        simp only [List.mem_cons, List.not_mem_nil, or_false] at hx
        rcases hx with rfl | rfl | rfl | rfl | rfl
        · exact ⟨0, by decide, rfl⟩
        · exact ⟨1, by decide, rfl⟩
        · exact ⟨2, by decide, rfl⟩
        · exact ⟨3, by decide, rfl⟩
        · exact ⟨4, by decide, rfl⟩
      · rintro ⟨i, hi, rfl⟩
        match i, hi with
        | 0, _ => decide
        | 1, _ => decide
        | 2, _ => decide
        | 3, _ => decide
        | 4, _ => decide⟩
  exact ⟨enc, dec, hb, (C84_reached (listHeap UInt8) (ho := id) (fun _ => .refl _) (by decide) hb).2, by decide⟩

/-- C84: a file of two pixels. -/
example := C84_enough AnyCodecExamples.setup_lawful (fuel := 0) (c := .hufman) (img := SizeExamples.pair) (.refl _)
  (by unfold Addressable; decide) rfl SizeExamples.file1

/-- C84: with 44 the picture has a little fewer than 2^32 pixels. -/
example := C84_needed AnyCodecExamples.setup_lawful 0 44 (by decide)

/-- C84: a file of a thousand and eight bytes against a thousand nested calls. -/
example := C84_crafted AnyCodecExamples.setup 1000 SizeExamples.pair (by unfold Addressable; decide) 1

end Cniic
