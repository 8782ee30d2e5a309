import Verif.Proofs.CodeLengths
import Verif.Props.Huf
import Verif.Props.Sizes

/-!
# Which items get short codes (C116)

`build` makes a code with the fewest bits in total (C11).  These theorems say what that means for the code of one item.
-/

namespace Cniic
open Spec

section
variable {T : Type} [DecidableEq T]

/-- **C116**, order: an item that is more frequent does not have a longer code. -/
theorem C116_monotone (M : MinHeap T) {ho : List (T × Nat) → List (T × Nat)} (hho : IsOrder ho) {items : List T}
    {enc : Enc T} {dec : BinTrie T} (hb : build M (ho (countFreqs items)) = some (enc, dec)) {x y : T} {a b : BitArray}
    (hx : enc.get x = some a) (hy : enc.get y = some b) (h : items.count y < items.count x) : a.len ≤ b.len := by
  obtain ⟨hnd, -, hbest, -, hl⟩ := build_best M hho hb
  obtain ⟨h1, h2⟩ := hl x a hx
  obtain ⟨h3, h4⟩ := hl y b hy
  rw [h2, h4]
  exact hbest.monotone hnd h1 h3 h

/-- **C116**, long codes: an item with a code of `k` bits occurs at most once in `fib (k + 1)` items, roughly. -/
theorem C116_share (M : MinHeap T) {ho : List (T × Nat) → List (T × Nat)} (hho : IsOrder ho) {items : List T}
    {enc : Enc T} {dec : BinTrie T} (hb : build M (ho (countFreqs items)) = some (enc, dec)) {x : T} {a : BitArray}
    (hx : enc.get x = some a) : items.count x * fib (a.len + 1) + fib a.len ≤ items.length := by
  obtain ⟨hnd, hmem, hbest, hw, hl⟩ := build_best M hho hb
  obtain ⟨h1, h2⟩ := hl x a hx
  rw [h2, ← hw]
  exact BestTree.share _ _ dec rfl (hbest.tree hnd) (fun s hs => List.count_pos_iff.2 ((hmem s).1 hs)) (codeOf_mem h1)

/-- **C116**, frequent items: at most 1 bit for half of the items, at most 2 bits for a third, 3 bits for a fifth, 4 bits
for an eighth, and so on. -/
theorem C116_frequent (M : MinHeap T) {ho : List (T × Nat) → List (T × Nat)} (hho : IsOrder ho) {items : List T}
    {enc : Enc T} {dec : BinTrie T} (hb : build M (ho (countFreqs items)) = some (enc, dec)) {x : T} {a : BitArray}
    (hx : enc.get x = some a) {k : Nat} (hk : items.length ≤ items.count x * fib (k + 2)) : a.len ≤ k := by
  apply Nat.le_of_not_lt
  intro hlt
  have h1 := C116_share M hho hb hx
  have h2 := Nat.mul_le_mul_left (items.count x) (fib_mono (m := k + 2) (n := a.len + 1) (by omega))
  have h3 := fib_mono (m := 1) (n := a.len) (by omega)
  rw [show fib 1 = 1 from rfl] at h3
  omega

/-- **C116**, the most frequent item: more than two fifths of the items are enough for a code of at most 1 bit. -/
theorem C116_two_fifths (M : MinHeap T) {ho : List (T × Nat) → List (T × Nat)} (hho : IsOrder ho) {items : List T}
    {enc : Enc T} {dec : BinTrie T} (hb : build M (ho (countFreqs items)) = some (enc, dec)) {x : T} {a : BitArray}
    (hx : enc.get x = some a) (hmax : ∀ y ∈ items, y ≠ x → items.count y < items.count x)
    (h : 2 * items.length < 5 * items.count x) : a.len ≤ 1 := by
  obtain ⟨hnd, hmem, hbest, hw, hl⟩ := build_best M hho hb
  obtain ⟨h1, h2⟩ := hl x a hx
  rw [h2]
  exact (hbest.tree hnd).two_fifths hnd (codeOf_mem h1) (fun y hy => hmax y ((hmem y).1 hy)) (by rw [hw]; exact h)

/-- **C116**, rare items: with three different items, one that makes up less than a third has a code of at least 2 bits. -/
theorem C116_rare (M : MinHeap T) {ho : List (T × Nat) → List (T × Nat)} (hho : IsOrder ho) {items : List T}
    {enc : Enc T} {dec : BinTrie T} (hb : build M (ho (countFreqs items)) = some (enc, dec)) {x : T} {a : BitArray}
    (hx : enc.get x = some a) {S : List T} (hS : Distinct S items) (h3 : 3 ≤ S.length)
    (h : 3 * items.count x < items.length) : 2 ≤ a.len := by
  obtain ⟨hnd, hmem, hbest, hw, hl⟩ := build_best M hho hb
  obtain ⟨h1, h2⟩ := hl x a hx
  have hlen : (symbols dec).length = S.length := ((List.perm_ext_iff_of_nodup hnd hS.1).2 fun y => by rw [hmem, hS.2]).length_eq
  rw [h2]
  have hm := codeOf_mem h1
  match hc : codeOf dec x with
  | [] =>
    rw [hc] at hm
    have := leaf_here hm
    rw [this] at hlen
    simp [symbols, leaves] at hlen
    omega
  | [c] =>
    rw [hc] at hm
    have := (hbest.tree hnd).third hm (by omega)
    rw [hw] at this
    omega
  | _ :: _ :: _ => simp

/-- **C116**, similar frequencies: if no item is as frequent as two others together, then the codes of `n` different items
have the two lengths next to the logarithm of `n`. -/
theorem C116_even (M : MinHeap T) {ho : List (T × Nat) → List (T × Nat)} (hho : IsOrder ho) {items : List T}
    {enc : Enc T} {dec : BinTrie T} (hb : build M (ho (countFreqs items)) = some (enc, dec)) {x : T} {a : BitArray}
    (hx : enc.get x = some a) {S : List T} (hS : Distinct S items)
    (heven : ∀ u ∈ S, ∀ y ∈ S, ∀ z ∈ S, y ≠ z → items.count u < items.count y + items.count z) :
    2 ^ a.len < 2 * S.length ∧ S.length < 2 ^ (a.len + 1) := by
  obtain ⟨hnd, hmem, hbest, hw, hl⟩ := build_best M hho hb
  obtain ⟨h1, h2⟩ := hl x a hx
  have hm : ∀ y, y ∈ symbols dec ↔ y ∈ S := fun y => by rw [hmem, hS.2]
  have hlen : (symbols dec).length = S.length := ((List.perm_ext_iff_of_nodup hnd hS.1).2 hm).length_eq
  have := hbest.flat hnd (fun u hu y hy z hz => heven u ((hm u).1 hu) y ((hm y).1 hy) z ((hm z).1 hz)) h1
  rw [h2, ← hlen]
  exact ⟨this.2, this.1⟩

theorem fewest_codes (M : MinHeap T) {ho : List (T × Nat) → List (T × Nat)} (hho : IsOrder ho) {items : List T}
    (hne : items ≠ []) {B : Nat} (hB : FewestBits items B) : ∃ enc dec code, build M (ho (countFreqs items)) = some (enc, dec) ∧
      (∀ x ∈ items, ∃ a, enc.get x = some a ∧ a.len = (code x).length) ∧
      PrefixFree items code ∧ B = payloadBits code items := by
  obtain ⟨enc, dec, code, h1, h2, -, h4, -⟩ := C10_complete_prefix_code M ho hho items hne
  obtain ⟨enc', dec', code', g1, g2, g3⟩ := C11_optimal M ho hho items hne
  rw [h1] at g1
  obtain ⟨rfl, rfl⟩ := Prod.mk.inj (Option.some.inj g1)
  have hlen : ∀ x ∈ items, (code x).length = (code' x).length := by
    intro x hx
    obtain ⟨a, e1, e2, -⟩ := fromSlice_msb (code x)
    obtain ⟨b, f1, f2, -⟩ := fromSlice_msb (code' x)
    have := (h2 x hx).symm.trans (g2 x hx)
    rw [e1, f1] at this
    rw [← e2, ← f2, Option.some.inj this]
  have hp : payloadBits code items = payloadBits code' items := by
    unfold payloadBits
    congr 1
    exact List.map_congr_left hlen
  refine ⟨enc, dec, code, h1, fun x hx => ?_, h4, FewestBits.unique hB ⟨⟨code, h4, rfl⟩, fun c hc => hp ▸ g3 c hc⟩⟩
  obtain ⟨a, e1, e2, -⟩ := fromSlice_msb (code x)
  exact ⟨a, by rw [h2 x hx, e1], e2⟩

omit [DecidableEq T] in
theorem payload_ge {code : T → List Bool} {items : List T} {k : Nat} (h : ∀ x ∈ items, k ≤ (code x).length) :
    k * items.length ≤ payloadBits code items := by
  induction items with
  | nil => simp [payloadBits]
  | cons x xs ih =>
    have h1 := ih fun y hy => h y (by simp [hy])
    have h2 := h x (by simp)
    simp only [payloadBits, List.map_cons, List.sum_cons, List.length_cons, Nat.mul_add, Nat.mul_one] at h1 ⊢
    omega

end

/-- **C116**, hufman files without a dominant colour: if no colour covers a third of the image, every pixel takes at least
two bits of the file. -/
theorem C116_files {p : Setup} (hp : p.Lawful) (fuel : Nat) {img : Img} (hne : img.pixels ≠ []) {S : List (Rgb UInt8)}
    (hS : Distinct S img.rgbPixels) (h : ∀ c ∈ S, 3 * img.rgbPixels.count c < img.pixels.length) :
    ∃ m bytes, AnyCodec.hufman.encode p fuel img = .ok m ∧ bytesOf m = .ok bytes ∧
      7 + 13 * S.length + (img.pixels.length + 3) / 4 ≤ bytes.length := by
  obtain ⟨m, bytes, B, h1, h2, hB, h4, -⟩ := C77_hufman hp fuel hne hS
  have hpx : img.rgbPixels ≠ [] := by simpa [Img.rgbPixels] using hne
  have hlen : img.rgbPixels.length = img.pixels.length := by simp [Img.rgbPixels]
  obtain ⟨enc, dec, code, hb, hc, -, e⟩ := fewest_codes p.heapRgb hp.orderRgb hpx hB
  have hpos := List.length_pos_iff.2 hne
  have h3 : 3 ≤ S.length := by
    obtain ⟨hnd, hmem, -, hw, -⟩ := build_best p.heapRgb hp.orderRgb hb
    have hperm := (List.perm_ext_iff_of_nodup hnd hS.1).2 fun y => by rw [hmem, hS.2]
    have hsum : (S.map fun c => img.rgbPixels.count c).sum = img.pixels.length := by
      rw [← hlen, ← hw, ← sum_perm (hperm.map _)]
      unfold wsum symbols
      rw [List.map_map]
      rfl
    match S, h, hsum with
    | [], _, e => simp at e; omega
    | [c], h, e => have := h c (by simp); simp at e; omega
    | [c, d], h, e => have := h c (by simp); have := h d (by simp); simp at e; omega
    | _ :: _ :: _ :: _, _, _ => simp
  have := payload_ge (code := code) (items := img.rgbPixels) (k := 2) (by
    intro x hx
    obtain ⟨a, e1, e2⟩ := hc x hx
    rw [← e2]
    exact C116_rare p.heapRgb hp.orderRgb hb e1 hS h3 (by rw [hlen]; exact h x ((hS.2 x).2 hx)))
  refine ⟨m, bytes, h1, h2, ?_⟩
  omega

/-! ## Examples -/

namespace CodeLengthExamples

/-- Two items with two fifths each, and a third one: the tree, written out. -/
theorem tight_build : build (listHeap UInt8) (id (countFreqs [1, 1, 2, 2, 3])) =
    some (⟨[(1, ⟨[], 2, 3, .msbFirst⟩), (3, ⟨[], 2, 2, .msbFirst⟩), (2, ⟨[], 1, 0, .msbFirst⟩)]⟩,
      .branch (.leaf 2) (.branch (.leaf 3) (.leaf 1))) := by
  have h : countFreqs [(1 : UInt8), 1, 2, 2, 3] = [(1, 2), (2, 2), (3, 1)] := by decide
  simp [h, build, buildDec, buildLoop, listHeap, extractMin, Suffix.ofItem]
  simp [Enc.ofTrie, BinTrie.size, drain, BinTrieIter.new, BinTrieIter.allTheWayLeft,
    BinTrieIter.next, BinTrieIter.popParents, BinTrieIter.popLoop, Enc.insertAll,
    BitArray.fromSlice, packFull, pushBit]
  decide

/-- C116_share is an equality here: 2 · fib 3 + fib 2 = 5.  And C116_frequent cannot be improved: one item less than half. -/
example : ([1, 1, 2, 2, 3] : List UInt8).count 1 * fib (2 + 1) + fib 2 = 5 := by decide

example : 1 ≤ 2 := C116_monotone (listHeap UInt8) (ho := id) (fun _ => .refl _) tight_build (x := 2) (y := 3)
  (a := ⟨[], 1, 0, .msbFirst⟩) (b := ⟨[], 2, 2, .msbFirst⟩) (by decide) (by decide) (by decide)

example : 2 ≤ 2 := C116_frequent (listHeap UInt8) (ho := id) (fun _ => .refl _) tight_build (x := 1)
  (a := ⟨[], 2, 3, .msbFirst⟩) (by decide) (k := 2) (by decide)

example : 2 ≤ 2 := C116_rare (listHeap UInt8) (ho := id) (fun _ => .refl _) tight_build (x := 3)
  (a := ⟨[], 2, 2, .msbFirst⟩) (by decide) (S := [1, 2, 3]) ⟨by decide, by simp⟩ (by decide) (by decide)

/-- Three of seven items are less than half, but more than two fifths. -/
example (enc : Enc UInt8) (dec : BinTrie UInt8) (a : BitArray)
    (hb : build (listHeap UInt8) (id (countFreqs [1, 1, 1, 2, 2, 3, 4])) = some (enc, dec)) (h : enc.get 1 = some a) : a.len ≤ 1 :=
  C116_two_fifths (listHeap UInt8) (ho := id) (fun _ => .refl _) hb h (by decide) (by decide)

/-- Six items with similar frequencies: codes of 2 or 3 bits. -/
example (enc : Enc UInt8) (dec : BinTrie UInt8) (a : BitArray)
    (hb : build (listHeap UInt8) (id (countFreqs [1, 1, 1, 2, 2, 3, 3, 3, 4, 4, 5, 5, 5, 6, 6])) = some (enc, dec))
    (h : enc.get 4 = some a) : 2 ^ a.len < 12 ∧ 6 < 2 ^ (a.len + 1) :=
  C116_even (listHeap UInt8) (ho := id) (fun _ => .refl _) hb h (S := [1, 2, 3, 4, 5, 6]) ⟨by decide, by simp⟩ (by decide)

/-- Four colours, two pixels each. -/
def fourPairs : Img :=
  { width := 4, height := 2
    pixels := (List.range 8).map fun i => ⟨UInt8.ofNat (i / 2), 0, 0, 255⟩, size := by decide }

example {p : Setup} (hp : p.Lawful) : ∃ m bytes, AnyCodec.hufman.encode p 0 fourPairs = .ok m ∧ bytesOf m = .ok bytes ∧
    61 ≤ bytes.length :=
  C116_files hp 0 (by decide) (S := [⟨0, 0, 0⟩, ⟨1, 0, 0⟩, ⟨2, 0, 0⟩, ⟨3, 0, 0⟩])
    ⟨by decide, by
      have e : fourPairs.rgbPixels = [⟨0, 0, 0⟩, ⟨0, 0, 0⟩, ⟨1, 0, 0⟩, ⟨1, 0, 0⟩, ⟨2, 0, 0⟩, ⟨2, 0, 0⟩, ⟨3, 0, 0⟩, ⟨3, 0, 0⟩] := by
        decide
      intro x
      rw [e]
      simp⟩ (by decide)

end CodeLengthExamples

end Cniic
