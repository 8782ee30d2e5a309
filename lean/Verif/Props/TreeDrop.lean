import Verif.Proofs.TreeDrop
import Verif.Props.Depth

/-!
# Freeing code trees (C115)

The destructor of a code tree calls itself for both children, like reading and writing one (C84).  It never needs more
nested calls than have already been made.
-/

namespace Cniic
open Spec SerSpec

/-- **C115**, one tree: freeing it takes one more nested call than its height, exactly as reading and writing it. -/
theorem C115_one_tree {T : Type} [Ser T] [SerSpec T] [LawfulSer T] (t : BinTrie T) (h : TreeValid t) (depth : Nat) :
    (t.dropDepth depth = true ↔ height t < depth) ∧
    (t.dropDepth depth = true ↔ bytesOf (t.serDepth depth) = .ok (treeBytes t)) ∧
    (t.dropDepth depth = true ↔ ∀ rest, BinTrie.deFuel listNext depth (treeBytes t ++ rest) = (.ok t, rest)) := by
  rw [dropDepth_iff]
  refine ⟨Iff.rfl, ⟨fun hd => ?_, fun he => ?_⟩, ⟨fun hd rest => (deFuel_height t h depth rest).1 hd, fun he => ?_⟩⟩
  · rw [serDepth_height t depth hd]
    exact (emits_tree t h).bytesOf
  · apply Classical.byContradiction
    intro hn
    have := serDepth_overflow t h depth (by omega) (Sink.mem []) (fun _ => rfl)
    unfold bytesOf at he
    rcases hr : t.serDepth depth (Sink.mem []) with ⟨_ | _ | _, s⟩ <;> rw [hr] at this he <;> simp at this he
  · apply Classical.byContradiction
    intro hn
    have := (deFuel_height t h depth []).2 (by omega)
    rw [he []] at this
    cases this

/-- **C115**, reading a tree from any stream: if a right child is missing, the left child is freed while the calls for the
nodes above are still open.  That takes no more room than reading it took. -/
theorem C115_reading {T σ : Type} [Ser T] (next : Rd σ UInt8) (depth : Nat) :
    (BinTrie.deDrop next depth : Rd σ (BinTrie T)) = BinTrie.deFuel next depth :=
  deDrop_eq next depth

/-- **C115**, decoding any file with any room: freeing makes no difference. -/
theorem C115_decoding (p : Setup) (depth : Nat) (c : AnyCodec) (file : List UInt8) :
    c.decodeDrop p depth file = c.decodeDepth p depth file := by
  cases c with
  | hufman => exact hufmanDecodeDrop_eq depth file
  | clusterColors n => exact hufmanDecodeDrop_eq depth file
  | delta => exact deltaDecodeDrop_eq depth p.chk p.scan file
  | voronoi n => rfl
  | hilbert m => rfl
  | zip z => rfl

/-- **C115**, files written by an encoder: the room of C84 is enough for freeing, too. -/
theorem C115_files {p : Setup} (hp : p.Lawful) {fuel : Nat} {c : AnyCodec} {img : Img}
    (hs : VisitsOnce p.scan img.width.toNat img.height.toNat) (ha : Addressable img) {m : W Unit} (hm : c.encode p fuel img = .ok m)
    {file : List UInt8} (hf : bytesOf m = .ok file) :
    (img.pixels.length ≤ 2 ^ 32 → c.decodeDrop p 46 file = c.decode p file) ∧ c.decodeDrop p 92 file = c.decode p file := by
  rw [C115_decoding, C115_decoding]
  exact C84_enough hp hs ha hm hf

/-- **C115**, encoding fewer than `fib (depth + 2)` items: with room for `depth` nested calls, writing and freeing the tree make
no difference, whatever the device does. -/
theorem C115_encoding {T : Type} [DecidableEq T] [Ser T] (M : MinHeap T) {ho : List (T × Nat) → List (T × Nat)} (hho : IsOrder ho)
    (items : List T) (depth : Nat) (hd : items.length < fib (depth + 2)) :
    encodeAllDrop depth M ho items = encodeAll M ho items := by
  unfold encodeAllDrop encodeAll
  rcases hb : build M (ho (countFreqs items)) with _ | ⟨enc, dec⟩
  · rfl
  · have hh := build_height M hho items hb
    have hlt : height dec < depth := by
      apply Classical.byContradiction
      intro hn
      have := fib_mono (show depth + 2 ≤ height dec + 2 by omega)
      omega
    dsimp only
    rw [dropAtEnd_of_lt hlt, serDepth_height dec depth hlt]

/-- **C115**, encoding with less room: the program is aborted when the tree is freed at the latest, even if not a single byte
could be written. -/
theorem C115_aborts {T : Type} [DecidableEq T] [Ser T] (M : MinHeap T) (ho : List (T × Nat) → List (T × Nat)) (items : List T)
    {enc : Enc T} {dec : BinTrie T} (hb : build M (ho (countFreqs items)) = some (enc, dec)) {depth : Nat} (hd : depth ≤ height dec)
    (k : Sink) : (encodeAllDrop depth M ho items k).1 = .panic := by
  unfold encodeAllDrop
  rw [hb]
  exact dropAtEnd_of_le hd _ k

/-! ## Deep trees that are accepted -/

/-- A tree whose codes are 0, 10, 110 and so on. -/
def comb {T : Type} (v : T) : Nat → BinTrie T
  | 0 => .leaf v
  | d + 1 => .branch (.leaf v) (comb v d)

theorem comb_height {T : Type} (v : T) (d : Nat) : height (comb v d) = d := by
  induction d with
  | zero => rfl
  | succ d ih => simp [comb, height, ih]

theorem comb_valid {T : Type} [Ser T] [SerSpec T] [LawfulSer T] {v : T} (hv : valid v) (d : Nat) : TreeValid (comb v d) := by
  induction d with
  | zero =>
    intro p hp
    simp only [comb, leaves, List.mem_singleton] at hp
    subst hp
    exact hv
  | succ d ih =>
    rw [comb, treeValid_branch]
    refine ⟨?_, ih⟩
    intro p hp
    simp only [leaves, List.mem_singleton] at hp
    subst hp
    exact hv

theorem comb_bytes (v : Rgb UInt8) (d : Nat) : (treeBytes (comb v d)).length = 13 * d + 12 := by
  induction d with
  | zero => rfl
  | succ d ih =>
    have : (bytes v).length = 11 := rfl
    simp only [comb, treeBytes, List.length_cons, List.length_append, ih, this]
    omega

/-- One pixel. -/
def dot : Img where
  width := 1
  height := 1
  pixels := [⟨0, 0, 0, 255⟩]
  size := rfl

theorem dot_addressable : Addressable dot := by unfold Addressable dot; decide

/-- A file for one pixel with a tree of height `d`. -/
def combFile (v : Rgb UInt8) (d : Nat) : List UInt8 := bytes (dot.width, dot.height) ++ (treeBytes (comb v d) ++ [0])

/-- **C115**, accepted files: for every `d` there is a file of `13 d + 21` bytes that decodes to one pixel of any given colour,
with room for more than `d` nested calls; with less the stack overflows. -/
theorem C115_accepted (p : Setup) (v : Rgb UInt8) (d depth : Nat) :
    (combFile v d).length = 13 * d + 21 ∧
    AnyCodec.decode p .hufman (combFile v d) = .ok { width := 1, height := 1, pixels := [v] } ∧
    (d < depth → AnyCodec.decodeDrop p depth .hufman (combFile v d) = .ok { width := 1, height := 1, pixels := [v] }) ∧
    (depth ≤ d → AnyCodec.decodeDrop p depth .hufman (combFile v d) = .panic) := by
  have hv := comb_valid (v := v) (rgb_valid v) d
  have hdec : AnyCodec.decode p .hufman (combFile v d) = .ok { width := 1, height := 1, pixels := [v] } := by
    show hufmanDecode _ = _
    rw [combFile, hufmanDecode_eq dot dot_addressable, decodeAll_tree _ hv]
    cases d <;> rfl
  refine ⟨?_, hdec, fun h => ?_, fun h => ?_⟩
  · rw [combFile, List.length_append, List.length_append, comb_bytes, List.length_singleton]
    show 8 + _ = _
    omega
  · rw [C115_decoding, ← hdec]
    exact (hufmanDecodeDepth_eq depth dot dot_addressable _).1 (by
      rw [decodeAllDepth_tree _ hv _ _ (by rw [comb_height]; exact h), decodeAll_tree _ hv])
  · rw [C115_decoding]
    refine (hufmanDecodeDepth_eq depth dot dot_addressable _).2 ?_
    have := (deFuel_height _ hv depth [0]).2 (by rw [comb_height]; exact h)
    rcases hr : (BinTrie.deFuel listNext depth (treeBytes (comb v d) ++ [0]) : Ret Unit (BinTrie (Rgb UInt8)) × _) with ⟨_ | _ | _, s⟩ <;>
      rw [hr] at this <;> simp at this
    exact congrArg Prod.fst (Proc.bind_panic (m := BinTrie.deFuel listNext depth) hr)

/-! ## Concrete cases -/

namespace TreeDropExamples

/-- C115_one_tree: three leaves. -/
example : (BinTrie.branch (.leaf (1 : UInt8)) (.branch (.leaf 2) (.leaf 3))).dropDepth 3 = true ∧
    (BinTrie.branch (.leaf (1 : UInt8)) (.branch (.leaf 2) (.leaf 3))).dropDepth 2 = false := by decide

example := C115_one_tree (comb (⟨1, 2, 3⟩ : Rgb UInt8) 5) (comb_valid (rgb_valid _) 5) 6

/-- C115_reading: the right child is missing, so the left one, with two nodes below each other, is freed. -/
example : (BinTrie.deDrop listNext 3 [1, 1, 0, 7, 0, 8] : Ret Unit (BinTrie UInt8) × _) = (.err (), []) ∧
    (BinTrie.deDrop listNext 2 [1, 1, 0, 7, 0, 8] : Ret Unit (BinTrie UInt8) × _).1 = .panic := by decide

/-- C115_decoding, C115_accepted: 1000 nested calls for 13021 bytes, but not 999. -/
example : AnyCodec.decodeDrop AnyCodecExamples.setup 1001 .hufman (combFile ⟨9, 8, 7⟩ 1000) =
      .ok { width := 1, height := 1, pixels := [⟨9, 8, 7⟩] } ∧
    AnyCodec.decodeDrop AnyCodecExamples.setup 1000 .hufman (combFile ⟨9, 8, 7⟩ 1000) = .panic :=
  ⟨(C115_accepted _ _ 1000 1001).2.2.1 (by decide), (C115_accepted _ _ 1000 1000).2.2.2 (by decide)⟩

/-- C115_files. -/
example := C115_files AnyCodecExamples.setup_lawful (fuel := 0) (c := .hufman) (img := SizeExamples.pair) (.refl _)
  (by unfold Addressable; decide) rfl SizeExamples.file1

/-- C115_encoding: three items with room for 3 nested calls. -/
example : encodeAllDrop 3 (listHeap UInt8) id [7, 9, 7] = encodeAll (listHeap UInt8) id [7, 9, 7] :=
  C115_encoding (listHeap UInt8) (fun _ => .refl _) [7, 9, 7] 3 (by decide)

/-- C115_aborts: with room for one call. -/
example (k : Sink) : (encodeAllDrop 1 (listHeap UInt8) id [7, 9, 7] k).1 = .panic :=
  C115_aborts (listHeap UInt8) id [7, 9, 7] example_build (by decide) k

end TreeDropExamples
end Cniic
