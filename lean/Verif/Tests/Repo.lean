import Verif.Props.Huf
import Verif.Props.Clusterc
import Verif.Model.Prs
import Verif.Model.ZipBack
import Verif.Model.ZipDict
import Verif.Core.Ieee

/-!
# The unit tests of the program, run on the model

These are tests of the model, not theorems about all inputs: each example is a `#[test]` of `/repo`, with the values
that it asserts.
-/

namespace Cniic.RepoTests

/-! ## bit.rs:266-494 -/

/-- `byte_of_b0`, `byte_of_b1` (bit.rs:266-273). -/
example : Bit.byte false = 0 ∧ Bit.byte true = 1 := by decide

/-- Bits, or whole bytes. -/
def writeMixed : BitWriter → List (Bit ⊕ UInt8) → W BitWriter
  | w, [] => pure w
  | w, .inl b :: l => do
    let w ← w.write b
    writeMixed w l
  | w, .inr n :: l => do
    let w ← w.writeByte n
    writeMixed w l

/-- `vec_bw` (bit.rs:275-277). -/
def vecBw : BitWriter := .new .msbFirst

/-- `write_x00` (bit.rs:280-287). -/
example : bytesOf (writeMixed vecBw (List.replicate 8 (.inl false))) = .ok [0] := by decide +kernel

/-- `write_xff` (bit.rs:290-297). -/
example : bytesOf (writeMixed vecBw (List.replicate 8 (.inl true))) = .ok [0xff] := by decide +kernel

/-- `interleaved_byte` (bit.rs:300-322). -/
example : bytesOf (writeMixed vecBw
    [.inl false, .inl true, .inl false, .inr 0xf0, .inl false, .inl true, .inl true, .inl false, .inl false]) =
    .ok [0x5e, 0x0c] := by decide +kernel

/-- `bw_mask` (bit.rs:325-349). -/
example : bytesOf (writeMixed vecBw
    [.inl false, .inl false, .inl false, .inl false, .inl true, .inl true, .inl false, .inr 0xff, .inl false]) =
    .ok [0x0d, 0xfe] := by decide +kernel

/-- `bit_mask0` to `bit_mask9` (bit.rs:352-399). -/
example : [0, 1, 2, 3, 4, 5, 6, 7, 8, 9].map bitMask =
    [0, 0b1, 0b11, 0b111, 0b1111, 0b11111, 0b111111, 0b1111111, 0b11111111, 0b11111111] := by decide +kernel

/-- `nth_lsb` (bit.rs:402-414). -/
example : [0, 1, 2, 3, 4, 5, 6, 7].map (nth 0b10110010 · .lsbFirst) =
    [false, true, false, false, true, true, false, true] := by decide +kernel

/-- `nth_msb` (bit.rs:417-429). -/
example : [0, 1, 2, 3, 4, 5, 6, 7].map (nth 0b10110010 · .msbFirst) =
    [true, false, true, true, false, false, true, false] := by decide +kernel

/-- `bit_packing0` (bit.rs:432-442). -/
example : BitArray.fromSlice [false] .msbFirst = some ⟨[], 1, 0, .msbFirst⟩ := by decide +kernel

/-- `bit_packing1` (bit.rs:445-455). -/
example : BitArray.fromSlice [true] .msbFirst = some ⟨[], 1, 1, .msbFirst⟩ := by decide +kernel

/-- `bit_packing2` (bit.rs:458-473). -/
example : BitArray.fromSlice [true, true, true, true, false, false, false, false] .msbFirst =
    some ⟨[0xf0], 0, 0, .msbFirst⟩ := by decide +kernel

/-- `bit_packing3` (bit.rs:476-493). -/
example : BitArray.fromSlice [true, true, true, true, false, false, false, false, true] .msbFirst =
    some ⟨[0xf0], 1, 1, .msbFirst⟩ := by decide +kernel

/-! ## huf.rs:379-541 -/

/-- `huf_abc` (huf.rs:385-387). -/
def hufAbc : Option (Enc Char × BinTrie Char) := build (listHeap Char) [('a', 2), ('b', 1), ('c', 1)]

/-- `builder_is_sane` (huf.rs:390-394). -/
example : hufAbc.map (·.1.codes.length) = some 3 := by decide +kernel

/-- `bintrie_iter1` (huf.rs:397-402). -/
example : drain BinTrieIter.next 2 (.new (.leaf 1)) = .ok [([], 1)] := by decide +kernel

/-- `bintrie_iter2` (huf.rs:405-415). -/
example : drain BinTrieIter.next 3 (.new (.branch (.leaf 0) (.leaf 1))) = .ok [([false], 0), ([true], 1)] := by
  decide +kernel

/-- `code_lens1` (huf.rs:418-424). -/
example : hufAbc.map (fun p => ['a', 'b', 'c'].map fun c => (p.1.get c).map (·.len)) =
    some [some 1, some 2, some 2] := by decide +kernel

/-- `enc_str` (huf.rs:426-433). -/
def encStr (enc : Enc Char) (s : List Char) : Ret IoErr (List UInt8) :=
  bytesOf (do
    let bw ← encodeSymbols enc (.new .msbFirst) s
    bw.padAndFlush)

/-- The symbols decoded by `dec` (huf.rs:446-448). -/
def decStr (dec : BinTrie Char) (n : Nat) (message : List UInt8) : List Char :=
  match n with
  | 0 => []
  | n + 1 => go dec (n + 1) (bitReader message)
where
  go (dec : BinTrie Char) : Nat → BitReader → List Char
    | 0, _ => []
    | n + 1, bits =>
      match dec.lookup (BitReader.next .msbFirst) bits with
      | (.ok c, bits) => c :: go dec n bits
      | _ => []

/-- Encoding and then decoding. -/
def encDec (s : List Char) : Option (List Char) :=
  hufAbc.bind fun (enc, dec) =>
    match encStr enc s with
    | .ok message => some (decStr dec s.length message)
    | _ => none

/-- `enc_dec1` (huf.rs:436-449). -/
example : encDec ['a'] = some ['a'] := by decide +kernel

/-- `enc_dec2` (huf.rs:452-465). -/
example : encDec "abcabcaabbcc".toList = some "abcabcaabbcc".toList := by decide +kernel

/-- `ser1` and with it `enc_dec3` (huf.rs:468-498). -/
example : (hufAbc.bind fun p =>
    match bytesOf p.2.ser with
    | .ok bs => match (BinTrie.de bs : Ret Unit (BinTrie Char) × List UInt8) with
      | (.ok t, []) => some (decide (t = p.2))
      | _ => none
    | _ => none) = some true := by decide +kernel

/-- `encode1` (huf.rs:501-523). -/
example : encStr ⟨[('a', ⟨[], 3, 0b010, .msbFirst⟩), ('b', ⟨[0xf0], 3, 0b011, .msbFirst⟩), ('c', ⟨[], 2, 0, .msbFirst⟩)]⟩
    ['a', 'b', 'c'] = .ok [0x5e, 0x0c] := by decide +kernel

/-- `encode2` (huf.rs:526-540). -/
example : encStr ⟨[('a', ⟨[0xf0], 0, 0, .msbFirst⟩)]⟩ ['a'] = .ok [0xf0] := by decide +kernel

/-! ## zip/dict.rs:614-692 -/

/-- `test_encoding` (zip/dict.rs:615-628): the symbols written. -/
def dictSymbols (input : List UInt8) : Ret IoErr (List UInt16) :=
  match bytesOf (zipDictEncode input) with
  | .ok bs => .ok (go bs)
  | .err e => .err e
  | .panic => .panic
where
  go : List UInt8 → List UInt16
    | a :: b :: rest => UInt16.ofNat (a.toNat + 256 * b.toNat) :: go rest
    | _ => []

/-- `enc0` (zip/dict.rs:631-633). -/
example : dictSymbols [] = .ok [] := by decide +kernel
/-- `enc1` (zip/dict.rs:636-638). -/
example : dictSymbols [1] = .ok [1, zipEof] := by decide +kernel
/-- `enc2` (zip/dict.rs:641-643). -/
example : dictSymbols [1, 2] = .ok [1, 2] := by decide +kernel
/-- `enc4` (zip/dict.rs:646-648). -/
example : dictSymbols [1, 2, 1, 3] = .ok [1, 2, 1, 3] := by decide +kernel
/-- `enc6` (zip/dict.rs:651-653). -/
example : dictSymbols [1, 2, 1, 2, 1, 2] = .ok [1, 2, 0x0100, 0x0100] := by decide +kernel

/-- `test_decoding` (zip/dict.rs:655-665). -/
def dictRoundTrip (input : List UInt8) : Bool :=
  match bytesOf (zipDictEncode input) with
  | .ok bs => drain DictDecoder.next (input.length + 1) (zipDictDecode bs) = .ok input
  | _ => false

/-- `dec0` to `dec6` (zip/dict.rs:668-691). -/
example : [[], [1], [1, 2], [1, 2, 1, 3], [1, 2, 1, 2, 1, 2]].all dictRoundTrip = true := by decide +kernel

/-! ## prs.rs:229-315 -/

/-- `fully0` to `fully2` (prs.rs:233-250). -/
example : Prs.matchesFully [] (.str ['a']) = false ∧ Prs.matchesFully ['a'] (.str ['a']) = true ∧
    Prs.matchesFully ['a'] (.str ['b']) = false ∧ Prs.matchesFully ['a', 'a'] (.str ['a']) = false := by decide +kernel

/-- The failures among `fun_call1` to `fun_call11` (prs.rs:261-313). -/
example : ∀ s ∈ ["a", "a(", "a(b", "a(b,", "a(b,)", "()", "(a)", ""], Prs.funCall true s.toList = .err () := by
  decide +kernel

/-- `fun_call3` (prs.rs:271-273). -/
example : Prs.funCall true "a()".toList = .ok (['a'], []) := by decide +kernel
/-- `fun_call5` (prs.rs:281-283). -/
example : Prs.funCall true "a(b)".toList = .ok (['a'], [['b']]) := by decide +kernel
/-- `fun_call8` (prs.rs:296-298). -/
example : Prs.funCall true "a(b,c)".toList = .ok (['a'], [['b'], ['c']]) := by decide +kernel

/-! ## zip/back.rs:709-828

The ring buffer has 64 places instead of 65535; the inputs are shorter. -/

open Back in
/-- `test_encode` (zip/back.rs:712-724). -/
def backEncodes (input : List UInt8) (symbols : List Back.Symbol) : Bool :=
  match bytesOf (zipBackEncode 64 (fun _ => 16) input), bytesOf (Proc.forEach Symbol.ser symbols) with
  | .ok a, .ok b => a == b
  | _, _ => false

/-- The data of `enc16_no_repeat` (zip/back.rs:760-766). -/
def data16 : List UInt8 := List.replicate 8 1 ++ List.replicate 8 2

/-- `enc0` to `enc16_no_repeat` (zip/back.rs:727-771). -/
example : backEncodes [] [] ∧ backEncodes [1] [.explicit [1]] ∧ backEncodes [1, 2] [.explicit [1, 2]] ∧
    backEncodes [1, 1] [.explicit [1, 1]] ∧ backEncodes (List.replicate 6 1) [.explicit (List.replicate 6 1)] ∧
    backEncodes (List.replicate 16 1) [.explicit (List.replicate 8 1), .lookBack 8 8] ∧
    backEncodes data16 [.explicit data16] := by decide +kernel

open Back in
/-- `test_decode` (zip/back.rs:773-781). -/
def backRoundTrip (input : List UInt8) : Bool :=
  match bytesOf (zipBackEncode 64 (fun _ => 16) input) with
  | .ok bs => drain Decoder.next (input.length + 1) (zipBackDecode 64 bs) = .ok input
  | _ => false

/-- `dec0` to `dec16_no_repeat` (zip/back.rs:785-826). -/
example : [[], [1], [1, 2], [1, 1], List.replicate 6 1, List.replicate 16 1, data16].all backRoundTrip = true := by
  decide +kernel

/-! ## codec/clusterc.rs:298-339 -/

/-- `rgb_mean` (codec/clusterc.rs:305-310). -/
example : ColorCount.mean true [⟨⟨0, 0, 0⟩, 1⟩, ⟨⟨2, 2, 2⟩, 1⟩] = .ok ⟨⟨1, 1, 1⟩, 1⟩ := by decide +kernel

/-- `rgb_dist0` to `rgb_dist3` (codec/clusterc.rs:313-338). -/
example : rgbDist Ieee.ops ⟨0, 10, 20⟩ ⟨0, 10, 20⟩ = 0 ∧ rgbDist Ieee.ops ⟨0, 0, 0⟩ ⟨1, 0, 0⟩ = 1 ∧
    rgbDist Ieee.ops ⟨0, 0, 0⟩ ⟨1, 1, 0⟩ = Ieee.ops.sqrt 2 ∧
    rgbDist Ieee.ops ⟨0, 0, 0⟩ ⟨1, 1, 1⟩ = Ieee.ops.sqrt 3 := by decide +kernel

/-! ## kmeans.rs:446-582 -/

open Kmeans

/-- `Distance` and `Point` for `(i32, i32)` (kmeans.rs:451-479). -/
def pair : PointOps (Int × Int) where
  dist a b := some (Ieee.ops.sqrt (Ieee.ops.add (Ieee.ops.powi2 ((a.1 - b.1 : Int) : Rat))
    (Ieee.ops.powi2 ((a.2 - b.2 : Int) : Rat))))
  mean ps :=
    if ps.length = 0 then .err ()
    else .ok ((ps.foldl (fun s (p : Int × Int) => s + p.1) 0).tdiv ps.length,
      (ps.foldl (fun s (p : Int × Int) => s + p.2) 0).tdiv ps.length)

/-- The random numbers are arbitrary. -/
def pairEnv (rand : Nat → Nat) : Env (Int × Int) where
  pt := pair
  fl := Ieee.ops
  sort := sortByDist
  lower n := (List.range n).countP fun k => (k + 1) * (k + 1) ≤ n
  rand := rand

/-- `square_centered_at` (kmeans.rs:506-514). -/
def squareCenteredAt (p : Int × Int) : List (Int × Int) :=
  [-1, 0, 1].flatMap fun i => [-1, 0, 1].map fun j => (p.1 + i, p.2 + j)

/-- The centroids and their points. -/
def run (points : List (Int × Int)) (n : Nat) : Option (List (Int × Int) × List (List (Int × Int))) :=
  match cluster (pairEnv fun k => 7 * k + 3) 9 points n with
  | .ok cl => some (cl.centroids, cl.assignment)
  | _ => none

/-- `all_clusters` (kmeans.rs:492-500). -/
example : run [(0, 0), (1, 1)] 2 = some ([(1, 1), (0, 0)], [[(1, 1)], [(0, 0)]]) := by decide +kernel

/-- `square1` (kmeans.rs:517-523). -/
example : (run (squareCenteredAt (0, 0)) 1).map (fun r => (r.1, r.2.map (·.length))) = some ([(0, 0)], [9]) := by
  decide +kernel

/-- `squares2` (kmeans.rs:526-539). -/
example : (run (squareCenteredAt (-100, 0) ++ squareCenteredAt (100, 0)) 2).map (·.1) =
    some [(100, 0), (-100, 0)] := by decide +kernel

/-- `dist1` (kmeans.rs:542-544). -/
example : pair.dist (0, 0) (0, 1) = some 1 := by decide +kernel

/-- `dist2` (kmeans.rs:547-557). -/
example : ∀ p ∈ squareCenteredAt (-100, 0), (pair.dist (-11, 0) p).getD 0 < (pair.dist (11, 0) p).getD 0 := by
  decide +kernel

/-- `mean1` (kmeans.rs:560-563). -/
example : pair.mean (squareCenteredAt (-100, 0)) = .ok (-100, 0) := by decide +kernel

/-- `radii` (kmeans.rs:566-573). -/
example : (match cluster (pairEnv fun k => 7 * k + 3) 9 [(0, 0), (1, 0)] 2 with
    | .ok cl => cl.neighbours.map (·.certaintyRadius Ieee.ops)
    | _ => []) = [some (1 / 2), some (1 / 2)] := by decide +kernel

/-- `proper_init_asg` (kmeans.rs:576-580). -/
example : (run [(1000, 0), (1000, 1), (-1000, 0), (-1000, 1)] 3).isSome = true := by decide +kernel

end Cniic.RepoTests
