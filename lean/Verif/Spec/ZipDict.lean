import Verif.Model.ZipDict

/-!
# Specification: the dictionary format

The dictionary is the list of the sequences that have a symbol; the symbol of a sequence is its index.
-/

namespace Cniic.Spec

/-- Look a key up in a history of insertions, latest first. -/
def lastValue {T : Type} (key : List UInt8) : List (List UInt8 × T) → Option T
  | [] => none
  | (k, v) :: h => if k = key then some v else lastValue key h

/-- Follow a byte string downwards; the value found at its last byte. -/
def descend {T : Type} : Node T → List UInt8 → Option T
  | _, [] => none
  | n, [b] => (n.down b).1
  | n, b :: b' :: rest =>
    match (n.down b).2 with
    | none => none
    | some child => descend child (b' :: rest)

/-- The 256 one-byte sequences. -/
def oneByteSeqs : List (List UInt8) := (List.range 256).map fun b => [UInt8.ofNat b]

/-- A new sequence gets the next index, as long as the index is below 65535. -/
def learn (known : List (List UInt8)) (seq : List UInt8) : List (List UInt8) :=
  if known.length < 65535 then known ++ [seq] else known

/-- `x`, with symbol `s`, is the longest known sequence the input `i` starts with, and `r` is the rest
of the input. -/
structure Longest (known : List (List UInt8)) (i : List UInt8) (s : UInt16) (x r : List UInt8) :
    Prop where
  split : i = x ++ r
  nonempty : x ≠ []
  isKnown : known[s.toNat]? = some x
  longest : ∀ y, y ∈ known → y <+: i → y.length ≤ x.length

/-- `Parse known i syms`: with dictionary `known`, the input `i` is written as the symbols `syms`. -/
inductive Parse : List (List UInt8) → List UInt8 → List UInt16 → Prop
  | nil {known} : Parse known [] []
  | one {known i s x} : Longest known i s x [] → Parse known i [s, 65535]
  | two {known i s1 x1 i' s2 x2 i'' syms} : Longest known i s1 x1 i' → Longest known i' s2 x2 i'' →
      Parse (learn known (x1 ++ x2)) i'' syms → Parse known i (s1 :: s2 :: syms)

/-- `During k0 i0 syms k i`: while `i0` is written as `syms` starting from dictionary `k0`, there is a
moment (before some pair of symbols, or at the end) when the dictionary is `k` and `i` is left. -/
inductive During : List (List UInt8) → List UInt8 → List UInt16 → List (List UInt8) → List UInt8 →
    Prop
  | here {known i syms} : During known i syms known i
  | later {known i s1 x1 i' s2 x2 i'' syms k j} : Longest known i s1 x1 i' →
      Longest known i' s2 x2 i'' → During (learn known (x1 ++ x2)) i'' syms k j →
      During known i (s1 :: s2 :: syms) k j

/-- Insert a history of key-value pairs, latest first, into an empty trie. -/
def insertHistory {T : Type} : List (List UInt8 × T) → Option (Node T)
  | [] => some .new
  | (k, v) :: h =>
    match insertHistory h with
    | none => none
    | some n =>
      match n.insert k v with
      | none => none
      | some (n', _) => some n'

/-- The sequence a symbol stands for; 65535 stands for nothing. -/
def expand (known : List (List UInt8)) (s : Nat) : Option (List UInt8) :=
  if s = 65535 then some [] else known[s]?

/-- What a byte stream means: the bytes it decodes to, and whether decoding ends normally (`true`) or
with a panic. -/
def meaning : List (List UInt8) → List UInt8 → List UInt8 × Bool
  | known, a :: b :: c :: d :: rest =>
    match expand known (a.toNat + 256 * b.toNat), expand known (c.toNat + 256 * d.toNat) with
    | some x, some y =>
      let m := meaning (learn known (x ++ y)) rest
      (x ++ y ++ m.1, m.2)
    | _, _ => ([], false)
  | _, l => ([], l.length < 2)

/-- Symbols as bytes, least significant byte first. -/
def symBytes (syms : List UInt16) : List UInt8 :=
  syms.flatMap fun s => [UInt8.ofNat s.toNat, UInt8.ofNat (s.toNat / 256)]

end Cniic.Spec
