import Verif.Spec.Huf
import Verif.Spec.ZipDict

/-!
# Specification: how deep code trees are, and how many pairs of symbols mean nothing
-/

namespace Cniic.Spec

/-- The Fibonacci numbers 0, 1, 1, 2, 3, 5, … -/
def fib : Nat → Nat
  | 0 => 0
  | 1 => 1
  | n + 2 => fib n + fib (n + 1)

/-- The length of the longest path from the root to a leaf. -/
def height {T : Type} : BinTrie T → Nat
  | .leaf _ => 0
  | .branch l r => max (height l) (height r) + 1

/-- One more than the number of pairs of symbols up to and including the first one that means something.  When there
is none: one more than the number of pairs before the end, or before the first one that is not known. -/
def nesting : List (List UInt8) → List UInt8 → Nat
  | known, a :: b :: c :: d :: rest =>
    match expand known (a.toNat + 256 * b.toNat), expand known (c.toNat + 256 * d.toNat) with
    | some x, some y => if x ++ y = [] then nesting (learn known []) rest + 1 else 2
    | _, _ => 1
  | _, _ => 1

/-- The largest `nesting` anywhere in a stream. -/
def deepest : List (List UInt8) → List UInt8 → Nat
  | known, a :: b :: c :: d :: rest =>
    match expand known (a.toNat + 256 * b.toNat), expand known (c.toNat + 256 * d.toNat) with
    | some x, some y => max (nesting known (a :: b :: c :: d :: rest)) (deepest (learn known (x ++ y)) rest)
    | _, _ => 1
  | _, _ => 1

/-- A stream for `data` that begins with `n` pairs of end markers; each byte of the data has a pair of its own. -/
def padded (n : Nat) (data : List UInt8) : List UInt8 :=
  List.replicate (4 * n) 255 ++ data.flatMap fun b => [b, 0, 255, 255]

end Cniic.Spec
