import Verif.Core.Sink
import Verif.Core.Reader

/-!
# Model of `src/ser.rs`
-/

namespace Cniic

/-- `trait Serialize` and `trait Deserialize` (ser.rs:3-11).  The deserializer is generic in the
iterator it reads from: it receives that iterator's `next`. -/
class Ser (α : Type) where
  ser : α → W Unit
  de  : {σ : Type} → Rd σ UInt8 → Rd σ α

export Ser (ser de)

/-- `to_le_bytes` of a `k`-byte unsigned integer (used in ser.rs:33,51,69,89). -/
def toLe : Nat → Nat → List UInt8
  | 0,     _ => []
  | k + 1, n => UInt8.ofNat n :: toLe k (n / 256)

/-- `from_le_bytes` (used in ser.rs:39,57,75,95). -/
def fromLe : List UInt8 → Nat
  | []      => 0
  | b :: bs => b.toNat + 256 * fromLe bs

/-- The `[stream.next()?, stream.next()?, ...]` of ser.rs:39-42,57-60,75-80,95-105: `k` bytes, giving
up at the first `None`. -/
def readBytes {σ : Type} (next : Rd σ UInt8) : Nat → Rd σ (List UInt8)
  | 0     => pure []
  | k + 1 => do
    let b ← next
    let bs ← readBytes next k
    pure (b :: bs)

/-- `u8` (ser.rs:17-27). -/
instance : Ser UInt8 where
  ser n := writeAll [n]
  de next := next

/-- `u16` (ser.rs:31-45). -/
instance : Ser UInt16 where
  ser n := writeAll (toLe 2 n.toNat)
  de next := do
    let bs ← readBytes next 2
    pure (UInt16.ofNat (fromLe bs))

/-- `i16` (ser.rs:49-63): the two's complement representation, least significant byte first. -/
instance : Ser Int16 where
  ser n := writeAll (toLe 2 n.toUInt16.toNat)
  de next := do
    let bs ← readBytes next 2
    pure (UInt16.toInt16 (UInt16.ofNat (fromLe bs)))

/-- `u32` (ser.rs:67-83). -/
instance : Ser UInt32 where
  ser n := writeAll (toLe 4 n.toNat)
  de next := do
    let bs ← readBytes next 4
    pure (UInt32.ofNat (fromLe bs))

/-- `u64` (ser.rs:87-108). -/
instance : Ser UInt64 where
  ser n := writeAll (toLe 8 n.toNat)
  de next := do
    let bs ← readBytes next 8
    pure (UInt64.ofNat (fromLe bs))

/-- `usize` on a 64-bit target. -/
structure Usize where
  val : UInt64
  deriving Repr, DecidableEq

/-- `usize` (ser.rs:113-124): goes through `u64`. -/
instance : Ser Usize where
  ser n := ser n.val
  de next := do
    let n : UInt64 ← de next
    pure ⟨n⟩

/-- `u8::try_from(char)`: succeeds up to U+00FF (used in ser.rs:131). -/
def u8TryFromChar (c : Char) : Option UInt8 :=
  if c.toNat ≤ 255 then some (UInt8.ofNat c.toNat) else none

/-- `char` (ser.rs:129-142). -/
instance : Ser Char where
  ser c := match u8TryFromChar c with
    | some b => ser b
    | none   => Proc.fail .io
  de next := do
    let b : UInt8 ← de next
    pure (Char.ofNat b.toNat)

/-- `(T, U)` (ser.rs:146-159). -/
instance {α β : Type} [Ser α] [Ser β] : Ser (α × β) where
  ser p := do
    ser p.1
    ser p.2
  de next := do
    let a ← de next
    let b ← de next
    pure (a, b)

/-- `for _ in 0..n { vec.push(T::deserialize(stream)?); }` (ser.rs:179-181) and the collecting map
of ser.rs:199-201: `n` values, giving up at the first `None`. -/
def readN {α σ : Type} [Ser α] (next : Rd σ UInt8) : Nat → Rd σ (List α)
  | 0     => pure []
  | k + 1 => do
    let a ← de next
    let as ← readN next k
    pure (a :: as)

/-- `&[T]` (serialize, ser.rs:164-172) and `Vec<T>` (deserialize, ser.rs:174-184). -/
instance {α : Type} [Ser α] : Ser (List α) where
  ser xs := do
    ser (Usize.mk (UInt64.ofNat xs.length))
    Proc.forEach ser xs
  de next := do
    let len : Usize ← de next
    readN next len.val.toNat

/-- `[T; N]` (ser.rs:188-205). -/
instance {α : Type} {n : Nat} [Ser α] : Ser (Vector α n) where
  ser v := Proc.forEach ser v.toList
  de next := do
    let xs : List α ← readN next n
    if h : xs.length = n then pure ⟨xs.toArray, by simpa using h⟩ else Rd.none

/-- `image::Rgb<T>`, a wrapper of `[T; 3]`. -/
structure Rgb (T : Type) where
  r : T
  g : T
  b : T
  deriving Repr, DecidableEq

/-- `image::Rgb<T>` (ser.rs:210-222): written as a slice of 3 elements, so the length is included. -/
instance {T : Type} [Ser T] : Ser (Rgb T) where
  ser c := ser [c.r, c.g, c.b]
  de next := do
    let vec : List T ← de next
    match vec with
    | [r, g, b] => pure ⟨r, g, b⟩
    | _ => Rd.none

/-- `struct SerStream` (ser.rs:227-230).  The source iterator is represented by the items it is
going to produce (in the code the sources are finite iterators over pixels, which do not fail). -/
structure SerStream (T : Type) where
  iter  : List T
  extra : List UInt8

/-- `SerStream::from_value`, `SerStream::from_iter` (ser.rs:233-244). -/
def SerStream.fromIter {T : Type} (items : List T) : SerStream T := ⟨items, []⟩

/-- The body of `SerStream::next` (ser.rs:250-264) with the struct split into its two fields; the
`while` loop is the recursion on the remaining items.  Serializing into the `VecDeque` is a write to
a device that does not fail, so the `unwrap` of line 254 panics only for values that refuse to be
serialized. -/
def SerStream.nextAux {T : Type} [Ser T] :
    List T → List UInt8 → Ret Unit UInt8 × SerStream T
  | items,   b :: bs => (.ok b, ⟨items, bs⟩)
  | [],      []      => (.err (), ⟨[], []⟩)
  | x :: xs, []      =>
    match ser x (Sink.mem []) with
    | (.ok _, s)  => nextAux xs s.out
    | (.err _, s) => (.panic, ⟨xs, s.out⟩)
    | (.panic, s) => (.panic, ⟨xs, s.out⟩)

/-- `SerStream::next` (ser.rs:250-264). -/
def SerStream.next {T : Type} [Ser T] : Rd (SerStream T) UInt8 :=
  fun s => SerStream.nextAux s.iter s.extra

/-- `deser_stream` (ser.rs:269-271): each `next` deserializes one value. -/
def deserStream {T σ : Type} [Ser T] (next : Rd σ UInt8) : Rd σ T := de next

end Cniic
