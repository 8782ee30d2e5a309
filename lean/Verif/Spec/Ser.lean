import Verif.Model.Ser

/-!
# Specification: the byte format of every serializable type

Written down independently of the serializers: which values have a serialized form, and which bytes
it consists of.
-/

namespace Cniic

/-- Which values can be serialized and what their bytes are. -/
class SerSpec (α : Type) where
  valid : α → Prop
  bytes : α → List UInt8

namespace Spec

/-- Byte number `i` (from the least significant one) of a number. -/
def byteAt (n i : Nat) : UInt8 := UInt8.ofNat (n / 256 ^ i)

/-- `k` bytes of `n`, least significant first. -/
def le (k n : Nat) : List UInt8 := (List.range k).map (byteAt n)

end Spec

open Spec

instance : SerSpec UInt8 := ⟨fun _ => True, fun n => [n]⟩
instance : SerSpec UInt16 := ⟨fun _ => True, fun n => le 2 n.toNat⟩
/-- Two's complement: negative numbers are represented by adding 65536. -/
instance : SerSpec Int16 := ⟨fun _ => True, fun n => le 2 (n.toInt % 65536).toNat⟩
instance : SerSpec UInt32 := ⟨fun _ => True, fun n => le 4 n.toNat⟩
instance : SerSpec UInt64 := ⟨fun _ => True, fun n => le 8 n.toNat⟩
instance : SerSpec Usize := ⟨fun _ => True, fun n => le 8 n.val.toNat⟩
/-- Only Latin-1 characters. -/
instance : SerSpec Char := ⟨fun c => c.toNat ≤ 255, fun c => [UInt8.ofNat c.toNat]⟩
instance {α β : Type} [SerSpec α] [SerSpec β] : SerSpec (α × β) :=
  ⟨fun p => SerSpec.valid p.1 ∧ SerSpec.valid p.2, fun p => SerSpec.bytes p.1 ++ SerSpec.bytes p.2⟩
/-- Length on 8 bytes, then the elements. (Every Rust slice has fewer than 2^64 elements.) -/
instance {α : Type} [SerSpec α] : SerSpec (List α) :=
  ⟨fun xs => xs.length < 2 ^ 64 ∧ ∀ x ∈ xs, SerSpec.valid x,
   fun xs => le 8 xs.length ++ xs.flatMap SerSpec.bytes⟩
/-- The elements only. -/
instance {α : Type} {n : Nat} [SerSpec α] : SerSpec (Vector α n) :=
  ⟨fun v => ∀ x ∈ v.toList, SerSpec.valid x, fun v => v.toList.flatMap SerSpec.bytes⟩
/-- The number 3 on 8 bytes, then the channels. -/
instance {α : Type} [SerSpec α] : SerSpec (Rgb α) :=
  ⟨fun c => SerSpec.valid c.r ∧ SerSpec.valid c.g ∧ SerSpec.valid c.b,
   fun c => [3, 0, 0, 0, 0, 0, 0, 0] ++ SerSpec.bytes c.r ++ SerSpec.bytes c.g ++ SerSpec.bytes c.b⟩

/-- What a correct implementation of a type's (de)serializer satisfies. -/
class LawfulSer (α : Type) [Ser α] [SerSpec α] : Prop where
  /-- valid values are written as their bytes; device faults are reported -/
  emits : ∀ a : α, SerSpec.valid a → Emits Emits.errOnly (ser a) (SerSpec.bytes a) ()
  /-- reading depends on the stream only through its items -/
  sim : ∀ {σ τ : Type} (R : σ → τ → Prop) (Q : Bool → Bool → σ → τ → Prop)
    (next : Rd σ UInt8) (next' : Rd τ UInt8), (∀ s t, R s t → Q false false s t) →
    Sim R Q next next' → Sim R Q (de next : Rd σ α) (de next')
  /-- the bytes of a value are read back, and nothing more is consumed -/
  de_bytes : ∀ a : α, SerSpec.valid a → ∀ rest,
    (de listNext (SerSpec.bytes a ++ rest) : Ret Unit α × List UInt8) = (.ok a, rest)
  /-- whatever is read successfully is the serialized form of the value returned -/
  canon : ∀ (l : List UInt8) (a : α) (r : List UInt8),
    (de listNext l : Ret Unit α × List UInt8) = (.ok a, r) →
      SerSpec.valid a ∧ l = SerSpec.bytes a ++ r
  /-- reading never panics -/
  no_panic : ∀ l : List UInt8, (de listNext l : Ret Unit α × List UInt8).1 ≠ .panic

end Cniic
