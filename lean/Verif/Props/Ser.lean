import Verif.Proofs.Ser

/-!
# Properties of the serialization of values (C04, C05, C06, C07)
-/

namespace Cniic
open SerSpec

/-- The types that `ser.rs` knows how to serialize. -/
inductive Ty where
  | u8 | u16 | i16 | u32 | u64 | usize | char
  | pair (a b : Ty)
  | vec (a : Ty)
  | arr (a : Ty) (n : Nat)
  | rgb (a : Ty)

/-- The values of a serializable type. -/
abbrev Ty.Val : Ty → Type
  | u8 => UInt8 | u16 => UInt16 | i16 => Int16 | u32 => UInt32 | u64 => UInt64
  | usize => Usize | char => Char
  | pair a b => a.Val × b.Val
  | vec a => List a.Val
  | arr a n => Vector a.Val n
  | rgb a => Rgb a.Val

/-- The implementation that Rust's trait resolution picks for the type (impls of ser.rs). -/
instance Ty.instSer : (t : Ty) → Ser t.Val
  | u8 => inferInstanceAs (Ser UInt8) | u16 => inferInstanceAs (Ser UInt16)
  | i16 => inferInstanceAs (Ser Int16) | u32 => inferInstanceAs (Ser UInt32)
  | u64 => inferInstanceAs (Ser UInt64) | usize => inferInstanceAs (Ser Usize)
  | char => inferInstanceAs (Ser Char)
  | pair a b => have := instSer a; have := instSer b; inferInstanceAs (Ser (a.Val × b.Val))
  | vec a => have := instSer a; inferInstanceAs (Ser (List a.Val))
  | arr a n => have := instSer a; inferInstanceAs (Ser (Vector a.Val n))
  | rgb a => have := instSer a; inferInstanceAs (Ser (Rgb a.Val))

/-- The byte format of the type. -/
instance Ty.instSpec : (t : Ty) → SerSpec t.Val
  | u8 => inferInstanceAs (SerSpec UInt8) | u16 => inferInstanceAs (SerSpec UInt16)
  | i16 => inferInstanceAs (SerSpec Int16) | u32 => inferInstanceAs (SerSpec UInt32)
  | u64 => inferInstanceAs (SerSpec UInt64) | usize => inferInstanceAs (SerSpec Usize)
  | char => inferInstanceAs (SerSpec Char)
  | pair a b => have := instSpec a; have := instSpec b; inferInstanceAs (SerSpec (a.Val × b.Val))
  | vec a => have := instSpec a; inferInstanceAs (SerSpec (List a.Val))
  | arr a n => have := instSpec a; inferInstanceAs (SerSpec (Vector a.Val n))
  | rgb a => have := instSpec a; inferInstanceAs (SerSpec (Rgb a.Val))

instance Ty.instLawful : (t : Ty) → LawfulSer t.Val
  | u8 => inferInstanceAs (LawfulSer UInt8) | u16 => inferInstanceAs (LawfulSer UInt16)
  | i16 => inferInstanceAs (LawfulSer Int16) | u32 => inferInstanceAs (LawfulSer UInt32)
  | u64 => inferInstanceAs (LawfulSer UInt64) | usize => inferInstanceAs (LawfulSer Usize)
  | char => inferInstanceAs (LawfulSer Char)
  | pair a b => have := instLawful a; have := instLawful b
                inferInstanceAs (LawfulSer (a.Val × b.Val))
  | vec a => have := instLawful a; inferInstanceAs (LawfulSer (List a.Val))
  | arr a n => have := instLawful a; inferInstanceAs (LawfulSer (Vector a.Val n))
  | rgb a => have := instLawful a; inferInstanceAs (LawfulSer (Rgb a.Val))

/-- **C04**, writing: a serializable value is written as the bytes of its format; a device fault is
reported as an error and leaves a prefix. -/
theorem C04_serialize (t : Ty) (v : t.Val) (hv : valid v) :
    Emits Emits.errOnly (ser v) (bytes v) () := LawfulSer.emits v hv

/-- **C04**, reading back: the value is returned and exactly the bytes after it are left. -/
theorem C04_round_trip (t : Ty) (v : t.Val) (hv : valid v) (rest : List UInt8) :
    (de listNext (bytes v ++ rest) : Ret Unit t.Val × List UInt8) = (.ok v, rest) :=
  LawfulSer.de_bytes v hv rest

/-- **C04** over any byte iterator, not only over a list. -/
theorem C04_round_trip_stream (t : Ty) (v : t.Val) (hv : valid v) {σ : Type} (next : Rd σ UInt8)
    (s : σ) (rest : List UInt8) (h : Yields next s (bytes v ++ rest)) :
    ∃ s', (de next s : Ret Unit t.Val × σ) = (.ok v, s') ∧ Yields next s' rest := de_yields hv h

/-- **C04**, uniqueness: no other value is read from these bytes, and whatever is read successfully
is the serialized form of what is returned.  Reading never panics. -/
theorem C04_canonical (t : Ty) (l : List UInt8) :
    (de listNext l : Ret Unit t.Val × List UInt8).1 ≠ .panic ∧
    ∀ (v : t.Val) (rest : List UInt8), de listNext l = (.ok v, rest) →
      valid v ∧ l = bytes v ++ rest :=
  ⟨LawfulSer.no_panic l, fun v r h => LawfulSer.canon l v r h⟩

/-- Non-trivial instance: a pair of a signed number and a vector of colours. -/
example : let v : (Ty.pair .i16 (.vec (.rgb .u8))).Val := (-2, [⟨1, 2, 3⟩, ⟨255, 0, 7⟩])
    valid v ∧ bytes v = [0xfe, 0xff, 2, 0, 0, 0, 0, 0, 0, 0, 3, 0, 0, 0, 0, 0, 0, 0, 1, 2, 3,
      3, 0, 0, 0, 0, 0, 0, 0, 255, 0, 7] := by
  refine ⟨⟨trivial, by decide, fun x _ => ⟨trivial, trivial, trivial⟩⟩, by decide +kernel⟩

/-- The serialized colour takes 11 bytes, not 3. -/
theorem C04_colour_takes_11_bytes (c : Rgb UInt8) : bytes c = [3, 0, 0, 0, 0, 0, 0, 0, c.r, c.g, c.b]
  := rfl

/-- **C05.** A value cut short is never accepted. -/
theorem C05_truncation (t : Ty) (v : t.Val) (hv : valid v) (p : List UInt8) (hp : p <+: bytes v)
    (hne : p ≠ bytes v) : (de listNext p : Ret Unit t.Val × List UInt8).1 = .err () :=
  de_truncated hv hp hne

example : let v : Ty.u32.Val := (1 : UInt32)
    valid v ∧ [1, 0, 0] <+: bytes v ∧ [1, 0, 0] ≠ bytes v :=
  ⟨trivial, by decide, by decide⟩

/-- **C06.** A character is serialized exactly when its code point is at most 255; otherwise an
error is returned, whatever the device, and nothing is written to it. -/
theorem C06_char (c : Char) :
    (c.toNat ≤ 255 → Emits Emits.errOnly (ser c) [UInt8.ofNat c.toNat] ()) ∧
    (255 < c.toNat → ∀ s : Sink, ser c s = (.err .io, s)) := by
  refine ⟨fun h => LawfulSer.emits c h, fun h s => ?_⟩
  have : ¬ c.toNat ≤ 255 := by omega
  simp [ser, u8TryFromChar, this]

/-- ... and the character read back is the same one. -/
theorem C06_char_round_trip (c : Char) (h : c.toNat ≤ 255) (rest : List UInt8) :
    (de listNext (UInt8.ofNat c.toNat :: rest) : Ret Unit Char × List UInt8) = (.ok c, rest) :=
  LawfulSer.de_bytes c h rest

example : ('é'.toNat ≤ 255) ∧ 255 < '€'.toNat := by decide

/-- **C07**, writing side: pulling from a `SerStream` gives the concatenated serialized values, then
ends for good. -/
theorem C07_ser_stream (t : Ty) (items : List t.Val) (hv : ∀ x ∈ items, valid x) :
    Yields SerStream.next (SerStream.fromIter items) (items.flatMap bytes) :=
  yields_serStream items hv []

/-- **C07**, reading side: decoding lazily from any stream of those bytes (in particular from a
`SerStream`) gives the values back in order and then ends. Types without any byte (arrays of length
0) are excluded: reading those never ends. -/
theorem C07_deser_stream (t : Ty) (hne : ∀ v : t.Val, bytes v ≠ []) (items : List t.Val)
    (hv : ∀ x ∈ items, valid x) {σ : Type} (next : Rd σ UInt8) (s : σ)
    (h : Yields next s (items.flatMap bytes)) :
    Yields (deserStream next : Rd σ t.Val) s items :=
  yields_deserStream items hv (de_nil hne) h

/-- **C07**, both sides together. -/
theorem C07_stream_round_trip (t : Ty) (hne : ∀ v : t.Val, bytes v ≠ []) (items : List t.Val)
    (hv : ∀ x ∈ items, valid x) :
    Yields (deserStream SerStream.next : Rd (SerStream t.Val) t.Val) (SerStream.fromIter items)
      items :=
  C07_deser_stream t hne items hv _ _ (C07_ser_stream t items hv)

example : let items : List (Ty.rgb .u8).Val := [⟨1, 2, 3⟩, ⟨4, 5, 6⟩]
    (∀ v : (Ty.rgb .u8).Val, bytes v ≠ []) ∧ ∀ x ∈ items, valid x :=
  ⟨fun v => by simp [SerSpec.bytes], fun _ _ => ⟨trivial, trivial, trivial⟩⟩

/-- A character above U+00FF in a stream makes the consumer panic, at the moment its bytes are
needed. -/
theorem C07_ser_stream_bad_char (c : Char) (h : 255 < c.toNat) (cs : List Char) :
    (SerStream.next (SerStream.fromIter (c :: cs))).1 = .panic := by
  have := (C06_char c).2 h (Sink.mem [])
  simp [SerStream.next, SerStream.fromIter, SerStream.nextAux, this]

end Cniic
