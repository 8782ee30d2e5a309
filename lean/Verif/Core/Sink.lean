import Verif.Core.Proc

/-!
# Output devices (`io::Write`)

`Sink` is the model of an arbitrary `W: io::Write`.  The only calls cniic makes on a writer are
`write_all` and `flush`.  A fault schedule decides, for every call number, whether the call succeeds
or fails, and how many bytes of a failing `write_all` still reached the device.
-/

namespace Cniic

/-- `io::Error`; its payload is never inspected by the code. -/
inductive IoErr where
  | io
  deriving Repr, DecidableEq

structure Sink where
  /-- bytes that reached the device so far -/
  out   : List UInt8
  /-- number of calls made so far -/
  calls : Nat
  /-- `fault n = some k`: call number `n` fails after accepting `k` bytes -/
  fault : Nat → Option Nat

namespace Sink

/-- An in-memory writer such as `Vec<u8>` or `VecDeque<u8>`: never fails. -/
def mem (out : List UInt8 := []) : Sink := { out := out, calls := 0, fault := fun _ => none }

/-- An empty device with the given fault schedule. -/
def withFaults (fault : Nat → Option Nat) : Sink := { out := [], calls := 0, fault := fault }

end Sink

/-- Computations that write: `fn f<W: io::Write>(.., writer: &mut W) -> io::Result<α>`. -/
abbrev W (α : Type) := Proc IoErr Sink α

/-- `writer.write_all(bytes)`. -/
def writeAll (bs : List UInt8) : W Unit := fun s =>
  match s.fault s.calls with
  | none   => (.ok (), { s with out := s.out ++ bs, calls := s.calls + 1 })
  | some k => (.err .io, { s with out := s.out ++ bs.take k, calls := s.calls + 1 })

/-- `writer.flush()`. -/
def flush : W Unit := writeAll []

/-- The ways a write fault may surface. -/
inductive Surface where
  | asError   -- `Err(io::Error)` is returned
  | asPanic   -- the call panics
  deriving Repr, DecidableEq

def Surface.ret {α : Type} : Surface → Ret IoErr α
  | asError => .err .io
  | asPanic => .panic

/-- `Emits K m bs a`: on a device that never fails, `m` writes exactly `bs` and returns `a`; and on
any device, if some call fails, `m` stops there: what reached the device is a prefix of `bs`, no
further call is made, and the fault surfaces in one of the ways in `K`. -/
def Emits {α : Type} (K : Surface → Prop) (m : W α) (bs : List UInt8) (a : α) : Prop :=
  ∀ s : Sink, ∃ n : Nat,
    ((∀ i, i < n → s.fault (s.calls + i) = none) ∧
      m s = (.ok a, { s with out := s.out ++ bs, calls := s.calls + n }))
    ∨ ((∀ i, i < n → s.fault (s.calls + i) = none) ∧ s.fault (s.calls + n) ≠ none ∧
        ∃ p k, p <+: bs ∧ K k ∧
          m s = (k.ret, { s with out := s.out ++ p, calls := s.calls + n + 1 }))

namespace Emits

variable {α β : Type} {K K' : Surface → Prop}

/-- Faults are always reported as errors. -/
abbrev errOnly : Surface → Prop := fun k => k = .asError
/-- Faults may also show up as a panic. -/
abbrev anyWay : Surface → Prop := fun _ => True

theorem mono {m : W α} {bs a} (hK : ∀ k, K k → K' k) (h : Emits K m bs a) : Emits K' m bs a := by
  intro s
  obtain ⟨n, h | ⟨h1, h2, p, k, hp, hk, he⟩⟩ := h s
  · exact ⟨n, .inl h⟩
  · exact ⟨n, .inr ⟨h1, h2, p, k, hp, hK k hk, he⟩⟩

theorem pure (a : α) : Emits K (Pure.pure a : W α) [] a := by
  intro s; exact ⟨0, .inl ⟨by simp, by simp⟩⟩

theorem writeAll (bs : List UInt8) : Emits errOnly (writeAll bs) bs () := by
  intro s
  cases hf : s.fault s.calls with
  | none =>
    refine ⟨1, .inl ⟨?_, ?_⟩⟩
    · intro i hi; have : i = 0 := by omega
      subst this; simpa using hf
    · simp [Cniic.writeAll, hf]
  | some k =>
    refine ⟨0, .inr ⟨by simp, by simp [hf], bs.take k, .asError, List.take_prefix _ _, rfl, ?_⟩⟩
    simp [Cniic.writeAll, hf, Surface.ret]

theorem flush : Emits errOnly flush [] () := writeAll []

theorem bind {m : W α} {f : α → W β} {b1 b2 : List UInt8} {a : α} {b : β}
    (h1 : Emits K m b1 a) (h2 : Emits K (f a) b2 b) : Emits K (m >>= f) (b1 ++ b2) b := by
  intro s
  obtain ⟨n, ⟨hn, he⟩ | ⟨hn, hf, p, k, hp, hk, he⟩⟩ := h1 s
  · obtain ⟨n', ⟨hn', he'⟩ | ⟨hn', hf', p, k, hp, hk, he'⟩⟩ :=
      h2 { s with out := s.out ++ b1, calls := s.calls + n }
    · refine ⟨n + n', .inl ⟨?_, ?_⟩⟩
      · intro i hi
        by_cases h : i < n
        · exact hn i h
        · have := hn' (i - n) (by omega)
          simpa [show s.calls + n + (i - n) = s.calls + i by omega] using this
      · rw [Proc.bind_ok he, he']; simp [Nat.add_assoc]
    · refine ⟨n + n', .inr ⟨?_, ?_, b1 ++ p, k, ?_, hk, ?_⟩⟩
      · intro i hi
        by_cases h : i < n
        · exact hn i h
        · have := hn' (i - n) (by omega)
          simpa [show s.calls + n + (i - n) = s.calls + i by omega] using this
      · simpa [Nat.add_assoc] using hf'
      · exact (List.prefix_append_right_inj b1).2 hp
      · rw [Proc.bind_ok he, he']; simp [Nat.add_assoc]
  · refine ⟨n, .inr ⟨hn, hf, p, k, hp.trans (List.prefix_append _ _), hk, ?_⟩⟩
    cases k with
    | asError => exact Proc.bind_err he
    | asPanic => exact Proc.bind_panic he

/-- `unwrap` on the result of a writing call turns faults into panics. -/
theorem unwrap_panic {m : W α} {bs a} (h : Emits K m bs a) :
    Emits (· = .asPanic) (Proc.unwrap m : W α) bs a := by
  intro s
  obtain ⟨n, ⟨hn, he⟩ | ⟨hn, hf, p, k, hp, hk, he⟩⟩ := h s
  · exact ⟨n, .inl ⟨hn, by simp [Proc.unwrap, he]⟩⟩
  · refine ⟨n, .inr ⟨hn, hf, p, .asPanic, hp, rfl, ?_⟩⟩
    cases k <;> simp [Proc.unwrap, he, Surface.ret]

theorem unwrap {m : W α} {bs a} (h : Emits K m bs a) : Emits anyWay (Proc.unwrap m : W α) bs a :=
  h.unwrap_panic.mono fun _ _ => trivial

theorem forEach {f : α → W Unit} {g : α → List UInt8} (xs : List α)
    (h : ∀ x ∈ xs, Emits K (f x) (g x) ()) : Emits K (Proc.forEach f xs) (xs.flatMap g) () := by
  induction xs with
  | nil => exact pure ()
  | cons x xs ih =>
    rw [Proc.forEach_cons, List.flatMap_cons]
    exact bind (h x (by simp)) (ih fun y hy => h y (by simp [hy]))

/-- Result on a device without faults. -/
theorem run_mem {m : W α} {bs : List UInt8} {a : α} (h : Emits K m bs a) (out : List UInt8) :
    ∃ n, m (Sink.mem out) = (.ok a, { Sink.mem (out ++ bs) with calls := n }) := by
  obtain ⟨n, ⟨_, he⟩ | ⟨_, hf, _⟩⟩ := h (Sink.mem out)
  · exact ⟨n, by simpa [Sink.mem] using he⟩
  · simp [Sink.mem] at hf

end Emits

/-- The bytes that a writing computation produces on a device without faults, if it completes. -/
def bytesOf {α : Type} (m : W α) : Ret IoErr (List UInt8) :=
  match m (Sink.mem []) with
  | (.ok _, s)  => .ok s.out
  | (.err e, _) => .err e
  | (.panic, _) => .panic

theorem Emits.bytesOf {α : Type} {K} {m : W α} {bs a} (h : Emits K m bs a) :
    bytesOf m = .ok bs := by
  obtain ⟨n, hn⟩ := h.run_mem []
  simp only [Cniic.bytesOf, hn]; simp [Sink.mem]

end Cniic
