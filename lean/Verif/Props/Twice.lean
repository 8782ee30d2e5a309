import Verif.Model.Twice
import Verif.Props.Huf

/-! # Properties of a Huffman coder that reads its input twice (C118) -/

namespace Cniic
open Spec SerSpec

variable {T : Type} [DecidableEq T]

section
variable [Ser T]

/-- The steps after the tree. -/
def payloadStep (enc : Enc T) (items : List T) : W Unit := do
  let w ← encodeSymbols enc (BitWriter.new .msbFirst) items
  let _ ← w.padAndFlush
  pure ()

omit [DecidableEq T] [Ser T] in
theorem onDevice_bind {α β : Type} (m : W α) (f : α → W β) : onDevice (m >>= f) = (onDevice m >>= fun a => onDevice (f a)) := by
  funext s
  rw [Proc.bind_def]
  show ((Bind.bind m f s.2).1, (s.1, (Bind.bind m f s.2).2)) = _
  rw [Proc.bind_def]
  simp only [onDevice]
  generalize m s.2 = r
  obtain ⟨r, s'⟩ := r
  cases r <;> rfl

/-- All that can happen. -/
theorem encodeAllCalls_eq (M : MinHeap T) (ho : List (T × Nat) → List (T × Nat)) (newIter : Nat → List T) (s : Sink) :
    encodeAllCalls M ho newIter (0, s) =
      match build M (ho (countFreqs (newIter 0))) with
      | none => (.panic, (1, s))
      | some (enc, dec) =>
        match dec.ser s with
        | (.ok _, s1) => ((payloadStep enc (newIter 1) s1).1, (2, (payloadStep enc (newIter 1) s1).2))
        | (.err e, s1) => (.err e, (1, s1))
        | (.panic, s1) => (.panic, (1, s1)) := by
  have h0 : callIter newIter (0, s) = (.ok (newIter 0), (1, s)) := rfl
  unfold encodeAllCalls
  rw [Proc.bind_ok h0]
  cases hb : build M (ho (countFreqs (newIter 0))) with
  | none => rfl
  | some p =>
    obtain ⟨enc, dec⟩ := p
    simp only
    cases hd : dec.ser s with
    | mk r s1 =>
      have hd' : onDevice dec.ser (1, s) = (r, (1, s1)) := by simp [onDevice, hd]
      cases r with
      | err e => rw [Proc.bind_err hd']
      | panic => rw [Proc.bind_panic hd']
      | ok u =>
        rw [Proc.bind_ok hd']
        have h1 : callIter newIter (1, s1) = (.ok (newIter 1), (2, s1)) := rfl
        rw [Proc.bind_ok h1]
        have : (do
            let w ← onDevice (encodeSymbols enc (BitWriter.new .msbFirst) (newIter 1))
            let _ ← onDevice w.padAndFlush
            pure ()) = onDevice (payloadStep enc (newIter 1)) := by
          unfold payloadStep
          rw [onDevice_bind]
          congr 1
          funext w
          rw [onDevice_bind]
          rfl
        rw [this]
        rfl

/-- An item without a code makes the loop panic on every device. -/
theorem encodeSymbols_unknown {enc : Enc T} {items : List T} (h : ∃ x ∈ items, enc.get x = none) (w : BitWriter) (s : Sink) :
    (encodeSymbols enc w items s).1 = .panic := by
  induction items generalizing w s with
  | nil => obtain ⟨x, hx, -⟩ := h; cases hx
  | cons y ys ih =>
    rw [encodeSymbols]
    cases hy : enc.get y with
    | none =>
      have : (Proc.unwrap (enc.encode y w) : W BitWriter) s = (.panic, s) := by
        simp [Enc.encode, hy, Proc.unwrap]
      rw [Proc.bind_panic this]
    | some code =>
      have hys : ∃ x ∈ ys, enc.get x = none := by
        obtain ⟨x, hx, hn⟩ := h
        rcases List.mem_cons.1 hx with rfl | hx
        · rw [hy] at hn; cases hn
        · exact ⟨x, hx, hn⟩
      cases hu : (Proc.unwrap (enc.encode y w) : W BitWriter) s with
      | mk r s1 =>
        cases r with
        | ok w' => rw [Proc.bind_ok hu]; exact ih hys w' s1
        | panic => rw [Proc.bind_panic hu]
        | err e =>
          exfalso
          unfold Proc.unwrap at hu
          split at hu <;> simp at hu

/-- **C118.** If `new_iter` returns the same items both times, `encode_all` does what `encodeAll` says, which is what all
other theorems are about. -/
theorem C118_same (M : MinHeap T) (ho : List (T × Nat) → List (T × Nat)) (newIter : Nat → List T)
    (h : newIter 1 = newIter 0) (s : Sink) :
    (encodeAllCalls M ho newIter (0, s)).1 = (encodeAll M ho (newIter 0) s).1 ∧
      (encodeAllCalls M ho newIter (0, s)).2.2 = (encodeAll M ho (newIter 0) s).2 := by
  rw [encodeAllCalls_eq, h]
  unfold encodeAll
  cases build M (ho (countFreqs (newIter 0))) with
  | none => exact ⟨rfl, rfl⟩
  | some p =>
    obtain ⟨enc, dec⟩ := p
    simp only
    cases hd : dec.ser s with
    | mk r s1 =>
      cases r with
      | err e => rw [Proc.bind_err hd]; exact ⟨rfl, rfl⟩
      | panic => rw [Proc.bind_panic hd]; exact ⟨rfl, rfl⟩
      | ok u => rw [Proc.bind_ok hd]; exact ⟨rfl, rfl⟩

end

section
variable [Ser T] [SerSpec T] [LawfulSer T]

/-- **C118.** The number of calls.  With nothing in the first sequence it is one, and `encode_all` panics.  Otherwise there is
a tree, and there are two calls if the tree is written; if the device fails before that, there is one call, and the error is
returned. -/
theorem C118_calls (M : MinHeap T) (ho : List (T × Nat) → List (T × Nat)) (hho : IsOrder ho) (newIter : Nat → List T)
    (hv : ∀ x ∈ newIter 0, valid x) (s : Sink) :
    (newIter 0 = [] → encodeAllCalls M ho newIter (0, s) = (.panic, (1, s))) ∧
    (newIter 0 ≠ [] → ∃ enc dec, build M (ho (countFreqs (newIter 0))) = some (enc, dec) ∧
      (((dec.ser s).1 = .ok () ∧ (encodeAllCalls M ho newIter (0, s)).2.1 = 2) ∨
       ((dec.ser s).1 = .err .io ∧ encodeAllCalls M ho newIter (0, s) = (.err .io, (1, (dec.ser s).2)) ∧
        ∃ n, s.fault n ≠ none))) := by
  rw [encodeAllCalls_eq]
  constructor
  · intro h
    have h0 : ho (countFreqs (newIter 0)) = [] := by rw [h]; exact (hho _).eq_nil
    have hlen : M.len (M.fromIter []) = 0 := by
      rw [M.len_eq, (M.contents_fromIter []).eq_nil]; rfl
    have : build M (ho (countFreqs (newIter 0))) = none := by simp [build, buildDec, h0, hlen]
    rw [this]
  · intro h
    obtain ⟨enc, dec, payload, k, hb, hnd, hmem, -, htv, -⟩ := encodeAll_spec M ho hho (newIter 0) h hv
    refine ⟨enc, dec, hb, ?_⟩
    rw [hb]
    simp only
    obtain ⟨n, ⟨-, he⟩ | ⟨-, hf, p, kk, -, rfl, he⟩⟩ := emits_tree dec htv s
    · rw [he]
      exact .inl ⟨rfl, rfl⟩
    · rw [he]
      exact .inr ⟨rfl, rfl, _, hf⟩

/-- **C118.** If all items of the second sequence occur in the first one, the output is the tree for the first sequence
followed by the codes of the second, and it decodes to the second sequence. -/
theorem C118_second (M : MinHeap T) (ho : List (T × Nat) → List (T × Nat)) (hho : IsOrder ho) (newIter : Nat → List T)
    (hne : newIter 0 ≠ []) (hv : ∀ x ∈ newIter 0, valid x) (hsub : ∀ x ∈ newIter 1, x ∈ newIter 0) :
    ∃ enc dec payload k ds, build M (ho (countFreqs (newIter 0))) = some (enc, dec) ∧ k < 8 ∧
      bitsOf payload = (newIter 1).flatMap (codeOf dec) ++ List.replicate k false ∧
      Emits Emits.anyWay (fun s => ((encodeAllCalls M ho newIter (0, s)).1, (encodeAllCalls M ho newIter (0, s)).2.2))
        (treeBytes dec ++ payload) () ∧
      decodeAll (treeBytes dec ++ payload) = (.ok ds, []) ∧ Supplies DecStream.next ds (newIter 1) := by
  obtain ⟨enc, dec, -, -, hb, hnd, hmem, -, htv, -, -, -, hget, -, -⟩ := encodeAll_spec M ho hho (newIter 0) hne hv
  have hin : ∀ x ∈ newIter 1, x ∈ symbols dec := fun x hx => (hmem x).2 (hsub x hx)
  obtain ⟨o1, w1, e1, k1, p1⟩ := emits_encodeSymbols (t := dec) BitWriter.ok_new (newIter 1) fun x hx => hget x (hin x hx)
  obtain ⟨o2, w2, k, e2, hk, _, _, p2⟩ := BitWriter.emits_padAndFlush k1
  have hbits : bitsOf (o1 ++ o2) = (newIter 1).flatMap (codeOf dec) ++ List.replicate k false := by
    rw [BitWriter.pending_new, List.nil_append] at p1
    rw [show bitsOf (o1 ++ o2) = bitsOf o1 ++ bitsOf o2 by simp [bitsOf], p2, p1, List.append_assoc]
  refine ⟨enc, dec, o1 ++ o2, k, _, hb, hk, hbits, ?_, decodeAll_tree dec htv _, ?_⟩
  · have he : Emits Emits.anyWay (dec.ser >>= fun _ => payloadStep enc (newIter 1)) (treeBytes dec ++ (o1 ++ o2)) () := by
      have := Emits.bind (Emits.anyOf (emits_tree dec htv)) (f := fun _ => payloadStep enc (newIter 1))
        (Emits.bind e1 (Emits.bind (Emits.anyOf e2) (Emits.pure ())))
      simpa using this
    suffices hf : (fun s => ((encodeAllCalls M ho newIter (0, s)).1, (encodeAllCalls M ho newIter (0, s)).2.2)) =
        (dec.ser >>= fun _ => payloadStep enc (newIter 1)) by rw [hf]; exact he
    funext s
    rw [encodeAllCalls_eq, hb]
    simp only
    cases hd : dec.ser s with
    | mk r s1 =>
      cases r with
      | err e => rw [Proc.bind_err hd]
      | panic => rw [Proc.bind_panic hd]
      | ok u => rw [Proc.bind_ok hd]
  · apply decStream_supplies (rest := List.replicate k false) hin
    rw [← hbits]
    exact yields_bitReader _

/-- **C118.** If some item of the second sequence does not occur in the first one, `encode_all` does not return normally on any
device: it panics, unless the device fails while the tree is written, which is an error. -/
theorem C118_unknown (M : MinHeap T) (ho : List (T × Nat) → List (T × Nat)) (hho : IsOrder ho) (newIter : Nat → List T)
    (hv : ∀ x ∈ newIter 0, valid x) (hsub : ∃ x ∈ newIter 1, x ∉ newIter 0) (s : Sink) :
    (encodeAllCalls M ho newIter (0, s)).1 = .panic ∨
      (encodeAllCalls M ho newIter (0, s)).1 = .err .io ∧ (encodeAllCalls M ho newIter (0, s)).2.1 = 1 ∧
        ∃ n, s.fault n ≠ none := by
  by_cases hne : newIter 0 = []
  · left
    rw [(C118_calls M ho hho newIter hv s).1 hne]
  · obtain ⟨enc, dec, hb, ⟨h1, -⟩ | ⟨-, h2, h3⟩⟩ := (C118_calls M ho hho newIter hv s).2 hne
    · left
      obtain ⟨enc', dec', -, -, hb', -, hmem, -, -, -, -, -, -, hnone, -⟩ := encodeAll_spec M ho hho (newIter 0) hne hv
      rw [hb] at hb'
      obtain ⟨rfl, rfl⟩ := Prod.mk.inj (Option.some.inj hb')
      rw [encodeAllCalls_eq, hb]
      simp only
      cases hd : dec.ser s with
      | mk r s1 =>
        rw [hd] at h1
        obtain rfl : r = .ok () := h1
        simp only
        obtain ⟨x, hx, hx0⟩ := hsub
        have hp := encodeSymbols_unknown ⟨x, hx, hnone x fun h => hx0 ((hmem x).1 h)⟩ (BitWriter.new .msbFirst) s1
        cases hq : encodeSymbols enc (BitWriter.new .msbFirst) (newIter 1) s1 with
        | mk r s2 =>
          rw [hq] at hp
          obtain rfl : r = .panic := hp
          unfold payloadStep
          rw [Proc.bind_panic hq]
    · right
      rw [h2]
      exact ⟨rfl, rfl, h3⟩

/-- **C118.** On a device that takes everything, `encode_all` returns normally exactly if the first sequence is not empty and
contains all items of the second. -/
theorem C118_ok_iff (M : MinHeap T) (ho : List (T × Nat) → List (T × Nat)) (hho : IsOrder ho) (newIter : Nat → List T)
    (hv : ∀ x ∈ newIter 0, valid x) (out : List UInt8) :
    (encodeAllCalls M ho newIter (0, Sink.mem out)).1 = .ok () ↔ newIter 0 ≠ [] ∧ ∀ x ∈ newIter 1, x ∈ newIter 0 := by
  constructor
  · intro h
    have hne : newIter 0 ≠ [] := by
      intro h0
      rw [(C118_calls M ho hho newIter hv _).1 h0] at h
      cases h
    refine ⟨hne, fun x hx => ?_⟩
    apply Classical.byContradiction
    intro hx0
    rcases C118_unknown M ho hho newIter hv ⟨x, hx, hx0⟩ (Sink.mem out) with h1 | ⟨h1, -⟩ <;> rw [h1] at h <;> cases h
  · rintro ⟨hne, hsub⟩
    obtain ⟨_, _, _, _, _, -, -, -, he, -⟩ := C118_second M ho hho newIter hne hv hsub
    obtain ⟨n, hn⟩ := he.run_mem out
    exact (Prod.mk.inj hn).1

end

/-! Examples: first `7 9 7`, then something else. -/

/-- A source that returns the one sequence first and the other one after that. -/
def firstThen (a b : List UInt8) : Nat → List UInt8
  | 0 => a
  | _ + 1 => b

/-- The second time `9 9 7 9`: the tree is that of the first sequence, the codes are those of the second. -/
example : encodeAllCalls (listHeap UInt8) id (firstThen [7, 9, 7] [9, 9, 7, 9]) (0, Sink.mem []) =
    (.ok (), (2, { Sink.mem [1, 0, 9, 0, 7, 0b00100000] with calls := 7 })) := by
  rw [encodeAllCalls_eq, firstThen, example_build]; rfl

/-- The second time `9 8`: a panic after the tree. -/
example : (encodeAllCalls (listHeap UInt8) id (firstThen [7, 9, 7] [9, 8]) (0, Sink.mem [])).1 = .panic := by
  rw [encodeAllCalls_eq, firstThen, example_build]; rfl

/-- A device that fails at the third write: one call only. -/
example : encodeAllCalls (listHeap UInt8) id (firstThen [7, 9, 7] [7, 9, 7])
    (0, Sink.withFaults fun n => if n = 2 then some 0 else none) =
    (.err .io, (1, { Sink.withFaults (fun n => if n = 2 then some 0 else none) with out := [1, 0], calls := 3 })) := by
  rw [encodeAllCalls_eq, firstThen, example_build]; rfl

example : (∀ x ∈ firstThen [7, 9, 7] [9, 9, 7, 9] 1, x ∈ firstThen [7, 9, 7] [9, 9, 7, 9] 0) ∧
    (∃ x ∈ firstThen [7, 9, 7] [9, 8] 1, x ∉ firstThen [7, 9, 7] [9, 8] 0) ∧
    ∀ x ∈ firstThen [7, 9, 7] [9, 8] 0, valid x := by
  refine ⟨by decide, by decide, fun x _ => trivial⟩

end Cniic
