import Verif.Proofs.Hilbertc
import Verif.Proofs.Trunc
import Verif.Spec.Staged

/-! # Proofs: where write faults surface -/

namespace Cniic
open Spec SerSpec

theorem Emits.staged {α : Type} {k : Surface} {m : W α} {bs : List UInt8} {a : α}
    (h : Emits (· = k) m bs a) : Staged [(k, bs)] m a := by
  intro s
  obtain ⟨n, ⟨hn, he⟩ | ⟨hn, hf, p, k', hp, hk, he⟩⟩ := h s
  · exact ⟨n, .inl ⟨hn, by simpa [stageBytes] using he⟩⟩
  · subst hk
    exact ⟨n, .inr ⟨hn, hf, [], k', bs, [], p, rfl, hp, by simpa [stageBytes] using he⟩⟩

theorem Spec.Staged.bind {α β : Type} {m : W α} {f : α → W β} {p1 p2 : List (Surface × List UInt8)}
    {a : α} {b : β} (h1 : Staged p1 m a) (h2 : Staged p2 (f a) b) : Staged (p1 ++ p2) (m >>= f) b := by
  intro s
  obtain ⟨n, ⟨hn, he⟩ | ⟨hn, hf, pre, k, bs, post, p, e, hp, he⟩⟩ := h1 s
  · obtain ⟨n', ⟨hn', he'⟩ | ⟨hn', hf', pre, k, bs, post, p, e, hp, he'⟩⟩ :=
      h2 { s with out := s.out ++ stageBytes p1, calls := s.calls + n }
    · refine ⟨n + n', .inl ⟨?_, ?_⟩⟩
      · intro i hi
        by_cases h : i < n
        · exact hn i h
        · have := hn' (i - n) (by omega)
          simpa [show s.calls + n + (i - n) = s.calls + i by omega] using this
      · rw [Proc.bind_ok he, he']; simp [Nat.add_assoc, stageBytes]
    · refine ⟨n + n', .inr ⟨?_, ?_, p1 ++ pre, k, bs, post, p, ?_, hp, ?_⟩⟩
      · intro i hi
        by_cases h : i < n
        · exact hn i h
        · have := hn' (i - n) (by omega)
          simpa [show s.calls + n + (i - n) = s.calls + i by omega] using this
      · simpa [Nat.add_assoc] using hf'
      · rw [e, List.append_assoc]
      · rw [Proc.bind_ok he, he']; simp [Nat.add_assoc, stageBytes]
  · refine ⟨n, .inr ⟨hn, hf, pre, k, bs, post ++ p2, p, by rw [e]; simp, hp, ?_⟩⟩
    cases k with
    | asError => exact Proc.bind_err he
    | asPanic => exact Proc.bind_panic he

theorem Spec.Staged.pure {α : Type} (a : α) : Staged [] (Pure.pure a : W α) a := by
  intro s; exact ⟨0, .inl ⟨by simp, by simp [stageBytes]⟩⟩

/-- Two stages with the same behaviour are one. -/
theorem Spec.Staged.merge {α : Type} {k : Surface} {b1 b2 : List UInt8} {rest : List (Surface × List UInt8)} {m : W α} {a : α}
    (h : Staged ((k, b1) :: (k, b2) :: rest) m a) : Staged ((k, b1 ++ b2) :: rest) m a := by
  intro s
  obtain ⟨n, ⟨hn, he⟩ | ⟨hn, hf, pre, k', bs, post, p, e, hp, he⟩⟩ := h s
  · exact ⟨n, .inl ⟨hn, by simpa [stageBytes] using he⟩⟩
  · refine ⟨n, .inr ⟨hn, hf, ?_⟩⟩
    match pre, e with
    | [], e =>
      simp only [List.nil_append, List.cons.injEq, Prod.mk.injEq] at e
      obtain ⟨⟨rfl, rfl⟩, -⟩ := e
      exact ⟨[], k, b1 ++ b2, rest, p, rfl, hp.trans (List.prefix_append _ _), he⟩
    | [_], e =>
      simp only [List.cons_append, List.nil_append, List.cons.injEq, Prod.mk.injEq] at e
      obtain ⟨rfl, ⟨rfl, rfl⟩, -⟩ := e
      refine ⟨[], k, b1 ++ b2, rest, b1 ++ p, rfl, (List.prefix_append_right_inj b1).2 hp, ?_⟩
      simpa [stageBytes] using he
    | _ :: _ :: pre, e =>
      simp only [List.cons_append, List.cons.injEq] at e
      obtain ⟨rfl, rfl, e⟩ := e
      exact ⟨(k, b1 ++ b2) :: pre, k', bs, post, p, by rw [e]; rfl, hp, by simpa [stageBytes] using he⟩

/-- Stages describe the whole output. -/
theorem Spec.Staged.bytesOf {α : Type} {parts : List (Surface × List UInt8)} {m : W α} {a : α}
    (h : Staged parts m a) : bytesOf m = .ok (stageBytes parts) := by
  obtain ⟨n, ⟨_, he⟩ | ⟨_, hf, _⟩⟩ := h (Sink.mem [])
  · simp only [Cniic.bytesOf, he]; simp [Sink.mem]
  · simp [Sink.mem] at hf

section
variable {T : Type} [DecidableEq T]

/-- The stages of `encode_all` on a non-empty input. -/
theorem encodeAll_staged [Ser T] [SerSpec T] [LawfulSer T] (M : MinHeap T)
    {ho : List (T × Nat) → List (T × Nat)} (hperm : IsOrder ho) (items : List T)
    (hne : items ≠ []) (hv : ∀ x ∈ items, SerSpec.valid x) :
    ∃ (dec : BinTrie T) (full last : List UInt8), TreeValid dec ∧ last.length ≤ 1 ∧
      Staged [(.asError, treeBytes dec), (.asPanic, full), (.asError, last)] (encodeAll M ho items) () := by
  obtain ⟨enc, dec, _, _, hb, _, hmem, _, htv, _, _, _, hget, _, _⟩ := encodeAll_spec M ho hperm items hne hv
  obtain ⟨o1, w1, e1, k1, p1⟩ := emits_encodeSymbols_panic (t := dec) BitWriter.ok_new items
    (fun x hx => hget x ((hmem x).2 hx))
  obtain ⟨o2, w2, k, e2, hk, _, _, p2⟩ := BitWriter.emits_padAndFlush k1
  refine ⟨dec, o1, o2, htv, ?_, ?_⟩
  · have h1 := congrArg List.length p2
    have h2 : w1.pending.length < 8 := by
      have := k1.count
      simp only [BitWriter.pending, List.length_drop, bitsMsb_length]
      omega
    rw [bitsOf_length, List.length_append, List.length_replicate] at h1
    omega
  · simp only [encodeAll, hb]
    exact Staged.bind (Emits.staged (emits_tree dec htv))
      (f := fun _ => (do
        let w ← encodeSymbols enc (BitWriter.new .msbFirst) items
        let _ ← w.padAndFlush
        Pure.pure ()))
      (Staged.bind (Emits.staged e1) (Staged.bind (Emits.staged e2) (Staged.pure ())))

end

theorem encodeAll_empty {T : Type} [DecidableEq T] [Ser T] (M : MinHeap T)
    {ho : List (T × Nat) → List (T × Nat)} (hho : IsOrder ho) (s : Sink) :
    (encodeAll M ho [] s).1 = .panic := by
  have h0 : ho (countFreqs []) = [] := (hho _).eq_nil
  have hlen : M.len (M.fromIter []) = 0 := by
    rw [M.len_eq, (M.contents_fromIter []).eq_nil]; rfl
  simp [encodeAll, build, buildDec, h0, hlen]

end Cniic
