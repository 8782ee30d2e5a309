import Verif.Model.Console
import Verif.Proofs.Bench

/-! # Proofs: the benchmark on a console that does not take everything -/

namespace Cniic

/-- Only the panics at the very end tell a run with this console from one without. -/
structure Bench.Mirrors (complaint : Nat → Bool) (s0 s : Bench) : Prop where
  lock : s.lock = s0.lock
  wroteHeader : s.wroteHeader = s0.wroteHeader
  file : s.file = s0.file
  pc : ∀ i, s.pc i = s0.pc i ∨ s.pc i = .panicked ∧ s0.pc i = .done false ∧ complaint i = false

theorem Bench.Mirrors.set {complaint : Nat → Bool} {s0 s : Bench} (h : Mirrors complaint s0 s) (i : Nat) (q : Pc) :
    Mirrors complaint (s0.set i q) (s.set i q) := by
  refine ⟨h.lock, h.wroteHeader, h.file, fun j => ?_⟩
  by_cases e : j = i
  · left; simp [Bench.set, e]
  · simpa [Bench.set, e] using h.pc j

theorem Bench.Mirrors.same {complaint : Nat → Bool} {s0 s : Bench} (h : Mirrors complaint s0 s) {i : Nat} {q : Pc}
    (hq : s.pc i = q) (hn : q ≠ .panicked) : s0.pc i = q := by
  rcases h.pc i with e | ⟨e, -⟩
  · rw [← e, hq]
  · rw [hq] at e; exact absurd e hn

theorem Bench.Mirrors.step {n : Nat} {result : Nat → Ret Failure Row} {complaint : Nat → Bool} {faults : Prop}
    {s0 s t : Bench} (h : Mirrors complaint s0 s) (st : Step n result faults s t) :
    ∃ t0, Step n result faults s0 t0 ∧ Mirrors complaint t0 t := by
  cases st with
  | fail h1 h2 h3 => exact ⟨_, .fail h1 (h.same h2 (by simp)) h3, h.set _ _⟩
  | panic h1 h2 h3 => exact ⟨_, .panic h1 (h.same h2 (by simp)) h3, h.set _ _⟩
  | lock h1 h2 h3 h4 =>
    exact ⟨_, .lock h1 (h.same h2 (by simp)) h3 (by rw [← h.lock, h4]),
      ⟨rfl, h.wroteHeader, h.file, (h.set _ _).pc⟩⟩
  | header h1 h2 =>
    exact ⟨_, .header (h.same h1 (by simp)) (by rw [← h.wroteHeader, h2]),
      ⟨h.lock, rfl, by show _ ++ _ = _ ++ _; rw [h.file], (h.set _ _).pc⟩⟩
  | headerFails h0 h1 h2 =>
    exact ⟨_, .headerFails h0 (h.same h1 (by simp)) (by rw [← h.wroteHeader, h2]),
      ⟨rfl, h.wroteHeader, h.file, (h.set _ _).pc⟩⟩
  | skip h1 h2 => exact ⟨_, .skip (h.same h1 (by simp)) (by rw [← h.wroteHeader, h2]), h.set _ _⟩
  | row h1 h2 =>
    exact ⟨_, .row (h.same h1 (by simp)) h2, ⟨rfl, h.wroteHeader, by show _ ++ _ = _ ++ _; rw [h.file], (h.set _ _).pc⟩⟩
  | rowFails h0 h1 => exact ⟨_, .rowFails h0 (h.same h1 (by simp)), ⟨rfl, h.wroteHeader, h.file, (h.set _ _).pc⟩⟩

theorem Bench.ConReachable.mirrors {n : Nat} {result : Nat → Ret Failure Row} {complaint : Nat → Bool} {faults : Prop}
    {s : Bench} (h : ConReachable n result complaint faults s) :
    ∃ s0, Reachable n result faults s0 ∧ Mirrors complaint s0 s := by
  induction h with
  | start => exact ⟨_, .start, rfl, rfl, rfl, fun _ => .inl rfl⟩
  | step _ st ih =>
    obtain ⟨s0, h1, h2⟩ := ih
    cases st with
    | step st =>
      obtain ⟨t0, h3, h4⟩ := h2.step st
      exact ⟨t0, h1.step h3, h4⟩
    | @complain i hd hc =>
      refine ⟨s0, h1, h2.lock, h2.wroteHeader, h2.file, fun j => ?_⟩
      by_cases e : j = i
      · subst e
        exact .inr ⟨by simp [Bench.set], h2.same hd (by simp), hc⟩
      · simpa [Bench.set, e] using h2.pc j

end Cniic
