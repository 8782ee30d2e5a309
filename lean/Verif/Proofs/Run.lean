import Verif.Spec.Run
import Verif.Proofs.Bench

/-! # Proofs: the files of a benchmark -/

namespace Cniic.Run
open Spec

variable {Node : Type} [DecidableEq Node] {host : Host Node} {p : Setup} {fuel : Nat} {c : AnyCodec}
  {paths : List (List Char)} {faults : Prop} {disk : Node → Option Img}

/-- A step of the report depends only on the outcomes of the images that take part. -/
theorem step_congr {n : Nat} {r r' : Nat → Ret Failure Row} {b b' : Bench} (h : Bench.Step n r faults b b')
    (hr : ∀ j, b'.pc j ≠ b.pc j → r j = r' j) : Bench.Step n r' faults b b' := by
  have same : ∀ {i : Nat} {pc : Pc}, b.pc i ≠ pc → (b.set i pc).pc i ≠ b.pc i := by
    intro i pc h e
    simp only [Bench.set, if_pos] at e
    exact h e.symm
  cases h with
  | fail h1 h2 h3 => exact .fail h1 h2 (by rw [← hr _ (same (by rw [h2]; simp))]; exact h3)
  | panic h1 h2 h3 => exact .panic h1 h2 (by rw [← hr _ (same (by rw [h2]; simp))]; exact h3)
  | lock h1 h2 h3 h4 => exact .lock h1 h2 (by rw [← hr _ (same (pc := .locked) (by rw [h2]; simp))]; exact h3) h4
  | header h1 h2 => exact .header h1 h2
  | headerFails h1 h2 h3 => exact .headerFails h1 h2 h3
  | skip h1 h2 => exact .skip h1 h2
  | row h1 h2 => exact .row h1 (by rw [← hr _ (same (pc := .done true) (by rw [h1]; simp))]; exact h2)
  | rowFails h1 h2 => exact .rowFails h1 h2

/-- What holds in every state as long as no input is overwritten. -/
structure Inv (host : Host Node) (p : Setup) (fuel : Nat) (c : AnyCodec) (paths : List (List Char)) (faults : Prop)
    (disk : Node → Option Img) (s : Run Node) : Prop where
  inputs : ∀ path ∈ paths, s.disk (host.node path) = disk (host.node path)
  read   : ∀ i path o, paths[i]? = some path → s.read i = some o → o = disk (host.node path)
  result : ∀ i r, s.result i = some r → r = aloneAt host p fuel c disk paths i ∧ i < paths.length
  bench  : Bench.Reachable paths.length (aloneAt host p fuel c disk paths) faults s.bench
  kept   : ∀ f, s.disk f = disk f ∨ ∃ i path d, paths[i]? = some path ∧ s.result i ≠ none ∧
    (alone host p fuel c disk path).2 = some (f, d) ∧ s.disk f = host.reopen d
  saved  : ∀ i path f d, paths[i]? = some path → s.result i ≠ none → (alone host p fuel c disk path).2 = some (f, d) →
    ∃ j path' d', paths[j]? = some path' ∧ s.result j ≠ none ∧ (alone host p fuel c disk path').2 = some (f, d') ∧
      s.disk f = host.reopen d'

theorem inv_start : Inv host p fuel c paths faults disk (.start disk) where
  inputs _ _ := rfl
  read i path o _ h := by simp [Run.start] at h
  result i r h := by simp [Run.start] at h
  bench := .start
  kept _ := .inl rfl
  saved i path f d _ h := by simp [Run.start] at h

theorem savedTo_alone {path : List Char} {o : Option Img} (ho : o = disk (host.node path)) (dk : Node → Option Img) :
    savedTo host path (workOn host p fuel c path o).2 dk =
      match (alone host p fuel c disk path).2 with
      | some (f, d) => replaced dk f (host.reopen d)
      | none => dk := by
  subst ho
  unfold savedTo alone
  dsimp only
  cases (workOn host p fuel c path (disk (host.node path))).2 <;> cases host.pictureOf path <;> rfl

theorem inv_step (hsafe : InputsSafe host p fuel c disk paths) {s t : Run Node} (h : Inv host p fuel c paths faults disk s)
    (st : Step host p fuel c paths faults s t) : Inv host p fuel c paths faults disk t := by
  cases st with
  | @read i path hi hr =>
    refine ⟨h.inputs, ?_, h.result, h.bench, h.kept, h.saved⟩
    intro j path' o hj ho
    by_cases e : j = i
    · subst e
      rw [hi] at hj
      cases hj
      simp only [replaced, if_pos, Option.some.injEq] at ho
      rw [← ho, h.inputs path (List.mem_of_getElem? hi)]
    · simp only [replaced, if_neg e] at ho
      exact h.read j path' o hj ho
  | @work i path opened hi hr hn =>
    have ho := h.read i path opened hi hr
    have hlt : i < paths.length := (List.getElem?_eq_some_iff.1 hi).1
    have hsv := savedTo_alone (p := p) (fuel := fuel) (c := c) ho s.disk
    have hnone : ∀ {j : Nat} {r : Ret Failure Row}, replaced s.result i (some r) j ≠ none ↔ j = i ∨ s.result j ≠ none := by
      intro j r
      unfold replaced
      by_cases e : j = i <;> simp [e]
    have hres : ∀ j r, replaced s.result i (some (workOn host p fuel c path opened).1) j = some r →
        r = aloneAt host p fuel c disk paths j ∧ j < paths.length := by
      intro j r hj
      by_cases e : j = i
      · subst e
        simp only [replaced, if_pos, Option.some.injEq] at hj
        refine ⟨?_, hlt⟩
        rw [← hj, aloneAt, hi, ho]
        rfl
      · simp only [replaced, if_neg e] at hj
        exact h.result j r hj
    cases ha : (alone host p fuel c disk path).2 with
    | none =>
      rw [ha] at hsv
      dsimp only at hsv
      refine ⟨?_, h.read, hres, h.bench, ?_, ?_⟩
      · show ∀ path' ∈ paths, savedTo host path _ s.disk (host.node path') = _
        rw [hsv]
        exact h.inputs
      · show ∀ f, savedTo host path _ s.disk f = _ ∨ ∃ j path' d, _ ∧ _ ∧ _ ∧ savedTo host path _ s.disk f = _
        rw [hsv]
        intro f
        rcases h.kept f with h' | ⟨j, path', d, k1, k2, k3, k4⟩
        · exact .inl h'
        · exact .inr ⟨j, path', d, k1, hnone.2 (.inr k2), k3, k4⟩
      · intro j path' f d hj hjr hd
        show ∃ j path' d', _ ∧ _ ∧ _ ∧ savedTo host path _ s.disk f = _
        rw [hsv]
        have hji : j ≠ i := by
          rintro rfl
          rw [hi] at hj
          cases hj
          rw [ha] at hd
          cases hd
        obtain ⟨k, path'', d', k1, k2, k3, k4⟩ := h.saved j path' f d hj ((hnone.1 hjr).resolve_left hji) hd
        exact ⟨k, path'', d', k1, hnone.2 (.inr k2), k3, k4⟩
    | some fd =>
      obtain ⟨f0, d0⟩ := fd
      rw [ha] at hsv
      dsimp only at hsv
      refine ⟨?_, h.read, hres, h.bench, ?_, ?_⟩
      · intro path' hp'
        show savedTo host path _ s.disk (host.node path') = _
        rw [hsv, replaced, if_neg (hsafe path (List.mem_of_getElem? hi) f0 d0 ha path' hp')]
        exact h.inputs path' hp'
      · intro f
        show savedTo host path _ s.disk f = _ ∨ ∃ j path' d, _ ∧ _ ∧ _ ∧ savedTo host path _ s.disk f = _
        rw [hsv]
        by_cases e : f = f0
        · subst e
          exact .inr ⟨i, path, d0, hi, hnone.2 (.inl rfl), ha, by simp [replaced]⟩
        · simp only [replaced, if_neg e]
          rcases h.kept f with h' | ⟨j, path', d, k1, k2, k3, k4⟩
          · exact .inl h'
          · exact .inr ⟨j, path', d, k1, hnone.2 (.inr k2), k3, k4⟩
      · intro j path' f d hj hjr hd
        show ∃ j path' d', _ ∧ _ ∧ _ ∧ savedTo host path _ s.disk f = _
        rw [hsv]
        by_cases e : f = f0
        · subst e
          exact ⟨i, path, d0, hi, hnone.2 (.inl rfl), ha, by simp [replaced]⟩
        · simp only [replaced, if_neg e]
          have hji : j ≠ i := by
            rintro rfl
            rw [hi] at hj
            cases hj
            rw [ha] at hd
            cases hd
            exact e rfl
          obtain ⟨k, path'', d', k1, k2, k3, k4⟩ := h.saved j path' f d hj ((hnone.1 hjr).resolve_left hji) hd
          exact ⟨k, path'', d', k1, hnone.2 (.inr k2), k3, k4⟩
  | report hb hk =>
    refine ⟨h.inputs, h.read, h.result, h.bench.step (step_congr hb fun j hj => ?_), h.kept, h.saved⟩
    cases hr : s.result j with
    | none => exact absurd hr (hk j hj)
    | some r => exact (h.result j r hr).1

theorem inv_reachable (hsafe : InputsSafe host p fuel c disk paths) {s : Run Node}
    (h : Reachable host p fuel c paths faults disk s) : Inv host p fuel c paths faults disk s := by
  induction h with
  | start => exact inv_start
  | step _ st ih => exact inv_step hsafe ih st

end Cniic.Run

/-! ## Schedules without overlap -/

namespace Cniic.Run
open Spec

variable {Node : Type} [DecidableEq Node] {host : Host Node} {p : Setup} {fuel : Nat} {c : AnyCodec}
  {paths : List (List Char)} {faults : Prop} {disk : Node → Option Img}

/-- One image is read and worked on without interruption. -/
def oneImage (host : Host Node) (p : Setup) (fuel : Nat) (c : AnyCodec) (paths : List (List Char)) (s : Run Node) (i : Nat) :
    Run Node :=
  match paths[i]? with
  | none => s
  | some path =>
    if s.read i = none ∧ (s.result i).isNone then
      let opened := s.disk (host.node path)
      { s with read := replaced s.read i (some opened)
               result := replaced s.result i (some (workOn host p fuel c path opened).1)
               disk := savedTo host path (workOn host p fuel c path opened).2 s.disk }
    else s

/-- The images are worked on one after the other. -/
def inTurn (host : Host Node) (p : Setup) (fuel : Nat) (c : AnyCodec) (paths : List (List Char)) (disk : Node → Option Img)
    (order : List Nat) : Run Node :=
  order.foldl (oneImage host p fuel c paths) (.start disk)

theorem oneImage_reachable {s : Run Node} (h : Reachable host p fuel c paths faults disk s) (i : Nat) :
    Reachable host p fuel c paths faults disk (oneImage host p fuel c paths s i) := by
  unfold oneImage
  split
  · exact h
  · next path hp =>
    split
    · next hn =>
      exact (h.step (.read hp hn.1)).step (.work hp (by simp [replaced]) (Option.isNone_iff_eq_none.1 hn.2))
    · exact h

theorem inTurn_reachable (order : List Nat) :
    Reachable host p fuel c paths faults disk (inTurn host p fuel c paths disk order) := by
  unfold inTurn
  suffices ∀ s, Reachable host p fuel c paths faults disk s →
      Reachable host p fuel c paths faults disk (order.foldl (oneImage host p fuel c paths) s) from this _ .start
  induction order with
  | nil => exact fun s h => h
  | cons i is ih => exact fun s h => ih _ (oneImage_reachable h i)

theorem oneImage_bench (s : Run Node) (i : Nat) : (oneImage host p fuel c paths s i).bench = s.bench := by
  unfold oneImage
  split
  · rfl
  · split <;> rfl

theorem inTurn_bench (order : List Nat) : (inTurn host p fuel c paths disk order).bench = .start := by
  unfold inTurn
  suffices ∀ s : Run Node, (order.foldl (oneImage host p fuel c paths) s).bench = s.bench from this _
  induction order with
  | nil => exact fun s => rfl
  | cons i is ih => exact fun s => (ih _).trans (oneImage_bench s i)

/-- Only an image of the run takes part in a step of the report. -/
theorem step_range {n : Nat} {r : Nat → Ret Failure Row} {b b' : Bench} (h : Bench.Step n r faults b b')
    (hb : Bench.Reachable n r faults b) (j : Nat) (hj : b'.pc j ≠ b.pc j) : j < n := by
  obtain ⟨order, rows, hi⟩ := Bench.inv_reachable hb
  have only : ∀ {i : Nat} {pc : Pc}, (b.set i pc).pc j ≠ b.pc j → j = i := by
    intro i pc h
    by_cases e : j = i
    · exact e
    · simp [Bench.set, e] at h
  cases h with
  | fail h1 h2 h3 => rw [only hj]; exact h1
  | panic h1 h2 h3 => rw [only hj]; exact h1
  | lock h1 h2 h3 h4 => rw [only (pc := .locked) hj]; exact h1
  | header h1 h2 => rw [only (pc := .headed) hj]; exact (hi.good _ (.inl h1)).1
  | headerFails h1 h2 h3 => rw [only (pc := .done false) hj]; exact (hi.good _ (.inl h2)).1
  | skip h1 h2 => rw [only hj]; exact (hi.good _ (.inl h1)).1
  | row h1 h2 => rw [only (pc := .done true) hj]; exact (hi.good _ (.inr (.inl h1))).1
  | rowFails h1 h2 => rw [only (pc := .done false) hj]; exact (hi.good _ (.inr (.inl h2))).1

/-- What happens to the report once all images are worked on. -/
theorem report_reachable {s : Run Node} (h : Reachable host p fuel c paths faults disk s) (hs : s.bench = .start)
    (hw : Worked paths s) {b : Bench} (hb : Bench.Reachable paths.length (fun i => (s.result i).getD .panic) faults b) :
    Reachable host p fuel c paths faults disk { s with bench := b } := by
  induction hb with
  | start =>
    rw [← hs]
    exact h
  | step hb st ih => exact ih.step (.report st fun j hj => hw j (step_range st hb j hj))

end Cniic.Run
