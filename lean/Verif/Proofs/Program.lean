import Verif.Model.Program
import Verif.Proofs.Run

/-! # Proofs: the program as a whole -/

namespace Cniic
open Spec

/-- The work on an image that came as far as the lock, or returned, did not panic. -/
theorem Bench.not_panic {n : Nat} {result : Nat → Ret Failure Row} {faults : Prop} {s : Bench}
    (h : Bench.Reachable n result faults s) (i : Nat) (hi : s.pc i ≠ .working) (hp : s.pc i ≠ .panicked) :
    result i ≠ .panic := by
  induction h with
  | start => exact absurd rfl hi
  | @step s t hr st ih =>
    have keep : ∀ {j : Nat} {pc : Pc}, i ≠ j → t.pc = (s.set j pc).pc → t.pc i = s.pc i := by
      intro j pc hj ht
      rw [ht, Bench.set_other _ _ hj]
    have from' : ∀ {j : Nat} {pc : Pc}, t.pc = (s.set j pc).pc → (i = j → result i ≠ .panic) → result i ≠ .panic := by
      intro j pc ht hj
      by_cases e : i = j
      · exact hj e
      · rw [keep e ht] at hi hp
        exact ih hi hp
    cases st with
    | fail h1 h2 h3 => exact from' rfl fun e => by rw [e, h3]; simp
    | panic h1 h2 h3 =>
      refine from' rfl fun e => ?_
      subst e
      exact absurd (Bench.set_same s i .panicked) hp
    | lock h1 h2 h3 h4 => exact from' (pc := .locked) rfl fun e => by rw [e, h3]; simp
    | header h1 h2 => exact from' (pc := .headed) rfl fun e => ih (by rw [e, h1]; simp) (by rw [e, h1]; simp)
    | headerFails h1 h2 h3 => exact from' (pc := .done false) rfl fun e => ih (by rw [e, h2]; simp) (by rw [e, h2]; simp)
    | skip h1 h2 => exact from' rfl fun e => ih (by rw [e, h1]; simp) (by rw [e, h1]; simp)
    | row h1 h2 => exact from' (pc := .done true) rfl fun e => by rw [e, h2]; simp
    | rowFails h1 h2 => exact from' (pc := .done false) rfl fun e => ih (by rw [e, h2]; simp) (by rw [e, h2]; simp)

/-- Exporting the traversals succeeds or panics. -/
theorem exportAll_no_err (disk : Disk) (scan : Scan) (chk : Bool) (paths : List (List Char)) (fs : Files) (e : Msg) :
    (exportAll disk scan chk paths fs).1 ≠ .err e := by
  have one : ∀ iter path meth fs e, (writeToCsv disk iter path meth fs).1 ≠ .err e := by
    intro iter path meth fs e
    unfold writeToCsv
    repeat' split
    all_goals simp
  have bind : ∀ {α β : Type} (x : Proc Msg Files α) (f : α → Proc Msg Files β) (fs : Files),
      (∀ e, (x fs).1 ≠ .err e) → (∀ a fs e, (f a fs).1 ≠ .err e) → ∀ e, ((x >>= f) fs).1 ≠ .err e := by
    intro α β x f fs hx hf e
    rw [Proc.bind_def]
    cases h : x fs with
    | mk r fs1 =>
      cases r with
      | ok a => exact hf a fs1 e
      | err e' => exact absurd (by rw [h]) (hx e')
      | panic => simp
  have img : ∀ path fs e, (exportImage disk scan chk path fs).1 ≠ .err e := by
    intro path fs e
    unfold exportImage
    split
    · simp
    · exact bind _ _ _ (one _ _ _ _) (fun _ fs => bind _ _ _ (one _ _ _ _) fun _ fs => one _ _ _ _) e
  unfold exportAll
  induction paths generalizing fs e with
  | nil =>
    show Ret.ok () ≠ _
    simp
  | cons p ps ih =>
    rw [Proc.forEach_cons]
    exact bind _ _ _ (img p fs) (fun _ fs => ih fs) e

namespace Run

variable {Node : Type} [DecidableEq Node] {host : Host Node} {p : Setup} {fuel : Nat} {c : AnyCodec}
  {paths : List (List Char)} {faults : Prop} {disk : Node → Option Img}

theorem oneImage_result (s : Run Node) (i : Nat) (hs : ∀ j, s.read j = none ↔ s.result j = none) :
    (∀ j, (oneImage host p fuel c paths s i).read j = none ↔ (oneImage host p fuel c paths s i).result j = none) ∧
      (∀ j, s.result j ≠ none → (oneImage host p fuel c paths s i).result j ≠ none) ∧
      (i < paths.length → (oneImage host p fuel c paths s i).result i ≠ none) := by
  unfold oneImage
  split
  · next h =>
    refine ⟨hs, fun _ h => h, fun hi => ?_⟩
    rw [List.getElem?_eq_getElem hi] at h
    cases h
  · split
    · refine ⟨fun j => ?_, fun j hj => ?_, fun _ => by simp [replaced]⟩
      · by_cases e : j = i
        · simp [replaced, e]
        · simpa [replaced, e] using hs j
      · by_cases e : j = i
        · simp [replaced, e]
        · simpa [replaced, e] using hj
    · next h =>
      refine ⟨hs, fun _ h => h, fun _ hn => h ⟨(hs i).2 hn, by simp [hn]⟩⟩

/-- The images in the order of the command line. -/
theorem inTurn_worked : Worked paths (inTurn host p fuel c paths disk (List.range paths.length)) := by
  have main : ∀ (order : List Nat) (s : Run Node), (∀ j, s.read j = none ↔ s.result j = none) →
      (∀ j, s.result j ≠ none → (order.foldl (oneImage host p fuel c paths) s).result j ≠ none) ∧
      ∀ j ∈ order, j < paths.length → (order.foldl (oneImage host p fuel c paths) s).result j ≠ none := by
    intro order
    induction order with
    | nil => exact fun s _ => ⟨fun _ h => h, fun j hj => by simp at hj⟩
    | cons i is ih =>
      intro s hs
      obtain ⟨h1, h2, h3⟩ := oneImage_result (host := host) (p := p) (fuel := fuel) (c := c) (paths := paths) s i hs
      obtain ⟨k1, k2⟩ := ih _ h1
      refine ⟨fun j hj => k1 j (h2 j hj), fun j hj hlt => ?_⟩
      rcases List.mem_cons.1 hj with rfl | hj
      · exact k1 j (h3 hlt)
      · exact k2 j hj hlt
  intro i hi
  exact (main _ (.start disk) (fun j => by simp [Run.start])).2 i (List.mem_range.2 hi) hi

end Run
end Cniic
