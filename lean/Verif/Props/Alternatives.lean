import Verif.Model.Alternatives
import Verif.Props.Parse

/-!
# The unsafe block of the program (C110)
-/

namespace Cniic
open Prs

/-- **C110**, the function with the `unsafe` block is never undefined behaviour, in whatever state it is called; it panics
exactly if there is a result already. -/
theorem C110_stack_error {T : Type} (res : Res T) (name : String) (e : ParseError) :
    res.stackError name e ≠ .undefined ∧ (res.stackError name e = .panics ↔ res.isErr = false) := by
  cases res with
  | error es => exact ⟨(fun h => by cases h), (fun h => by cases h), (fun h => by cases h)⟩
  | ok x => exact ⟨(fun h => by cases h), fun _ => rfl, fun _ => rfl⟩

/-- **C110**, this is due to the assertion in front of it: without it, a call after success is undefined behaviour. -/
theorem C110_assertion {T : Type} (x : T) (name : String) (e : ParseError) :
    Res.push (.ok x) name e = .undefined := rfl

/-- **C110**, no assertion ever fails: trying an alternative panics only if its parser does, and then only if no earlier
one succeeded. -/
theorem C110_then_try {T : Type} (res : Res T) (name : String) (r : Ret ParseError T) :
    res.thenTry name r ≠ .undefined ∧ (res.thenTry name r = .panics ↔ res.isErr = true ∧ r = .panic) := by
  cases res with
  | ok x => exact ⟨(fun h => by cases h), (fun h => by cases h), (fun h => by cases h.1)⟩
  | error es =>
    cases r with
    | ok x => exact ⟨(fun h => by cases h), (fun h => by cases h), (fun h => by cases h.2)⟩
    | err e => exact ⟨(fun h => by cases h), (fun h => by cases h), (fun h => by cases h.2)⟩
    | panic => exact ⟨(fun h => by cases h), fun _ => ⟨rfl, rfl⟩, fun _ => rfl⟩

/-- The state as the model in `Model/Prs.lean` has it. -/
def Prs.Res.merged {T : Type} : Res T → Alternatives T
  | .ok x => .ok x
  | .error es => .err es

/-- **C110**, the merged functions of `Model/Prs.lean`, about which the other theorems are, do the same: any sequence of
alternatives gives the same result in both models, or panics in both, and is undefined in none. -/
theorem C110_merged {T : Type} (rs : List (String × Ret ParseError T)) (res : Res T) :
    (∃ res', res.tryAll rs = .returns res' ∧ rs.foldl (fun a r => Alternatives.thenTry a r.1 r.2) res.merged = res'.merged ∧
      res'.end = Alternatives.end res'.merged) ∨
    res.tryAll rs = .panics ∧ rs.foldl (fun a r => Alternatives.thenTry a r.1 r.2) res.merged = .panic := by
  induction rs generalizing res with
  | nil => exact .inl ⟨res, rfl, rfl, by cases res <;> rfl⟩
  | cons p rs ih =>
    obtain ⟨name, r⟩ := p
    have pan : rs.foldl (fun a r => Alternatives.thenTry a r.1 r.2) (.panic : Alternatives T) = .panic := by
      clear ih
      induction rs with
      | nil => rfl
      | cons _ _ ih => exact ih
    cases res with
    | ok x => exact ih (.ok x)
    | error es =>
      cases r with
      | ok x => exact ih (.ok x)
      | err e => exact ih (.error (es ++ [(name, e)]))
      | panic => exact .inr ⟨rfl, pan⟩

/-- Two failures, a success, and a parser that would panic but is not called. -/
example : Res.tryAll (T := Nat) (.error []) [("A", .err (.other .noMatch)), ("B", .err (.other .notHufman)), ("C", .ok 3),
    ("D", .panic)] = .returns (.ok 3) := rfl

/-- A parser that panics and is called. -/
example : Res.tryAll (T := Nat) (.error []) [("A", .err (.other .noMatch)), ("D", .panic), ("C", .ok 3)] = .panics := rfl

end Cniic
