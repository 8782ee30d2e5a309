import Verif.Model.Prs

/-!
# Model of `ParseAlternatives` (src/prs.rs:177-226) with its `unsafe` block

`Model/Prs.lean` merges `into_success` and `stack_error` into `then_try`.  Here they are separate functions with their
assertions, and `unwrap_err_unchecked` on a value that is not an error is undefined behaviour.
-/

namespace Cniic.Prs

/-- What a call does: it returns, panics, or is undefined behaviour. -/
inductive Act (α : Type) where
  | returns (x : α)
  | panics
  | undefined

/-- Do something with what a call returns. -/
def Act.next {α β : Type} : Act α → (α → Act β) → Act β
  | .returns x, f => f x
  | .panics, _ => .panics
  | .undefined, _ => .undefined

/-- The field `res` of `struct ParseAlternatives` (prs.rs:177-180): a result or the errors so far. -/
abbrev Res (T : Type) := Except (List (String × ParseError)) T

/-- `self.res.is_err()`. -/
def Res.isErr {T : Type} : Res T → Bool
  | .error _ => true
  | .ok _ => false

/-- `Result::unwrap_err_unchecked` of the standard library (prs.rs:215). -/
def Res.unwrapErrUnchecked {T : Type} : Res T → Act (List (String × ParseError))
  | .error es => .returns es
  | .ok _ => .undefined

/-- `ParseAlternatives::into_success` (prs.rs:202-206). -/
def Res.intoSuccess {T : Type} (res : Res T) (x : T) : Act (Res T) :=
  if res.isErr then .returns (.ok x) else .panics

/-- The body of `stack_error` after its assertion (prs.rs:211-219). -/
def Res.push {T : Type} (res : Res T) (name : String) (e : ParseError) : Act (Res T) :=
  res.unwrapErrUnchecked.next fun es => .returns (.error (es ++ [(name, e)]))

/-- `ParseAlternatives::stack_error` (prs.rs:208-220). -/
def Res.stackError {T : Type} (res : Res T) (name : String) (e : ParseError) : Act (Res T) :=
  if res.isErr then res.push name e else .panics

/-- `ParseAlternatives::then_try` (prs.rs:190-200); `r` is the result of the parser. -/
def Res.thenTry {T : Type} (res : Res T) (name : String) (r : Ret ParseError T) : Act (Res T) :=
  match res with
  | .ok _ => .returns res
  | .error _ =>
    match r with
    | .ok x => res.intoSuccess x
    | .err e => res.stackError name e
    | .panic => .panics

/-- `ParseAlternatives::new` (prs.rs:183-188), then any number of calls of `then_try`. -/
def Res.tryAll {T : Type} (res : Res T) : List (String × Ret ParseError T) → Act (Res T)
  | [] => .returns res
  | (name, r) :: rs => (res.thenTry name r).next fun res' => res'.tryAll rs

/-- `ParseAlternatives::end` (prs.rs:222-225). -/
def Res.end {T : Type} : Res T → Ret ParseError T
  | .ok x => .ok x
  | .error es => .err (.allFailed es)

end Cniic.Prs
