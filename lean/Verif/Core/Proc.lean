/-!
# Calls, failures, panics

Shared vocabulary of the model.  Nothing here is specific to cniic: it is the meaning we give to
Rust's `Result`/`Option` with `?`, to `unwrap`/`assert!`/`panic!`, and to `&mut self`.
-/

namespace Cniic

/-- How a Rust call ends: normally, with `Err(e)` / `None`, or with a panic. -/
inductive Ret (ε : Type) (α : Type) where
  | ok (a : α)
  | err (e : ε)
  | panic
  deriving Repr, DecidableEq

/-- A call that mutates a state `σ` (`&mut`) and may fail.  The state after the call is kept also
when the call fails, because in Rust a `&mut` argument keeps what was done before the failure. -/
def Proc (ε σ α : Type) := σ → Ret ε α × σ

namespace Proc

variable {ε ε' σ α β γ : Type}

def run (m : Proc ε σ α) (s : σ) : Ret ε α × σ := m s

protected def pure (a : α) : Proc ε σ α := fun s => (.ok a, s)

/-- Rust's `let x = m?; f(x)`. -/
protected def bind (m : Proc ε σ α) (f : α → Proc ε σ β) : Proc ε σ β := fun s =>
  match m s with
  | (.ok a, s') => f a s'
  | (.err e, s') => (.err e, s')
  | (.panic, s') => (.panic, s')

instance : Monad (Proc ε σ) where
  pure := Proc.pure
  bind := Proc.bind

/-- `return Err(e)` / `return None`. -/
def fail (e : ε) : Proc ε σ α := fun s => (.err e, s)

/-- `panic!` or a failed `assert!`. -/
def panic : Proc ε σ α := fun s => (.panic, s)

/-- `assert!(b)`. -/
def assert (b : Bool) : Proc ε σ Unit := if b then Proc.pure () else Proc.panic

/-- `m.unwrap()`: an `Err`/`None` becomes a panic. -/
def unwrap (m : Proc ε σ α) : Proc ε' σ α := fun s =>
  match m s with
  | (.ok a, s') => (.ok a, s')
  | (.err _, s') => (.panic, s')
  | (.panic, s') => (.panic, s')

/-- `for x in xs { f(x)?; }` -/
def forEach (f : α → Proc ε σ Unit) : List α → Proc ε σ Unit
  | [] => Proc.pure ()
  | x :: xs => Proc.bind (f x) fun _ => forEach f xs

@[simp] theorem pure_apply (a : α) (s : σ) : (pure a : Proc ε σ α) s = (.ok a, s) := rfl
@[simp] theorem fail_apply (e : ε) (s : σ) : (fail e : Proc ε σ α) s = (.err e, s) := rfl
@[simp] theorem panic_apply (s : σ) : (panic : Proc ε σ α) s = (.panic, s) := rfl

theorem bind_def (m : Proc ε σ α) (f : α → Proc ε σ β) (s : σ) :
    (m >>= f) s = match m s with
      | (.ok a, s') => f a s'
      | (.err e, s') => (.err e, s')
      | (.panic, s') => (.panic, s') := rfl

theorem bind_ok {m : Proc ε σ α} {f : α → Proc ε σ β} {s s' : σ} {a : α}
    (h : m s = (.ok a, s')) : (m >>= f) s = f a s' := by simp [bind_def, h]

theorem bind_err {m : Proc ε σ α} {f : α → Proc ε σ β} {s s' : σ} {e : ε}
    (h : m s = (.err e, s')) : (m >>= f) s = (.err e, s') := by simp [bind_def, h]

theorem bind_panic {m : Proc ε σ α} {f : α → Proc ε σ β} {s s' : σ}
    (h : m s = (.panic, s')) : (m >>= f) s = (.panic, s') := by simp [bind_def, h]

@[simp] theorem assert_true : (assert true : Proc ε σ Unit) = pure () := rfl
@[simp] theorem assert_false : (assert false : Proc ε σ Unit) = panic := rfl

instance : LawfulMonad (Proc ε σ) := LawfulMonad.mk'
  (id_map := by
    intro α x; funext s
    show (Proc.bind x _) s = x s
    unfold Proc.bind
    rcases x s with ⟨_ | _ | _, _⟩ <;> rfl)
  (pure_bind := by intros; rfl)
  (bind_assoc := by
    intro α β γ x f g; funext s
    show (Proc.bind (Proc.bind x f) g) s = (Proc.bind x _) s
    unfold Proc.bind
    rcases x s with ⟨_ | _ | _, _⟩ <;> rfl)

@[simp] theorem forEach_nil (f : α → Proc ε σ Unit) : forEach f [] = pure () := rfl
theorem forEach_cons (f : α → Proc ε σ Unit) (x : α) (xs : List α) :
    forEach f (x :: xs) = (f x >>= fun _ => forEach f xs) := rfl

theorem forEach_append (f : α → Proc ε σ Unit) (xs ys : List α) :
    forEach f (xs ++ ys) = (forEach f xs >>= fun _ => forEach f ys) := by
  induction xs with
  | nil => rfl
  | cons x xs ih => simp only [List.cons_append, forEach_cons, ih, bind_assoc]

end Proc

end Cniic
