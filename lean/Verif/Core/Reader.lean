import Verif.Core.Proc

/-!
# Iterators and readers

An iterator with items `α` and state `σ` is its `next` function.  `None` is the `err` outcome.
A function `fn f<I: Iterator<Item = u8>>(stream: &mut I) -> Option<α>` takes the `next` function of
its stream and is itself a call on the state of that stream.
-/

namespace Cniic

/-- `&mut σ -> Option<α>`, possibly panicking.  Both `Iterator::next` and readers have this shape. -/
abbrev Rd (σ α : Type) := Proc Unit σ α

/-- `None`. -/
abbrev Rd.none {σ α : Type} : Rd σ α := Proc.fail ()

/-- The iterator over the elements of a list (`Vec::into_iter`). -/
def listNext {α : Type} : Rd (List α) α
  | []      => (.err (), [])
  | a :: as => (.ok a, as)

@[simp] theorem listNext_nil {α : Type} : (listNext : Rd (List α) α) [] = (.err (), []) := rfl
@[simp] theorem listNext_cons {α : Type} (a : α) (as : List α) :
    listNext (a :: as) = (.ok a, as) := rfl

/-- `Yields next s xs`: pulling from state `s` gives the items `xs` one after the other and then
`None`, and `None` again however often it is pulled, without ever panicking. -/
def Yields {σ α : Type} (next : Rd σ α) : σ → List α → Prop
  | s, []      => ∃ P : σ → Prop, P s ∧ ∀ t, P t → (next t).1 = .err () ∧ P (next t).2
  | s, x :: xs => ∃ s', next s = (.ok x, s') ∧ Yields next s' xs

/-- `Supplies next s xs`: pulling from state `s` gives the items `xs` one after the other (and then
anything). -/
def Supplies {σ α : Type} (next : Rd σ α) : σ → List α → Prop
  | _, []      => True
  | s, x :: xs => ∃ s', next s = (.ok x, s') ∧ Supplies next s' xs

/-- `PanicsAfter next s xs`: pulling from state `s` gives the items `xs` one after the other, and the
next pull panics. -/
def PanicsAfter {σ α : Type} (next : Rd σ α) : σ → List α → Prop
  | s, []      => (next s).1 = .panic
  | s, x :: xs => ∃ s', next s = (.ok x, s') ∧ PanicsAfter next s' xs

/-- `EndsAfter next s xs`: pulling from state `s` gives the items `xs` one after the other, and the next
pull gives `None` (further pulls may give anything). -/
def EndsAfter {σ α : Type} (next : Rd σ α) : σ → List α → Prop
  | s, []      => (next s).1 = .err ()
  | s, x :: xs => ∃ s', next s = (.ok x, s') ∧ EndsAfter next s' xs

theorem Yields.of_next_eq {σ α : Type} {next : Rd σ α} {s t : σ} {xs : List α}
    (e : next s = next t) (h : Yields next t xs) : Yields next s xs := by
  cases xs with
  | nil =>
    obtain ⟨P, ht, hP⟩ := h
    refine ⟨fun u => u = s ∨ P u, .inl rfl, ?_⟩
    rintro u (rfl | hu)
    · rw [e]; exact ⟨(hP t ht).1, .inr (hP t ht).2⟩
    · exact ⟨(hP u hu).1, .inr (hP u hu).2⟩
  | cons x xs => obtain ⟨s', h1, h2⟩ := h; exact ⟨s', e.trans h1, h2⟩

theorem PanicsAfter.of_next_eq {σ α : Type} {next : Rd σ α} {s t : σ} {xs : List α}
    (e : next s = next t) (h : PanicsAfter next t xs) : PanicsAfter next s xs := by
  cases xs with
  | nil => simpa [PanicsAfter, e] using h
  | cons x xs => obtain ⟨s', h1, h2⟩ := h; exact ⟨s', e.trans h1, h2⟩

theorem Yields.supplies {σ α : Type} {next : Rd σ α} {s : σ} {xs : List α}
    (h : Yields next s xs) : Supplies next s xs := by
  induction xs generalizing s with
  | nil => trivial
  | cons x xs ih => obtain ⟨s', h1, h2⟩ := h; exact ⟨s', h1, ih h2⟩

theorem yields_list {α : Type} (xs : List α) : Yields listNext xs xs := by
  induction xs with
  | nil => exact ⟨fun t => t = [], rfl, by rintro t rfl; simp⟩
  | cons x xs ih => exact ⟨xs, rfl, ih⟩

/-- Two readers over different streams, started on related streams, succeed with the same value or
both do not succeed.  As long as they succeed the streams remain related by `R`; otherwise `Q` relates
how they ended (panic or `None`) and the streams. -/
def Sim {σ τ α : Type} (R : σ → τ → Prop) (Q : Bool → Bool → σ → τ → Prop) (m : Rd σ α) (m' : Rd τ α) :
    Prop :=
  ∀ s t, R s t →
    match m s, m' t with
    | (.ok a, s'), (.ok b, t') => a = b ∧ R s' t'
    | (.ok _, _), (_, _) => False
    | (_, _), (.ok _, _) => False
    | (.err _, s'), (.err _, t') => Q false false s' t'
    | (.err _, s'), (.panic, t') => Q false true s' t'
    | (.panic, s'), (.err _, t') => Q true false s' t'
    | (.panic, s'), (.panic, t') => Q true true s' t'

theorem Sim.pure {σ τ α : Type} {R : σ → τ → Prop} {Q} (a : α) :
    Sim R Q (Pure.pure a : Rd σ α) (Pure.pure a : Rd τ α) := fun _ _ h => ⟨rfl, h⟩

theorem Sim.none {σ τ α : Type} {R : σ → τ → Prop} {Q} (hRQ : ∀ s t, R s t → Q false false s t) :
    Sim R Q (Rd.none : Rd σ α) (Rd.none : Rd τ α) := fun s t h => hRQ s t h

theorem Sim.bind {σ τ α β : Type} {R : σ → τ → Prop} {Q} {m : Rd σ α} {m' : Rd τ α}
    {f : α → Rd σ β} {f' : α → Rd τ β} (h : Sim R Q m m') (hf : ∀ a, Sim R Q (f a) (f' a)) :
    Sim R Q (m >>= f) (m' >>= f') := by
  intro s t hst
  have h1 := h s t hst
  simp only [Proc.bind_def]
  generalize hx : m s = x at *
  generalize hy : m' t = y at *
  rcases x with ⟨_ | _ | _, s'⟩ <;> rcases y with ⟨_ | _ | _, t'⟩ <;> simp only at h1 ⊢ <;>
    try exact h1
  obtain ⟨rfl, h2⟩ := h1
  exact hf _ s' t' h2

/-- The readers end in the same way. -/
theorem Sim.eq {σ τ α : Type} {R : σ → τ → Prop} {Q : σ → τ → Prop} {m : Rd σ α} {m' : Rd τ α}
    (h : Sim R (fun p q s t => p = q ∧ Q s t) m m') {s : σ} {t : τ} (hst : R s t) :
    (m s).1 = (m' t).1 := by
  have h1 := h s t hst
  generalize hx : m s = x at *
  generalize hy : m' t = y at *
  rcases x with ⟨_ | _ | _, s'⟩ <;> rcases y with ⟨_ | _ | _, t'⟩ <;> simp_all

/-- The readers end in the same way and the streams remain related. -/
abbrev Same {σ τ : Type} (R : σ → τ → Prop) : Bool → Bool → σ → τ → Prop := fun p q s t => p = q ∧ R s t

theorem Sim.rel {σ τ α : Type} {R : σ → τ → Prop} {m : Rd σ α} {m' : Rd τ α} (h : Sim R (Same R) m m')
    {s : σ} {t : τ} (hst : R s t) : R (m s).2 (m' t).2 := by
  have h1 := h s t hst
  generalize hx : m s = x at *
  generalize hy : m' t = y at *
  rcases x with ⟨_ | _ | _, s'⟩ <;> rcases y with ⟨_ | _ | _, t'⟩ <;> simp_all [Same]

theorem Sim.of_rel {σ τ α : Type} {R : σ → τ → Prop} {m : Rd σ α} {m' : Rd τ α}
    (h : ∀ s t, R s t → (m s).1 = (m' t).1 ∧ R (m s).2 (m' t).2) : Sim R (Same R) m m' := by
  intro s t hst
  obtain ⟨h1, h2⟩ := h s t hst
  generalize hx : m s = x at *
  generalize hy : m' t = y at *
  rcases x with ⟨_ | _ | _, s'⟩ <;> rcases y with ⟨_ | _ | _, t'⟩ <;> simp_all [Same]

/-- The relation "state `s` yields exactly the list `l`" is a simulation of `next` by `listNext`. -/
theorem Sim.of_yields {σ α : Type} (next : Rd σ α) :
    Sim (Yields next) (Same (Yields next)) next listNext := by
  apply Sim.of_rel
  intro s l h
  cases l with
  | nil =>
    obtain ⟨P, hs, hP⟩ := h
    exact ⟨(hP s hs).1, P, (hP s hs).2, hP⟩
  | cons x xs =>
    obtain ⟨s', h1, h2⟩ := h
    rw [h1]; exact ⟨rfl, h2⟩

/-- The iterator over a list that panics when the list is exhausted. -/
def listThenPanic {α : Type} : Rd (List α) α
  | []      => (.panic, [])
  | a :: as => (.ok a, as)

/-- The relation "state `s` gives the list `l`, then `None`" is a simulation until then. -/
theorem Sim.of_endsAfter {σ α : Type} (next : Rd σ α) :
    Sim (EndsAfter next) (fun p q _ _ => p = q ∧ True) next listNext := by
  intro s l h
  cases l with
  | nil =>
    simp only [EndsAfter] at h
    rcases hn : next s with ⟨_ | _ | _, s'⟩ <;> rw [hn] at h <;> simp at h
    exact ⟨rfl, trivial⟩
  | cons x xs =>
    obtain ⟨s', h1, h2⟩ := h
    rw [h1]; exact ⟨rfl, h2⟩

/-- The relation "state `s` gives the list `l`, then panics" is a simulation until then. -/
theorem Sim.of_panicsAfter {σ α : Type} (next : Rd σ α) :
    Sim (PanicsAfter next) (fun p q _ _ => p = q ∧ True) next listThenPanic := by
  intro s l h
  cases l with
  | nil =>
    simp only [PanicsAfter] at h
    rcases hn : next s with ⟨_ | _ | _, s'⟩ <;> rw [hn] at h <;> simp at h
    exact ⟨rfl, trivial⟩
  | cons x xs =>
    obtain ⟨s', h1, h2⟩ := h
    rw [h1]; exact ⟨rfl, h2⟩

/-- Replacing the `None` at the end of a list by a panic. -/
theorem Sim.panic_or_none {α : Type} :
    Sim (Eq : List α → List α → Prop) (fun _ q _ _ => q = false) listThenPanic listNext := by
  rintro s _ rfl
  cases s with
  | nil => exact rfl
  | cons x xs => exact ⟨rfl, rfl⟩

end Cniic
