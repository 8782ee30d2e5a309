import Verif.Model.Bench

/-! # Proofs: the report file -/

namespace Cniic.Bench

variable {n : Nat} {result : Nat → Ret Failure Row} {faults : Prop}

/-- What holds in every reachable state. -/
structure Inv (n : Nat) (result : Nat → Ret Failure Row) (faults : Prop) (s : Bench) (order : List Nat) (rows : List Row) :
    Prop where
  nodup  : order.Nodup
  mem    : ∀ i, i ∈ order ↔ s.pc i = .done true
  results : order.map result = rows.map Ret.ok
  holds  : ∀ i, s.lock = some i → s.pc i = .locked ∨ s.pc i = .headed
  held   : ∀ i, s.pc i = .locked ∨ s.pc i = .headed → s.lock = some i
  headed : ∀ i, s.pc i = .headed → s.wroteHeader = true
  good   : ∀ i, s.pc i = .locked ∨ s.pc i = .headed ∨ s.pc i = .done true → i < n ∧ ∃ r, result i = .ok r
  bad    : ∀ i, s.pc i = .done false → i < n ∧ (faults ∨ ∃ e, result i = .err e)
  broken : ∀ i, s.pc i = .panicked → i < n ∧ result i = .panic
  before : s.wroteHeader = false → s.file = [] ∧ order = []
  after  : s.wroteHeader = true → s.file = .header :: rows.map .row
  whole  : ¬ faults → s.wroteHeader = true → order ≠ [] ∨ ∃ i, s.pc i = .headed

theorem inv_start : Inv n result faults .start [] [] where
  nodup := by simp
  mem i := by simp [start]
  results := rfl
  holds i h := by simp [start] at h
  held i h := by simp [start] at h
  headed i h := by simp [start] at h
  good i h := by simp [start] at h
  bad i h := by simp [start] at h
  broken i h := by simp [start] at h
  before _ := ⟨rfl, rfl⟩
  after h := by simp [start] at h
  whole _ h := by simp [start] at h

theorem set_same (s : Bench) (i : Nat) (pc : Pc) : (s.set i pc).pc i = pc := by simp [set]

theorem set_other (s : Bench) {i j : Nat} (pc : Pc) (h : j ≠ i) : (s.set i pc).pc j = s.pc j := by simp [set, h]

theorem inv_step {s t : Bench} {order : List Nat} {rows : List Row} (h : Inv n result faults s order rows)
    (st : Step n result faults s t) : ∃ order rows, Inv n result faults t order rows := by
  have oth : ∀ {i : Nat} {pc : Pc} {j : Nat}, j ≠ i → (s.set i pc).pc j = s.pc j := fun h => set_other s _ h
  cases st with
  | @fail i e hi hw hr =>
    refine ⟨order, rows, h.nodup, ?_, h.results, ?_, ?_, ?_, ?_, ?_, ?_, h.before, h.after, ?_⟩
    · intro j; by_cases e : j = i
      · subst e; rw [set_same, h.mem, hw]; simp
      · rw [oth e]; exact h.mem j
    · intro j hl; by_cases e : j = i
      · subst e; have := h.holds _ hl; rw [hw] at this; simp at this
      · rw [oth e]; exact h.holds j hl
    · intro j hl; by_cases e : j = i
      · subst e; rw [set_same] at hl; simp at hl
      · rw [oth e] at hl; exact h.held j hl
    · intro j hl; by_cases e : j = i
      · subst e; rw [set_same] at hl; simp at hl
      · rw [oth e] at hl; exact h.headed j hl
    · intro j hl; by_cases e : j = i
      · subst e; rw [set_same] at hl; simp at hl
      · rw [oth e] at hl; exact h.good j hl
    · intro j hl; by_cases e : j = i
      · subst e; exact ⟨hi, .inr ⟨_, hr⟩⟩
      · rw [oth e] at hl; exact h.bad j hl
    · intro j hl; by_cases e : j = i
      · subst e; rw [set_same] at hl; simp at hl
      · rw [oth e] at hl; exact h.broken j hl
    · intro hf hh
      rcases h.whole hf hh with h0 | ⟨j, hj⟩
      · exact .inl h0
      · refine .inr ⟨j, ?_⟩
        rw [oth (by rintro rfl; rw [hw] at hj; simp at hj)]; exact hj
  | @panic i hi hw hr =>
    refine ⟨order, rows, h.nodup, ?_, h.results, ?_, ?_, ?_, ?_, ?_, ?_, h.before, h.after, ?_⟩
    · intro j; by_cases e : j = i
      · subst e; rw [set_same, h.mem, hw]; simp
      · rw [oth e]; exact h.mem j
    · intro j hl; by_cases e : j = i
      · subst e; have := h.holds _ hl; rw [hw] at this; simp at this
      · rw [oth e]; exact h.holds j hl
    · intro j hl; by_cases e : j = i
      · subst e; rw [set_same] at hl; simp at hl
      · rw [oth e] at hl; exact h.held j hl
    · intro j hl; by_cases e : j = i
      · subst e; rw [set_same] at hl; simp at hl
      · rw [oth e] at hl; exact h.headed j hl
    · intro j hl; by_cases e : j = i
      · subst e; rw [set_same] at hl; simp at hl
      · rw [oth e] at hl; exact h.good j hl
    · intro j hl; by_cases e : j = i
      · subst e; rw [set_same] at hl; simp at hl
      · rw [oth e] at hl; exact h.bad j hl
    · intro j hl; by_cases e : j = i
      · subst e; exact ⟨hi, hr⟩
      · rw [oth e] at hl; exact h.broken j hl
    · intro hf hh
      rcases h.whole hf hh with h0 | ⟨j, hj⟩
      · exact .inl h0
      · refine .inr ⟨j, ?_⟩
        rw [oth (by rintro rfl; rw [hw] at hj; simp at hj)]; exact hj
  | @lock i r hi hw hr hl =>
    have free : ∀ j, ¬ (s.pc j = .locked ∨ s.pc j = .headed) := fun j hj => by
      have := h.held j hj; rw [hl] at this; cases this
    refine ⟨order, rows, h.nodup, ?_, h.results, ?_, ?_, ?_, ?_, ?_, ?_, h.before, h.after, ?_⟩
    · intro j; by_cases e : j = i
      · subst e; show _ ↔ (s.set j .locked).pc j = _; rw [set_same, h.mem, hw]; simp
      · show _ ↔ (s.set i .locked).pc j = _; rw [oth e]; exact h.mem j
    · intro j hj; cases hj; exact .inl (set_same _ _ _)
    · intro j hj; by_cases e : j = i
      · subst e; rfl
      · exact absurd (by rw [← oth (pc := .locked) e]; exact hj) (free j)
    · intro j hj; by_cases e : j = i
      · subst e; have : (s.set j .locked).pc j = .headed := hj; rw [set_same] at this; cases this
      · exact absurd (.inr (by rw [← oth (pc := .locked) e]; exact hj)) (free j)
    · intro j hj; by_cases e : j = i
      · subst e; exact ⟨hi, _, hr⟩
      · exact h.good j (by rw [← oth (pc := .locked) e]; exact hj)
    · intro j hj; by_cases e : j = i
      · subst e; have : (s.set j .locked).pc j = .done false := hj; rw [set_same] at this; cases this
      · exact h.bad j (by rw [← oth (pc := .locked) e]; exact hj)
    · intro j hj; by_cases e : j = i
      · subst e; have : (s.set j .locked).pc j = .panicked := hj; rw [set_same] at this; cases this
      · exact h.broken j (by rw [← oth (pc := .locked) e]; exact hj)
    · intro hf hh
      rcases h.whole hf hh with h0 | ⟨j, hj⟩
      · exact .inl h0
      · exact absurd (.inr hj) (free j)
  | @header i hp hh =>
    obtain ⟨hfile, ho⟩ := h.before hh
    subst ho
    have hrows : rows = [] := by
      have := h.results; simp at this; exact this
    subst hrows
    have hlock := h.held i (.inl hp)
    refine ⟨[], [], h.nodup, ?_, h.results, ?_, ?_, ?_, ?_, ?_, ?_, ?_, ?_, ?_⟩
    · intro j; by_cases e : j = i
      · subst e; show _ ↔ (s.set j .headed).pc j = _; rw [set_same]; simp
      · show _ ↔ (s.set i .headed).pc j = _; rw [oth e]; exact h.mem j
    · intro j hj
      have hj : s.lock = some j := hj
      rw [hlock] at hj; cases hj
      exact .inr (set_same _ _ _)
    · intro j hj; by_cases e : j = i
      · subst e; exact hlock
      · exact h.held j (by rw [← oth (pc := .headed) e]; exact hj)
    · intro j hj; rfl
    · intro j hj; by_cases e : j = i
      · subst e; exact h.good _ (.inl hp)
      · exact h.good j (by rw [← oth (pc := .headed) e]; exact hj)
    · intro j hj; by_cases e : j = i
      · subst e; have : (s.set j .headed).pc j = .done false := hj; rw [set_same] at this; cases this
      · exact h.bad j (by rw [← oth (pc := .headed) e]; exact hj)
    · intro j hj; by_cases e : j = i
      · subst e; have : (s.set j .headed).pc j = .panicked := hj; rw [set_same] at this; cases this
      · exact h.broken j (by rw [← oth (pc := .headed) e]; exact hj)
    · intro hc; cases hc
    · intro _; show s.file ++ [.header] = _; rw [hfile]; rfl
    · intro _ _; exact .inr ⟨i, set_same _ _ _⟩
  | @headerFails i hf hp hh =>
    obtain ⟨hfile, ho⟩ := h.before hh
    have hlock := h.held i (.inl hp)
    refine ⟨order, rows, h.nodup, ?_, h.results, ?_, ?_, ?_, ?_, ?_, ?_, h.before, h.after, ?_⟩
    · intro j; by_cases e : j = i
      · subst e; show _ ↔ (s.set j _).pc j = _; rw [set_same, h.mem, hp]; simp
      · show _ ↔ (s.set i _).pc j = _; rw [oth e]; exact h.mem j
    · intro j hj; cases hj
    · intro j hj; by_cases e : j = i
      · subst e; have : (s.set j (.done false)).pc j = .locked ∨ (s.set j (.done false)).pc j = .headed := hj
        rw [set_same] at this; simp at this
      · have hj' := h.held j (by rw [← oth (pc := .done false) e]; exact hj)
        rw [hlock] at hj'; cases hj'; exact absurd rfl e
    · intro j hj; by_cases e : j = i
      · subst e; have : (s.set j (.done false)).pc j = .headed := hj; rw [set_same] at this; cases this
      · exact h.headed j (by rw [← oth (pc := .done false) e]; exact hj)
    · intro j hj; by_cases e : j = i
      · subst e; exact h.good _ (.inl hp)
      · exact h.good j (by rw [← oth (pc := .done false) e]; exact hj)
    · intro j hj; by_cases e : j = i
      · subst e; exact ⟨(h.good _ (.inl hp)).1, .inl hf⟩
      · exact h.bad j (by rw [← oth (pc := .done false) e]; exact hj)
    · intro j hj; by_cases e : j = i
      · subst e; have : (s.set j (.done false)).pc j = .panicked := hj; rw [set_same] at this; cases this
      · exact h.broken j (by rw [← oth (pc := .done false) e]; exact hj)
    · intro hn; exact absurd hf hn
  | @skip i hp hh =>
    have hlock := h.held i (.inl hp)
    refine ⟨order, rows, h.nodup, ?_, h.results, ?_, ?_, ?_, ?_, ?_, ?_, h.before, h.after, ?_⟩
    · intro j; by_cases e : j = i
      · subst e; rw [set_same, h.mem, hp]; simp
      · rw [oth e]; exact h.mem j
    · intro j hj
      have hj : s.lock = some j := hj
      rw [hlock] at hj; cases hj
      exact .inr (set_same _ _ _)
    · intro j hj; by_cases e : j = i
      · subst e; exact hlock
      · exact h.held j (by rw [← oth (pc := .headed) e]; exact hj)
    · intro j hj; exact hh
    · intro j hj; by_cases e : j = i
      · subst e; exact h.good _ (.inl hp)
      · exact h.good j (by rw [← oth (pc := .headed) e]; exact hj)
    · intro j hj; by_cases e : j = i
      · subst e; rw [set_same] at hj; cases hj
      · exact h.bad j (by rw [← oth (pc := .headed) e]; exact hj)
    · intro j hj; by_cases e : j = i
      · subst e; rw [set_same] at hj; cases hj
      · exact h.broken j (by rw [← oth (pc := .headed) e]; exact hj)
    · intro _ _; exact .inr ⟨i, set_same _ _ _⟩
  | @row i r hp hr =>
    have hlock := h.held i (.inr hp)
    have hhead := h.headed i hp
    have hni : i ∉ order := by rw [h.mem, hp]; simp
    refine ⟨order ++ [i], rows ++ [r], ?_, ?_, ?_, ?_, ?_, ?_, ?_, ?_, ?_, ?_, ?_, ?_⟩
    · rw [List.nodup_append]
      refine ⟨h.nodup, by simp, ?_⟩
      intro a ha b hb
      simp only [List.mem_singleton] at hb
      subst hb
      rintro rfl
      exact hni ha
    · intro j; by_cases e : j = i
      · subst e; show _ ↔ (s.set j _).pc j = _; rw [set_same]; simp
      · show _ ↔ (s.set i _).pc j = _; rw [oth e]; simp [e, h.mem j]
    · rw [List.map_append, List.map_append, h.results]; simp [hr]
    · intro j hj; cases hj
    · intro j hj; by_cases e : j = i
      · subst e; have : (s.set j (.done true)).pc j = .locked ∨ (s.set j (.done true)).pc j = .headed := hj
        rw [set_same] at this; simp at this
      · have hj' := h.held j (by rw [← oth (pc := .done true) e]; exact hj)
        rw [hlock] at hj'; cases hj'; exact absurd rfl e
    · intro j hj; exact hhead
    · intro j hj; by_cases e : j = i
      · subst e; exact h.good _ (.inr (.inl hp))
      · exact h.good j (by rw [← oth (pc := .done true) e]; exact hj)
    · intro j hj; by_cases e : j = i
      · subst e; have : (s.set j (.done true)).pc j = .done false := hj; rw [set_same] at this; cases this
      · exact h.bad j (by rw [← oth (pc := .done true) e]; exact hj)
    · intro j hj; by_cases e : j = i
      · subst e; have : (s.set j (.done true)).pc j = .panicked := hj; rw [set_same] at this; cases this
      · exact h.broken j (by rw [← oth (pc := .done true) e]; exact hj)
    · intro hc; have hc : s.wroteHeader = false := hc; rw [hhead] at hc; cases hc
    · intro _; show s.file ++ [.row r] = _; rw [h.after hhead]; simp
    · intro _ _; exact .inl (by simp)
  | @rowFails i hf hp =>
    have hlock := h.held i (.inr hp)
    have hhead := h.headed i hp
    refine ⟨order, rows, h.nodup, ?_, h.results, ?_, ?_, ?_, ?_, ?_, ?_, h.before, h.after, ?_⟩
    · intro j; by_cases e : j = i
      · subst e; show _ ↔ (s.set j _).pc j = _; rw [set_same, h.mem, hp]; simp
      · show _ ↔ (s.set i _).pc j = _; rw [oth e]; exact h.mem j
    · intro j hj; cases hj
    · intro j hj; by_cases e : j = i
      · subst e; have : (s.set j (.done false)).pc j = .locked ∨ (s.set j (.done false)).pc j = .headed := hj
        rw [set_same] at this; simp at this
      · have hj' := h.held j (by rw [← oth (pc := .done false) e]; exact hj)
        rw [hlock] at hj'; cases hj'; exact absurd rfl e
    · intro j hj; exact hhead
    · intro j hj; by_cases e : j = i
      · subst e; exact h.good _ (.inr (.inl hp))
      · exact h.good j (by rw [← oth (pc := .done false) e]; exact hj)
    · intro j hj; by_cases e : j = i
      · subst e; exact ⟨(h.good _ (.inr (.inl hp))).1, .inl hf⟩
      · exact h.bad j (by rw [← oth (pc := .done false) e]; exact hj)
    · intro j hj; by_cases e : j = i
      · subst e; have : (s.set j (.done false)).pc j = .panicked := hj; rw [set_same] at this; cases this
      · exact h.broken j (by rw [← oth (pc := .done false) e]; exact hj)
    · intro hn; exact absurd hf hn

theorem inv_reachable {s : Bench} (h : Reachable n result faults s) : ∃ order rows, Inv n result faults s order rows := by
  induction h with
  | start => exact ⟨[], [], inv_start⟩
  | step _ st ih =>
    obtain ⟨order, rows, hi⟩ := ih
    exact inv_step hi st

/-! ## Progress -/

/-- Steps an image can still make. -/
def Pc.left : Pc → Nat
  | .working => 3
  | .locked => 2
  | .headed => 1
  | _ => 0

def left (n : Nat) (s : Bench) : Nat := ((List.range n).map fun i => Pc.left (s.pc i)).sum

theorem sum_map_lt {l : List Nat} {f g : Nat → Nat} (h : ∀ i ∈ l, f i ≤ g i) {i : Nat} (hi : i ∈ l) (hlt : f i < g i) :
    (l.map f).sum < (l.map g).sum := by
  induction l with
  | nil => cases hi
  | cons a l ih =>
    have hle : ∀ {l : List Nat}, (∀ i ∈ l, f i ≤ g i) → (l.map f).sum ≤ (l.map g).sum := by
      intro l
      induction l with
      | nil => intro _; exact Nat.le_refl _
      | cons b l ih =>
        intro h
        simp only [List.map_cons, List.sum_cons]
        have := h b (by simp)
        have := ih fun i hi => h i (by simp [hi])
        omega
    simp only [List.map_cons, List.sum_cons]
    have h1 := h a (by simp)
    have h2 := hle (l := l) fun i hi => h i (by simp [hi])
    rcases List.mem_cons.1 hi with rfl | hi
    · omega
    · have := ih (fun i hi => h i (by simp [hi])) hi
      omega

theorem left_set {s t : Bench} {i : Nat} {pc : Pc} (hi : i < n) (ht : t.pc = (s.set i pc).pc)
    (hlt : Pc.left pc < Pc.left (s.pc i)) : left n t < left n s := by
  unfold left
  rw [ht]
  refine sum_map_lt ?_ (List.mem_range.2 hi) ?_
  · intro j _
    by_cases e : j = i
    · subst e; rw [set_same]; omega
    · rw [set_other s pc e]; exact Nat.le_refl _
  · rw [set_same]; exact hlt

theorem left_step {s t : Bench} {order : List Nat} {rows : List Row} (h : Inv n result faults s order rows)
    (st : Step n result faults s t) : left n t < left n s := by
  cases st with
  | fail hi hw _ => exact left_set hi rfl (by rw [hw]; decide)
  | panic hi hw _ => exact left_set hi rfl (by rw [hw]; decide)
  | lock hi hw _ _ => exact left_set hi rfl (by rw [hw]; decide)
  | header hp _ => exact left_set (h.good _ (.inl hp)).1 rfl (by rw [hp]; decide)
  | headerFails _ hp _ => exact left_set (h.good _ (.inl hp)).1 rfl (by rw [hp]; decide)
  | skip hp _ => exact left_set (h.good _ (.inl hp)).1 rfl (by rw [hp]; decide)
  | row hp _ => exact left_set (h.good _ (.inr (.inl hp))).1 rfl (by rw [hp]; decide)
  | rowFails _ hp => exact left_set (h.good _ (.inr (.inl hp))).1 rfl (by rw [hp]; decide)

end Cniic.Bench
