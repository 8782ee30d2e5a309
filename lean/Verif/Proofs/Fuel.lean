import Verif.Proofs.Kmeans

/-! # Proofs: granting more iterations does not change a result -/

namespace Cniic
open Kmeans

/-- A computation limited by a number of iterations: once they suffice, more of them change nothing. -/
def Stable {α : Type} (f : Nat → Ret Unit α) : Prop := ∀ n m, n ≤ m → f n ≠ .err () → f m = f n

theorem Stable.const {α : Type} (r : Ret Unit α) : Stable fun _ => r := fun _ _ _ _ => rfl

theorem Stable.bind {α β : Type} {f : Nat → Ret Unit α} {g : α → Nat → Ret Unit β} (hf : Stable f) (hg : ∀ a, Stable (g a)) :
    Stable fun n => f n >>= fun a => g a n := by
  intro n m hle h
  dsimp only at h ⊢
  have hfn : f n ≠ .err () := by
    intro e
    rw [e] at h
    exact h rfl
  rw [hf n m hle hfn]
  cases e : f n with
  | ok a =>
    rw [e, Ret.bind_ok_eq] at h
    rw [Ret.bind_ok_eq, Ret.bind_ok_eq]
    exact hg a n m hle h
  | err u => exact absurd e hfn
  | panic => rfl

theorem Stable.succ {α : Type} {f : Nat → Ret Unit α} (h0 : f 0 = .err ()) (h : Stable fun n => f (n + 1)) : Stable f := by
  intro n m hle hn
  cases n with
  | zero => exact absurd h0 hn
  | succ n =>
    cases m with
    | zero => omega
    | succ m => exact h n m (by omega) hn

variable {T : Type} (env : Env T)

theorem computeOne_stable (cs : List T) (g : Neigh) : Stable fun fuel => computeOne env cs fuel g := by
  intro n m hle h
  dsimp only at h ⊢
  induction n generalizing m g with
  | zero => exact absurd rfl h
  | succ n ih =>
    cases m with
    | zero => omega
    | succ m =>
      rw [computeOne, computeOne]
      rw [computeOne] at h
      cases e : g.updateDistances env.pt cs with
      | ok g' =>
        rw [e, Ret.bind_ok_eq] at h
        rw [Ret.bind_ok_eq, Ret.bind_ok_eq]
        split at h
        · rfl
        · rename_i g'' e2
          exact ih g'' m (by omega) h
      | err u => rfl
      | panic => rfl

theorem computeNeighbours_stable (cs : List T) (gs : List Neigh) : Stable fun fuel => computeNeighbours env fuel cs gs := by
  induction gs with
  | nil => exact Stable.const _
  | cons g gs ih =>
    simp only [computeNeighbours]
    exact (computeOne_stable env cs g).bind fun a => ih.bind fun b => Stable.const _

theorem pickVictim_stable (rand : Nat → Nat) (asg : List (List T)) (k : Nat) :
    Stable fun fuel => pickVictim rand asg fuel k := by
  intro n m hle h
  dsimp only at h ⊢
  induction n generalizing m k with
  | zero => exact absurd rfl h
  | succ n ih =>
    cases m with
    | zero => omega
    | succ m =>
      rw [pickVictim, pickVictim]
      rw [pickVictim] at h
      cases e : asg[rand k % asg.length]? with
      | none => rfl
      | some v =>
        rw [e] at h
        simp only [Ret.expect, Ret.bind_ok_eq] at h ⊢
        by_cases hv : v.length = 0
        · rw [if_pos hv] at h
          rw [if_pos hv, if_pos hv]
          exact ih (k + 1) m (by omega) h
        · rw [if_neg hv, if_neg hv]

theorem computeCentroids_stable (asg rest : List (List T)) (k : Nat) :
    Stable fun fuel => computeCentroids env fuel asg rest k := by
  induction rest generalizing k with
  | nil => exact Stable.const _
  | cons v rest ih =>
    simp only [computeCentroids]
    cases env.pt.mean v with
    | ok c => exact (ih k).bind fun a => Stable.const _
    | err u =>
      exact (pickVictim_stable env.rand asg k).bind fun a => (Stable.const _).bind fun b => (Stable.const _).bind fun c =>
        (ih _).bind fun d => Stable.const _
    | panic => exact Stable.const _

theorem init_stable (points : List T) (n : Nat) : Stable fun fuel => init env fuel points n := by
  simp only [init, initNeighbours]
  exact (Stable.const _).bind fun a => (Stable.const _).bind fun cs => (computeNeighbours_stable env cs _).bind fun b =>
    Stable.const _

theorem iteration_stable (cl : Clusters T) (k : Nat) : Stable fun fuel => iteration env fuel cl k := by
  simp only [iteration, updateCentroids, updateNeighbours]
  exact (Stable.const _).bind fun a => ((computeCentroids_stable env _ _ _).bind fun b => Stable.const _).bind fun b =>
    ((computeNeighbours_stable env _ _).bind fun d => Stable.const _).bind fun c => Stable.const _

theorem iterate_stable (left fuel : Nat) (cl : Clusters T) (k : Nat) (h : iterate env fuel left cl k ≠ .err ()) (left' fuel' : Nat)
    (hl : left ≤ left') (hf : fuel ≤ fuel') : iterate env fuel' left' cl k = iterate env fuel left cl k := by
  induction left generalizing left' cl k with
  | zero => exact absurd rfl h
  | succ left ih =>
    cases left' with
    | zero => omega
    | succ left' =>
      rw [iterate] at h
      have hi : iteration env fuel cl k ≠ .err () := by
        intro e
        rw [e] at h
        exact h rfl
      have hst : iteration env fuel' cl k = iteration env fuel cl k := iteration_stable env cl k fuel fuel' hf hi
      rw [iterate, iterate, hst]
      cases e : iteration env fuel cl k with
      | ok r =>
        obtain ⟨cl', ch, k'⟩ := r
        rw [e] at h
        cases ch with
        | true => exact ih cl' k' h left' (by omega)
        | false => rfl
      | err u => rfl
      | panic => rfl

theorem cluster_stable (points : List T) (n : Nat) : Stable fun fuel => cluster env fuel points n := by
  simp only [cluster]
  refine (init_stable env points n).bind fun cl => Stable.bind ?_ fun c => ?_
  · intro a b hle h
    exact iterate_stable env a a cl 0 h b b hle hle
  · split <;> exact Stable.const _

end Cniic
