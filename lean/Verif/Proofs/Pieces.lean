import Verif.Proofs.Fewer
import Verif.Proofs.Sizes
import Verif.Proofs.Touch

/-! # Cutting items and runs into pieces (C125) -/

namespace Cniic
open Spec

theorem payloadBits_append {T : Type} (code : T → List Bool) (a b : List T) :
    payloadBits code (a ++ b) = payloadBits code a + payloadBits code b := by
  rw [payloadBits, List.map_append, List.sum_append]
  rfl

theorem payloadBits_mono {T : Type} {code code' : T → List Bool} {l : List T} (h : ∀ x ∈ l, (code x).length ≤ (code' x).length) :
    payloadBits code l ≤ payloadBits code' l := by
  induction l with
  | nil => exact Nat.le_refl _
  | cons x l ih =>
    have h1 := h x List.mem_cons_self
    have h2 := ih fun y hy => h y (List.mem_cons_of_mem _ hy)
    unfold payloadBits at *
    rw [List.map_cons, List.map_cons, List.sum_cons, List.sum_cons]
    omega

theorem payloadBits_longer {T : Type} (b : Bool) (code : T → List Bool) (l : List T) :
    payloadBits (fun x => b :: code x) l = payloadBits code l + l.length := by
  induction l with
  | nil => rfl
  | cons x l ih =>
    unfold payloadBits at *
    rw [List.map_cons, List.map_cons, List.sum_cons, List.sum_cons, ih, List.length_cons, List.length_cons]
    omega

theorem prefixFree_subset {T : Type} {code : T → List Bool} {l l' : List T} (h : PrefixFree l code) (hs : ∀ x ∈ l', x ∈ l) :
    PrefixFree l' code := fun x hx y hy => h x (hs x hx) y (hs y hy)

/-- The parts can use the code of the whole. -/
theorem fewestBits_parts {T : Type} {a b : List T} {A B C : Nat} (ha : FewestBits a A) (hb : FewestBits b B)
    (hc : FewestBits (a ++ b) C) : A + B ≤ C := by
  obtain ⟨code, h1, rfl⟩ := hc.1
  rw [payloadBits_append]
  exact Nat.add_le_add (ha.2 code (prefixFree_subset h1 fun x hx => List.mem_append_left _ hx))
    (hb.2 code (prefixFree_subset h1 fun x hx => List.mem_append_right _ hx))

/-- The whole can use both codes, with one bit in front that says which. -/
theorem fewestBits_whole {T : Type} {a b : List T} {A B C : Nat} (ha : FewestBits a A) (hb : FewestBits b B)
    (hc : FewestBits (a ++ b) C) : C ≤ A + B + (a ++ b).length := by
  classical
  obtain ⟨ca, pa, rfl⟩ := ha.1
  obtain ⟨cb, pb, rfl⟩ := hb.1
  let code : T → List Bool := fun x => if x ∈ a ∧ (x ∈ b → (ca x).length ≤ (cb x).length) then false :: ca x else true :: cb x
  have hp : PrefixFree (a ++ b) code := by
    intro x hx y hy hxy
    have inb : ∀ z ∈ a ++ b, ¬ (z ∈ a ∧ (z ∈ b → (ca z).length ≤ (cb z).length)) → z ∈ b := by
      intro z hz hn
      rcases List.mem_append.1 hz with h | h
      · exact Classical.byContradiction fun hb => hn ⟨h, fun h' => absurd h' hb⟩
      · exact h
    by_cases h1 : x ∈ a ∧ (x ∈ b → (ca x).length ≤ (cb x).length) <;>
      by_cases h2 : y ∈ a ∧ (y ∈ b → (ca y).length ≤ (cb y).length)
    · simp only [code, if_pos h1, if_pos h2, List.cons_prefix_cons, true_and] at hxy
      exact pa x h1.1 y h2.1 hxy
    · simp [code, if_pos h1, if_neg h2] at hxy
    · simp [code, if_neg h1, if_pos h2] at hxy
    · simp only [code, if_neg h1, if_neg h2, List.cons_prefix_cons, true_and] at hxy
      exact pb x (inb x hx h1) y (inb y hy h2) hxy
  have h1 : payloadBits code a ≤ payloadBits (fun x => false :: ca x) a := payloadBits_mono fun x hx => by
    dsimp only [code]
    split
    · exact Nat.le_refl _
    · next h =>
      have : ¬ (x ∈ b → (ca x).length ≤ (cb x).length) := fun h' => h ⟨hx, h'⟩
      have := (Classical.not_imp.1 this).2
      rw [List.length_cons, List.length_cons]
      omega
  have h2 : payloadBits code b ≤ payloadBits (fun x => true :: cb x) b := payloadBits_mono fun x hx => by
    dsimp only [code]
    split
    · next h =>
      have := h.2 hx
      rw [List.length_cons, List.length_cons]
      omega
    · exact Nat.le_refl _
  have := hc.2 code hp
  rw [payloadBits_append] at this
  rw [payloadBits_longer] at h1 h2
  rw [List.length_append]
  omega

theorem payloadBits_copies {T : Type} (code : T → List Bool) (k : Nat) (l : List T) :
    payloadBits code (List.replicate k l).flatten = k * payloadBits code l := by
  induction k with
  | zero => simp [payloadBits]
  | succ k ih => rw [List.replicate_succ, List.flatten_cons, payloadBits_append, ih, Nat.succ_mul, Nat.add_comm]

theorem mem_copies {T : Type} {k : Nat} (hk : k ≠ 0) {l : List T} {x : T} : x ∈ (List.replicate k l).flatten ↔ x ∈ l := by
  simp [List.mem_flatten, List.mem_replicate, hk]

/-- Copies use the same code. -/
theorem fewestBits_copies {T : Type} {l : List T} {B k : Nat} (hk : k ≠ 0) (h : FewestBits l B) :
    FewestBits (List.replicate k l).flatten (k * B) := by
  obtain ⟨⟨code, h1, h2⟩, h3⟩ := h
  refine ⟨⟨code, prefixFree_subset h1 fun x hx => (mem_copies hk).1 hx, by rw [payloadBits_copies, h2]⟩, fun c hc => ?_⟩
  rw [payloadBits_copies]
  exact Nat.mul_le_mul_left k (h3 c (prefixFree_subset hc fun x hx => (mem_copies hk).2 hx))

/-! ## Runs -/

theorem expandRuns_append (r s : List (UInt8 × Rgb UInt8)) : expandRuns (r ++ s) = expandRuns r ++ expandRuns s := by
  simp [expandRuns, List.flatMap_append]

/-- A cut splits at most one run. -/
theorem runs_cut (runs : List (UInt8 × Rgb UInt8)) {xs ys : List (Rgb UInt8)} (h : expandRuns runs = xs ++ ys) :
    ∃ r s, expandRuns r = xs ∧ expandRuns s = ys ∧ r.length + s.length ≤ runs.length + 1 := by
  induction runs generalizing xs with
  | nil =>
    obtain ⟨rfl, rfl⟩ := List.append_eq_nil_iff.1 (show xs ++ ys = [] from h.symm)
    exact ⟨[], [], rfl, rfl, Nat.zero_le _⟩
  | cons q runs ih =>
    have e : expandRuns (q :: runs) = List.replicate q.1.toNat q.2 ++ expandRuns runs := rfl
    rw [e] at h
    have hq : q.1.toNat < 256 := q.1.toNat_lt
    rcases List.append_eq_append_iff.1 h with ⟨as, rfl, h'⟩ | ⟨bs, h1, rfl⟩
    · obtain ⟨r, s, h2, h3, h4⟩ := ih h'
      refine ⟨q :: r, s, ?_, h3, ?_⟩
      · show List.replicate q.1.toNat q.2 ++ expandRuns r = _
        rw [h2]
      · rw [List.length_cons, List.length_cons]
        omega
    · have h2 := (List.replicate_eq_append_iff.1 h1)
      obtain ⟨hl, hx, hb⟩ := h2
      refine ⟨[(UInt8.ofNat xs.length, q.2)], (UInt8.ofNat bs.length, q.2) :: runs, ?_, ?_, ?_⟩
      · show List.replicate _ q.2 ++ [] = xs
        rw [UInt8.toNat_ofNat', Nat.mod_eq_of_lt (by omega), List.append_nil]
        exact hx.symm
      · show List.replicate _ q.2 ++ expandRuns runs = _
        rw [UInt8.toNat_ofNat', Nat.mod_eq_of_lt (by omega)]
        exact congrArg (· ++ _) hb.symm
      · rw [List.length_cons, List.length_cons, List.length_cons, List.length_nil]
        omega

end Cniic
