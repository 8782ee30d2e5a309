import Verif.Props.Symmetry

/-! # Proofs: files after pixels are left out or colours merged -/

namespace Cniic
open Spec SerSpec

/-- `ys` are items of `xs` in any order, some left out, each replaced by its value under `f`. -/
def PartOf {T U : Type} (f : T → U) (xs : List T) (ys : List U) : Prop := ∃ l, ys.Perm l ∧ l.Sublist (xs.map f)

theorem sum_sublist {l l' : List Nat} (h : l.Sublist l') : l.sum ≤ l'.sum := by
  induction h with
  | slnil => exact Nat.le_refl _
  | cons a _ ih => simp only [List.sum_cons]; omega
  | cons_cons a _ ih => simp only [List.sum_cons]; omega

/-- Some member of `xs` over `u` with the least length. -/
theorem exists_shortest {T U : Type} (f : T → U) (len : T → Nat) (u : U) :
    ∀ xs : List T, u ∈ xs.map f → ∃ x ∈ xs, f x = u ∧ ∀ y ∈ xs, f y = u → len x ≤ len y
  | [], h => by simp at h
  | a :: xs, h => by
    classical
    by_cases hr : u ∈ xs.map f
    · obtain ⟨x, hx, hf, hm⟩ := exists_shortest f len u xs hr
      by_cases ha : f a = u ∧ len a ≤ len x
      · refine ⟨a, by simp, ha.1, fun y hy hyu => ?_⟩
        rcases List.mem_cons.1 hy with rfl | hy
        · exact Nat.le_refl _
        · exact Nat.le_trans ha.2 (hm y hy hyu)
      · refine ⟨x, by simp [hx], hf, fun y hy hyu => ?_⟩
        rcases List.mem_cons.1 hy with rfl | hy
        · exact Nat.le_of_lt (Nat.lt_of_not_le fun h => ha ⟨hyu, h⟩)
        · exact hm y hy hyu
    · have ha : f a = u := by
        rw [List.map_cons, List.mem_cons] at h
        exact (h.resolve_right hr).symm
      refine ⟨a, by simp, ha, fun y hy hyu => ?_⟩
      rcases List.mem_cons.1 hy with rfl | hy
      · exact Nat.le_refl _
      · exact absurd (List.mem_map.2 ⟨y, hy, hyu⟩) hr

theorem fewestBits_map_le {T U : Type} {xs : List T} {f : T → U} {B B' : Nat} (h : FewestBits xs B)
    (h' : FewestBits (xs.map f) B') : B' ≤ B := by
  obtain ⟨⟨code, h1, h2⟩, -⟩ := h
  classical
  let best : U → List Bool := fun u =>
    if hu : u ∈ xs.map f then code (exists_shortest f (fun x => (code x).length) u xs hu).choose else []
  have hb : ∀ u (hu : u ∈ xs.map f), ∃ x ∈ xs, f x = u ∧ best u = code x ∧ ∀ y ∈ xs, f y = u → (code x).length ≤ (code y).length := by
    intro u hu
    have hc := (exists_shortest f (fun x => (code x).length) u xs hu).choose_spec
    exact ⟨_, hc.1, hc.2.1, dif_pos hu, hc.2.2⟩
  have hp : PrefixFree (xs.map f) best := by
    intro u hu v hv huv
    obtain ⟨x, hx, rfl, ex, -⟩ := hb u hu
    obtain ⟨y, hy, rfl, ey, -⟩ := hb v hv
    rw [ex, ey] at huv
    rw [h1 x hx y hy huv]
  refine Nat.le_trans (h'.2 best hp) ?_
  rw [← h2, payloadBits, payloadBits, List.map_map]
  have : ∀ l : List T, (∀ x ∈ l, x ∈ xs) →
      (l.map ((fun u => (best u).length) ∘ f)).sum ≤ (l.map fun x => (code x).length).sum := by
    intro l
    induction l with
    | nil => exact fun _ => Nat.le_refl _
    | cons x l ih =>
      intro hl
      have hx := hl x (by simp)
      obtain ⟨y, -, -, ey, hm⟩ := hb (f x) (List.mem_map_of_mem hx)
      have h3 := hm x hx rfl
      have h4 := ih fun z hz => hl z (by simp [hz])
      simp only [List.map_cons, List.sum_cons, Function.comp_apply, ey] at h4 ⊢
      exact Nat.add_le_add h3 h4
  exact this xs fun _ h => h

theorem fewestBits_sublist {T : Type} {xs ys : List T} {B B' : Nat} (hs : ys.Sublist xs) (h : FewestBits xs B)
    (h' : FewestBits ys B') : B' ≤ B := by
  obtain ⟨⟨code, h1, h2⟩, -⟩ := h
  refine Nat.le_trans (h'.2 code fun x hx y hy => h1 x (hs.subset hx) y (hs.subset hy)) ?_
  rw [← h2]
  exact sum_sublist (hs.map _)

/-- Some code of least cost exists, as the least of the costs of all codes. -/
theorem fewestBits_exists {T : Type} {xs : List T} {code : T → List Bool} (h : PrefixFree xs code) : ∃ B, FewestBits xs B := by
  classical
  have hex : ∃ B, ∃ code, PrefixFree xs code ∧ payloadBits code xs = B := ⟨_, code, h, rfl⟩
  exact ⟨Nat.find hex, Nat.find_spec hex, fun c hc => Nat.find_min' hex ⟨c, hc, rfl⟩⟩

theorem fewestBits_partOf {T U : Type} {xs : List T} {ys : List U} {f : T → U} {B B' : Nat} (hp : PartOf f xs ys)
    (h : FewestBits xs B) (h' : FewestBits ys B') : B' ≤ B := by
  obtain ⟨l, hl, hs⟩ := hp
  obtain ⟨⟨code, h1, -⟩, -⟩ := id h
  classical
  -- a code for the replaced items
  have hc : ∃ code' : U → List Bool, PrefixFree (xs.map f) code' := by
    refine ⟨fun u => if hu : u ∈ xs.map f then code (exists_shortest f (fun x => (code x).length) u xs hu).choose else [], ?_⟩
    intro u hu v hv huv
    simp only [dif_pos hu, dif_pos hv] at huv
    have c1 := (exists_shortest f (fun x => (code x).length) u xs hu).choose_spec
    have c2 := (exists_shortest f (fun x => (code x).length) v xs hv).choose_spec
    rw [← c1.2.1, ← c2.2.1, h1 _ c1.1 _ c2.1 huv]
  obtain ⟨code', hc'⟩ := hc
  obtain ⟨M, hM⟩ := fewestBits_exists hc'
  exact Nat.le_trans (fewestBits_sublist hs hM (fewestBits_perm h' hl)) (fewestBits_map_le h hM)

theorem distinct_partOf {T U : Type} {S xs : List T} {S' ys : List U} {f : T → U} (hp : PartOf f xs ys) (h : Distinct S xs)
    (h' : Distinct S' ys) : S'.length ≤ S.length := by
  classical
  obtain ⟨l, hl, hs⟩ := hp
  have := nodup_length_le (l' := S.map f) h'.1 fun u hu => by
    have := hs.subset (hl.mem_iff.1 ((h'.2 u).1 hu))
    obtain ⟨x, hx, rfl⟩ := List.mem_map.1 this
    exact List.mem_map_of_mem ((h.2 x).2 hx)
  simpa using this

theorem PartOf.ne_nil {T U : Type} {xs : List T} {ys : List U} {f : T → U} (hp : PartOf f xs ys) (h : ys ≠ []) : xs ≠ [] := by
  rintro rfl
  obtain ⟨l, hl, hs⟩ := hp
  rw [List.map_nil, List.sublist_nil] at hs
  subst hs
  exact h hl.eq_nil

/-- Runs whose pixels are left out in part are no more runs. -/
theorem runs_sublist {T : Type} : ∀ (runs : List (UInt8 × T)) (ys : List T), ys.Sublist (expandRuns runs) →
    ∃ runs', expandRuns runs' = ys ∧ runs'.length = runs.length
  | [], ys, h => ⟨[], (List.sublist_nil.1 h).symm, rfl⟩
  | r :: runs, ys, h => by
    have he : expandRuns (r :: runs) = List.replicate r.1.toNat r.2 ++ expandRuns runs := by simp [expandRuns]
    rw [he, List.sublist_append_iff] at h
    obtain ⟨a, b, rfl, ha, hb⟩ := h
    obtain ⟨runs', h1, h2⟩ := runs_sublist runs b hb
    obtain ⟨k, hk, rfl⟩ := List.sublist_replicate_iff.1 ha
    have hlt : k < 256 := Nat.lt_of_le_of_lt hk r.1.toNat_lt
    refine ⟨(UInt8.ofNat k, r.2) :: runs', ?_, by simp [h2]⟩
    simp only [expandRuns, List.flatMap_cons] at h1 ⊢
    rw [h1, UInt8.toNat_ofNat_of_lt' hlt]

end Cniic
