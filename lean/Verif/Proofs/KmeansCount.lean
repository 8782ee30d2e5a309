import Verif.Model.KmeansCount
import Verif.Proofs.Hang
import Verif.Proofs.Ends

/-!
# Proofs: the counters of the clustering
-/

namespace Cniic
open Kmeans Spec Spec.Kmeans

namespace Kmeans
variable {T : Type} {env : Env T} {chk : Bool}

theorem computeOneCount_new (hs : IsSort env.sort) (cs : List T) (fuel i : Nat) (c : Int32) :
    computeOneCount chk env cs (fuel + 1) (Neigh.new i cs.length) c =
      computeOne env cs (fuel + 1) (Neigh.new i cs.length) >>= fun g => .ok (g, c) := by
  rw [computeOneCount, computeOne]
  cases hu : (Neigh.new i cs.length).updateDistances env.pt cs with
  | err => rfl
  | panic => rfl
  | ok g =>
    simp only [Ret.bind_ok_eq]
    obtain ⟨-, hw, hm, -⟩ := updateDistances_ok hu
    have hlen : (env.sort g.neighbours).length = (Neigh.new i cs.length).neighbours.length := by
      rw [(hs g.neighbours).1.length_eq]
      simpa using congrArg List.length hm
    have hge := Neigh.new_length_ge i cs.length
    cases hr : Neigh.resize env.lower cs.length { g with neighbours := env.sort g.neighbours } with
    | mk g2 b =>
      cases b with
      | true => rfl
      | false =>
        exfalso
        unfold Neigh.resize at hr
        dsimp only at hr
        split at hr
        · cases hr
        · rename_i hno
          apply hno
          rw [hlen]
          omega

theorem computeOneCount_eq (hs : IsSort env.sort) (cs : List T) (fuel : Nat) (g : Neigh) {m : Nat}
    (h : chk = true → m + 1 < 2 ^ 31) :
    ∃ m', m ≤ m' ∧ m' ≤ m + 1 ∧ computeOneCount chk env cs fuel g (Int32.ofNat m) =
      computeOne env cs fuel g >>= fun g => .ok (g, Int32.ofNat m') := by
  cases fuel with
  | zero => exact ⟨m, Nat.le_refl _, Nat.le_succ _, rfl⟩
  | succ fuel =>
    rw [computeOneCount, computeOne]
    cases hu : g.updateDistances env.pt cs with
    | err => exact ⟨m, Nat.le_refl _, Nat.le_succ _, rfl⟩
    | panic => exact ⟨m, Nat.le_refl _, Nat.le_succ _, rfl⟩
    | ok g1 =>
      simp only [Ret.bind_ok_eq]
      cases hr : Neigh.resize env.lower cs.length { g1 with neighbours := env.sort g1.neighbours } with
      | mk g2 b =>
        cases b with
        | true => exact ⟨m, Nat.le_refl _, Nat.le_succ _, rfl⟩
        | false =>
          refine ⟨m + 1, Nat.le_succ _, Nat.le_refl _, ?_⟩
          have := resize_false hr
          dsimp only at this ⊢
          subst this
          rw [i32Succ_some h]
          cases fuel with
          | zero => rfl
          | succ fuel => exact computeOneCount_new hs cs fuel g1.src _

theorem computeNeighboursCount_eq (hs : IsSort env.sort) (fuel : Nat) (cs : List T) (gs : List Neigh) {m : Nat}
    (h : chk = true → m + gs.length < 2 ^ 31) :
    ∃ m', m ≤ m' ∧ m' ≤ m + gs.length ∧ computeNeighboursCount chk env fuel cs gs (Int32.ofNat m) =
      computeNeighbours env fuel cs gs >>= fun gs => .ok (gs, Int32.ofNat m') := by
  induction gs generalizing m with
  | nil => exact ⟨m, Nat.le_refl _, Nat.le_refl _, rfl⟩
  | cons g gs ih =>
    simp only [List.length_cons] at h ⊢
    obtain ⟨m1, h1, h2, h3⟩ := computeOneCount_eq (chk := chk) hs cs fuel g (m := m) (fun hc => by have := h hc; omega)
    obtain ⟨m2, h4, h5, h6⟩ := ih (m := m1) (fun hc => by have := h hc; omega)
    refine ⟨m2, by omega, by omega, ?_⟩
    rw [computeNeighboursCount, computeNeighbours, h3]
    cases computeOne env cs fuel g with
    | err => rfl
    | panic => rfl
    | ok g' =>
      simp only [Ret.bind_ok_eq]
      rw [h6]
      cases computeNeighbours env fuel cs gs <;> rfl

theorem initNeighboursCount_eq (hs : IsSort env.sort) (fuel : Nat) (cs : List T) (h : chk = true → cs.length < 2 ^ 31) :
    initNeighboursCount chk env fuel cs = initNeighbours env fuel cs := by
  obtain ⟨m, -, -, e⟩ := computeNeighboursCount_eq (chk := chk) hs fuel cs
    ((List.range cs.length).map fun i => Neigh.new i cs.length) (m := 0)
    (by simpa using h)
  rw [initNeighboursCount, initNeighbours, show (0 : Int32) = Int32.ofNat 0 from rfl, e]
  cases computeNeighbours env fuel cs ((List.range cs.length).map fun i => Neigh.new i cs.length) <;> rfl

theorem initCount_eq (hs : IsSort env.sort) (fuel : Nat) (points : List T) (n : Nat)
    (h : chk = true → n < 2 ^ 31 ∨ points.length < n) : initCount chk env fuel points n = init env fuel points n := by
  rw [initCount, init]
  cases ha : initAssignment points n with
  | err => rfl
  | panic => rfl
  | ok asg =>
    rw [Ret.bind_ok_eq, Ret.bind_ok_eq]
    cases hc : initCentroids env.pt asg with
    | err => rfl
    | panic => rfl
    | ok cs =>
      rw [Ret.bind_ok_eq, Ret.bind_ok_eq, initNeighboursCount_eq hs]
      intro hk
      rw [(initCentroids_ok hc).1, (initAssignment_ok ha).1]
      rcases h hk with h | h
      · exact h
      · exfalso
        unfold initAssignment at ha
        split at ha
        · cases ha
        · split at ha
          · rename_i hd
            rw [Nat.div_eq_of_lt h] at hd
            exact absurd hd (by decide)
          · cases ha

theorem iterationCount_eq (hs : IsSort env.sort) (fuel : Nat) (cl : Clusters T) (k : Nat)
    (h : chk = true → cl.neighbours.length < 2 ^ 31) : iterationCount chk env fuel cl k = iteration env fuel cl k := by
  rw [iterationCount, iteration]
  cases ha : assignPoints env cl with
  | err => rfl
  | panic => rfl
  | ok r =>
    obtain ⟨cl1, ch⟩ := r
    simp only [Ret.bind_ok_eq]
    have hl : cl1.neighbours.length = cl.neighbours.length := by
      simpa using congrArg List.length (assignPoints_ok ha).2.2.2.1
    cases hu : updateCentroids env fuel cl1 k with
    | err => rfl
    | panic => rfl
    | ok r =>
      obtain ⟨cl2, k2⟩ := r
      simp only [Ret.bind_ok_eq]
      have hl2 : cl2.neighbours = cl1.neighbours := by
        rw [updateCentroids] at hu
        obtain ⟨⟨cs, k3⟩, -, hu⟩ := Ret.bind_ok.1 hu
        cases hu
        rfl
      obtain ⟨m, -, -, e⟩ := computeNeighboursCount_eq (chk := chk) hs fuel cl2.centroids cl2.neighbours (m := 0)
        (by rw [hl2, hl]; simpa using h)
      rw [updateNeighboursCount, updateNeighbours, show (0 : Int32) = Int32.ofNat 0 from rfl, e]
      cases computeNeighbours env fuel cl2.centroids cl2.neighbours <;> rfl

/-- The iterations keep the number of lists. -/
theorem iteration_lists {fuel k k' : Nat} {cl cl' : Clusters T} {changed : Bool}
    (h : iteration env fuel cl k = .ok (cl', changed, k')) : cl'.neighbours.length = cl.neighbours.length := by
  obtain ⟨cl1, h1, -, -, h4⟩ := iteration_parts h
  rw [(computeNeighbours_ok h4).1]
  simpa using congrArg List.length (assignPoints_ok h1).2.2.2.1

theorem iterateCount_eq (hs : IsSort env.sort) (fuel left : Nat) (cl : Clusters T) (k : Nat) {i : Nat}
    (h : chk = true → cl.neighbours.length < 2 ^ 31 ∧ i + left < 2 ^ 31) :
    iterateCount chk env fuel left cl k (Int32.ofNat i) = iterate env fuel left cl k := by
  induction left generalizing cl k i with
  | zero => rfl
  | succ left ih =>
    rw [iterateCount, iterate, iterationCount_eq hs fuel cl k fun hc => (h hc).1]
    cases e : iteration env fuel cl k with
    | err => rfl
    | panic => rfl
    | ok r =>
      obtain ⟨cl', ch, k'⟩ := r
      simp only [Ret.bind_ok_eq]
      rw [i32Succ_some fun hc => by have := (h hc).2; omega]
      simp only [Ret.expect, Ret.bind_ok_eq]
      cases ch with
      | false => rfl
      | true =>
        rw [if_pos rfl, if_pos rfl, ih]
        intro hc
        have := h hc
        rw [iteration_lists e]
        omega

/-- Enough iterations for the loop without counter are enough for the loop with it, if there are not too many. -/
theorem iterateCount_stable (hs : IsSort env.sort) {fuel left : Nat} {cl : Clusters T} {k i : Nat}
    (h : iterate env fuel left cl k ≠ .err ()) (hc : chk = true → cl.neighbours.length < 2 ^ 31 ∧ i + left < 2 ^ 31)
    {fuel' left' : Nat} (hf : fuel ≤ fuel') (hl : left ≤ left') :
    iterateCount chk env fuel' left' cl k (Int32.ofNat i) = iterate env fuel left cl k := by
  induction left generalizing cl k i left' with
  | zero => exact absurd rfl h
  | succ left ih =>
    cases left' with
    | zero => omega
    | succ left' =>
      rw [iterate] at h
      have hi : iteration env fuel cl k ≠ .err () := by
        intro e
        rw [e] at h
        exact h rfl
      have hst : iteration env fuel' cl k = iteration env fuel cl k := iteration_stable env cl k fuel fuel' hf hi
      rw [iterateCount, iterate, iterationCount_eq hs fuel' cl k fun hk => (hc hk).1, hst]
      cases e : iteration env fuel cl k with
      | err => rfl
      | panic => rfl
      | ok r =>
        obtain ⟨cl', ch, k'⟩ := r
        rw [e] at h
        simp only [Ret.bind_ok_eq] at h ⊢
        rw [i32Succ_some fun hk => by have := (hc hk).2; omega]
        simp only [Ret.expect, Ret.bind_ok_eq]
        cases ch with
        | false => rfl
        | true =>
          rw [if_pos rfl] at h ⊢
          rw [if_pos rfl]
          refine ih h (fun hk => ?_) (by omega)
          have := hc hk
          rw [iteration_lists e]
          omega

theorem init_lists (hs : IsSort env.sort) {fuel n : Nat} {points : List T} {cl : Clusters T}
    (h : init env fuel points n = .ok cl) : cl.neighbours.length = n := (init_ok hs h).neighbours

/-- More clusters than points. -/
theorem init_many {fuel n : Nat} {points : List T} (h : points.length < n) : init env fuel points n = .panic := by
  rw [init, initAssignment, if_neg (by omega), if_neg (by rw [Nat.div_eq_of_lt h]; decide)]
  rfl

theorem clusterCount_eq (hs : IsSort env.sort) (fuel : Nat) (points : List T) (n : Nat)
    (h : chk = true → fuel < 2 ^ 31 ∧ (n < 2 ^ 31 ∨ points.length < n)) :
    clusterCount chk env fuel points n = cluster env fuel points n := by
  rw [clusterCount, cluster, initCount_eq hs fuel points n fun hc => (h hc).2]
  cases e : init env fuel points n with
  | err => rfl
  | panic => rfl
  | ok cl =>
    simp only [Ret.bind_ok_eq]
    rw [show (0 : Int32) = Int32.ofNat 0 from rfl, iterateCount_eq hs]
    intro hc
    refine ⟨?_, by have := (h hc).1; omega⟩
    rw [init_lists hs e]
    rcases (h hc).2 with h | h
    · exact h
    · rw [init_many h] at e
      cases e

theorem clusterCount_stable (hs : IsSort env.sort) {least : Nat} {points : List T} {n : Nat}
    (h : cluster env least points n ≠ .err ()) (hc : chk = true → least < 2 ^ 31 ∧ (n < 2 ^ 31 ∨ points.length < n)) {fuel : Nat}
    (hle : least ≤ fuel) : clusterCount chk env fuel points n = cluster env least points n := by
  have hi : init env least points n ≠ .err () := by
    intro e
    rw [cluster, e] at h
    exact h rfl
  have hst : init env fuel points n = init env least points n := init_stable env points n least fuel hle hi
  rw [clusterCount, initCount_eq hs fuel points n fun hk => (hc hk).2, hst]
  rw [cluster] at h ⊢
  cases e : init env least points n with
  | err => rfl
  | panic => rfl
  | ok cl =>
    rw [e] at h
    simp only [Ret.bind_ok_eq] at h ⊢
    have hit : iterate env least least cl 0 ≠ .err () := by
      intro e
      rw [e] at h
      exact h rfl
    rw [show (0 : Int32) = Int32.ofNat 0 from rfl, iterateCount_stable hs hit _ hle hle]
    intro hk
    refine ⟨?_, by have := (hc hk).1; omega⟩
    rw [init_lists hs e]
    rcases (hc hk).2 with h | h
    · exact h
    · rw [init_many h] at e
      cases e

/-! ## Overflow -/

theorem iterateCount_circles (hs : IsSort env.sort) {Q : Clusters T → Prop} {fuel : Nat}
    (h : ∀ cl k, Q cl → ∃ cl' k', iteration env fuel cl k = .ok (cl', true, k') ∧ Q cl') {cl : Clusters T} (hq : Q cl)
    (hn : cl.neighbours.length < 2 ^ 31) {left k i : Nat} (hi : i < 2 ^ 31) (hl : 2 ^ 31 ≤ i + left) :
    iterateCount true env fuel left cl k (Int32.ofNat i) = .panic := by
  induction left generalizing cl k i with
  | zero => omega
  | succ left ih =>
    obtain ⟨cl', k', h1, h2⟩ := h cl k hq
    rw [iterateCount, iterationCount_eq hs fuel cl k fun _ => hn, h1]
    simp only [Ret.bind_ok_eq]
    by_cases he : i = 2 ^ 31 - 1
    · rw [he, i32Succ_none]
      rfl
    · rw [i32Succ_some fun _ => by omega]
      simp only [Ret.expect, Ret.bind_ok_eq]
      rw [if_pos trivial]
      refine ih h2 ?_ (by omega) (by omega)
      rw [iteration_lists h1]
      exact hn

theorem clusterCount_circles (hs : IsSort env.sort) {points : List T} {n : Nat} (hc : Circles env points n) (hn : n < 2 ^ 31)
    (fuel : Nat) : clusterCount true env fuel points n = if fuel < 2 ^ 31 then .err () else .panic := by
  by_cases hf : fuel < 2 ^ 31
  · rw [if_pos hf, clusterCount_eq hs fuel points n fun _ => ⟨hf, .inl hn⟩, cluster_endless hc]
  · rw [if_neg hf]
    obtain ⟨-, Q, hstart, h⟩ := hc
    obtain ⟨f, rfl⟩ : ∃ f, fuel = f + 1 := ⟨fuel - 1, by omega⟩
    obtain ⟨cl, h1, h2⟩ := hstart f
    rw [clusterCount, initCount_eq hs _ points n fun _ => .inl hn, h1, Ret.bind_ok_eq,
      show (0 : Int32) = Int32.ofNat 0 from rfl,
      iterateCount_circles hs (h f) h2 (by rw [init_lists hs h1]; exact hn) (by decide) (by omega)]
    rfl

/-- With the counter checked for overflow the loop ends: it panics, or it ends as without counter. -/
theorem iterateCount_ends (hs : IsSort env.sort) {points : List T} {n : Nat} (hne : points ≠ []) (hf : Fair env.rand n)
    (hn : n < 2 ^ 31) (d : Nat) : ∀ (cl : Clusters T), Invariant env points n cl → ∀ (k i : Nat), i + d = 2 ^ 31 → 0 < d →
    ∃ r least, r ≠ .err () ∧ (∀ fuel left, least ≤ fuel → least ≤ left → iterateCount true env fuel left cl k (Int32.ofNat i) = r) ∧
      (r = .panic ∨ ∀ fuel left, least ≤ fuel → least ≤ left → iterate env fuel left cl k = r) := by
  induction d with
  | zero => intro cl hi k i _ h; omega
  | succ d ih =>
    intro cl hi k i hid _
    obtain ⟨f0, hf0⟩ := iteration_ends hs hne hf hi k
    dsimp only at hf0
    have hst : ∀ fuel, f0 ≤ fuel → iteration env fuel cl k = iteration env f0 cl k := fun fuel hle =>
      iteration_stable env cl k f0 fuel hle hf0
    have hlen : cl.neighbours.length < 2 ^ 31 := hi.neighbours ▸ hn
    cases e : iteration env f0 cl k with
    | err u => exact absurd e hf0
    | panic =>
      refine ⟨.panic, f0 + 1, (by intro h; cases h), fun fuel left h1 h2 => ?_, .inl rfl⟩
      obtain ⟨l, rfl⟩ : ∃ l, left = l + 1 := ⟨left - 1, by omega⟩
      rw [iterateCount, iterationCount_eq hs fuel cl k fun _ => hlen, hst fuel (by omega), e]
      rfl
    | ok r =>
      obtain ⟨cl', ch, k'⟩ := r
      by_cases hmax : i = 2 ^ 31 - 1
      · refine ⟨.panic, f0 + 1, (by intro h; cases h), fun fuel left h1 h2 => ?_, .inl rfl⟩
        obtain ⟨l, rfl⟩ : ∃ l, left = l + 1 := ⟨left - 1, by omega⟩
        rw [iterateCount, iterationCount_eq hs fuel cl k fun _ => hlen, hst fuel (by omega), e, hmax]
        simp only [Ret.bind_ok_eq]
        rw [i32Succ_none]
        rfl
      · cases ch with
        | false =>
          refine ⟨.ok cl', f0 + 1, (by intro h; cases h), fun fuel left h1 h2 => ?_, .inr fun fuel left h1 h2 => ?_⟩
          · obtain ⟨l, rfl⟩ : ∃ l, left = l + 1 := ⟨left - 1, by omega⟩
            rw [iterateCount, iterationCount_eq hs fuel cl k fun _ => hlen, hst fuel (by omega), e]
            simp only [Ret.bind_ok_eq]
            rw [i32Succ_some fun _ => by omega]
            rfl
          · obtain ⟨l, rfl⟩ : ∃ l, left = l + 1 := ⟨left - 1, by omega⟩
            rw [iterate, hst fuel (by omega), e]
            rfl
        | true =>
          obtain ⟨r, least, hr, h1, h2⟩ := ih cl' (iteration_ok hs hi e) k' (i + 1) (by omega) (by omega)
          refine ⟨r, max f0 least + 1, hr, fun fuel left hfu hl => ?_, h2.imp id fun h2 fuel left hfu hl => ?_⟩
          · obtain ⟨l, rfl⟩ : ∃ l, left = l + 1 := ⟨left - 1, by omega⟩
            rw [iterateCount, iterationCount_eq hs fuel cl k fun _ => hlen, hst fuel (by omega), e]
            simp only [Ret.bind_ok_eq]
            rw [i32Succ_some fun _ => by omega]
            simp only [Ret.expect, Ret.bind_ok_eq]
            rw [if_pos trivial]
            exact h1 fuel l (by omega) (by omega)
          · obtain ⟨l, rfl⟩ : ∃ l, left = l + 1 := ⟨left - 1, by omega⟩
            rw [iterate, hst fuel (by omega), e]
            exact h2 fuel l (by omega) (by omega)

theorem clusterCount_ends (hs : IsSort env.sort) {points : List T} {n : Nat} (hf : Fair env.rand n)
    (hn : n < 2 ^ 31 ∨ points.length < n) :
    ∃ r least, r ≠ .err () ∧ (∀ fuel, least ≤ fuel → clusterCount true env fuel points n = r) ∧
      (r = .panic ∨ ∀ fuel, least ≤ fuel → cluster env fuel points n = r) := by
  have hin : init env 2 points n ≠ .err () := init_ne_err (fuel := 1) hs
  have hst : ∀ fuel, 2 ≤ fuel → init env fuel points n = init env 2 points n := fun fuel hle =>
    init_stable env points n 2 fuel hle hin
  cases e : init env 2 points n with
  | err u => exact absurd e hin
  | panic =>
    refine ⟨.panic, 2, (by intro h; cases h), fun fuel hle => ?_, .inl rfl⟩
    rw [clusterCount, initCount_eq hs fuel points n fun _ => hn, hst fuel hle, e]
    rfl
  | ok cl =>
    have hn' : n < 2 ^ 31 := by
      rcases hn with hn | hn
      · exact hn
      · rw [init_many hn] at e
        cases e
    have hne : points ≠ [] := by
      rintro rfl
      rw [init_many (init_ok hs e).positive] at e
      cases e
    obtain ⟨r, least, hr, h1, h2⟩ := iterateCount_ends hs hne hf hn' (2 ^ 31) cl (init_ok hs e) 0 0 (by omega) (by omega)
    refine ⟨r >>= fun cl => if enoughActive env.fl cl n then .ok cl else .panic, max 2 least, ?_, fun fuel hle => ?_, ?_⟩
    · intro he
      rcases Ret.bind_err.1 he with he | ⟨cl, -, he⟩
      · exact hr he
      · split at he <;> cases he
    · rw [clusterCount, initCount_eq hs fuel points n fun _ => hn, hst fuel (by omega), e, Ret.bind_ok_eq]
      rw [show (0 : Int32) = Int32.ofNat 0 from rfl, h1 fuel fuel (by omega) (by omega)]
    · rcases h2 with rfl | h2
      · exact .inl rfl
      · refine .inr fun fuel hle => ?_
        rw [cluster, hst fuel (by omega), e, Ret.bind_ok_eq, h2 fuel fuel (by omega) (by omega)]

end Kmeans
end Cniic
