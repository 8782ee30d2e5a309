import Verif.Model.DictStats
import Verif.Model.KmeansCount
import Verif.Proofs.Checks

/-! # Proofs: overflow checks and the counters that only feed messages -/

namespace Cniic

theorem i32Succ_checks (a : Int32) : NoneOr (i32Succ true a) (i32Succ false a) := by
  unfold i32Succ; split <;> simp [NoneOr]

namespace Kmeans

variable {T : Type}

theorem computeOneCount_checks {a b : PointOps T} (h : a.PanicOr b) (env : Env T) (cs : List T) (fuel : Nat) (g : Neigh)
    (k : Int32) : (computeOneCount true { env with pt := a } cs fuel g k).PanicOr
      (computeOneCount false { env with pt := b } cs fuel g k) := by
  induction fuel generalizing g k with
  | zero => exact .refl _
  | succ fuel ih =>
    refine .bind (updateDistances_checks h cs g) fun g => ?_
    dsimp only
    split
    · exact .refl _
    · exact .bind (.expect (i32Succ_checks _)) fun _ => ih _ _

theorem computeNeighboursCount_checks {a b : PointOps T} (h : a.PanicOr b) (env : Env T) (fuel : Nat) (cs : List T)
    (gs : List Neigh) (k : Int32) : (computeNeighboursCount true { env with pt := a } fuel cs gs k).PanicOr
      (computeNeighboursCount false { env with pt := b } fuel cs gs k) := by
  induction gs generalizing k with
  | nil => exact .refl _
  | cons g gs ih => exact .bind (computeOneCount_checks h env cs fuel g k) fun _ => .bind (ih _) fun _ => .refl _

theorem initCount_checks {a b : PointOps T} (h : a.PanicOr b) (env : Env T) (fuel : Nat) (points : List T) (n : Nat) :
    (initCount true { env with pt := a } fuel points n).PanicOr (initCount false { env with pt := b } fuel points n) :=
  .bind (.refl _) fun asg => .bind (initCentroids_checks h asg) fun _ =>
    .bind (.bind (computeNeighboursCount_checks h env fuel _ _ _) fun _ => .refl _) fun _ => .refl _

theorem iterationCount_checks {a b : PointOps T} (h : a.PanicOr b) (env : Env T) (fuel : Nat) (cl : Clusters T) (k : Nat) :
    (iterationCount true { env with pt := a } fuel cl k).PanicOr (iterationCount false { env with pt := b } fuel cl k) :=
  .bind (assignPoints_checks h env cl) fun _ =>
    .bind (.bind (computeCentroids_checks h env fuel _ _ _) fun _ => .refl _) fun _ =>
      .bind (.bind (computeNeighboursCount_checks h env fuel _ _ _) fun _ => .refl _) fun _ => .refl _

theorem iterateCount_checks {a b : PointOps T} (h : a.PanicOr b) (env : Env T) (fuel left : Nat) (cl : Clusters T) (k : Nat)
    (i : Int32) : (iterateCount true { env with pt := a } fuel left cl k i).PanicOr
      (iterateCount false { env with pt := b } fuel left cl k i) := by
  induction left generalizing cl k i with
  | zero => exact .refl _
  | succ left ih =>
    refine .bind (iterationCount_checks h env fuel cl k) fun r => .bind (.expect (i32Succ_checks _)) fun i => ?_
    split
    · exact ih _ _ _
    · exact .refl _

theorem clusterCount_checks {a b : PointOps T} (h : a.PanicOr b) (env : Env T) (fuel : Nat) (points : List T) (n : Nat) :
    (clusterCount true { env with pt := a } fuel points n).PanicOr (clusterCount false { env with pt := b } fuel points n) :=
  .bind (initCount_checks h env fuel points n) fun cl => .bind (iterateCount_checks h env fuel fuel cl 0 0) fun _ => .refl _

end Kmeans

theorem clusterColorsEncodeCount_checks (o : Outside) (ho1 ho2 : List (Rgb UInt8 × Nat) → List (Rgb UInt8 × Nat))
    (M : MinHeap (Rgb UInt8)) (fuel : Nat) (n : UInt64) (img : Img) :
    (clusterColorsEncodeCount o true ho1 ho2 M fuel n img).PanicOr (clusterColorsEncodeCount o false ho1 ho2 M fuel n img) :=
  .bind (Kmeans.clusterCount_checks (a := (colorEnv o true).pt) (b := (colorEnv o false).pt)
    ⟨fun _ _ => .refl _, colorMean_checks⟩ (colorEnv o true) fuel _ _) fun _ => .refl _

theorem voronoiEncodeCount_checks (o : Outside) (fuel : Nat) (n : UInt64) (img : Img) :
    (voronoiEncodeCount o true fuel n img).PanicOr (voronoiEncodeCount o false fuel n img) :=
  .bind (Kmeans.clusterCount_checks (a := (posEnv o true).pt) (b := (posEnv o false).pt)
    ⟨posDist_checks o.fl, posMean_checks⟩ (posEnv o true) fuel _ _) fun _ => .refl _

theorem statsLoop_checks {T : Type} (stack : List (Node T)) (st : TrieStats) :
    NoneOr (statsLoop true stack st) (statsLoop false stack st) := by
  fun_induction statsLoop false stack st with
  | case1 st => rw [statsLoop]; exact .refl _
  | case2 n stack st h =>
    rw [statsLoop]
    rcases i32Succ_checks st.nodeCount with h' | h'
    · rw [h']; exact .inl rfl
    · rw [h', h]; exact .inl rfl
  | case3 n stack st k h ih =>
    rw [statsLoop]
    rcases i32Succ_checks st.nodeCount with h' | h'
    · rw [h']; exact .inl rfl
    · rw [h', h]; exact ih

theorem zipDictEncodeStats_checks (input : List UInt8) :
    Proc.PanicOr (zipDictEncodeStats true input) (zipDictEncodeStats false input) := by
  unfold zipDictEncodeStats
  split
  · exact .refl _
  · refine .bind (.refl _) fun e => ?_
    rcases statsLoop_checks [e.trie]
      { nodeCount := 0, usedChildren := 0, totChildren := 0, usedValues := 0, totValues := 0 } with h | h
    · unfold trieStats
      rw [h]
      exact fun _ => .inl rfl
    · unfold trieStats
      rw [h]
      exact .refl _

theorem hilbertZipEncodeStats_checks (scan : Scan) (img : Img) :
    Proc.PanicOr (hilbertZipEncodeStats true scan img) (hilbertZipEncodeStats false scan img) :=
  .bind (.refl _) fun _ => .bind (.refl _) fun _ => .bind (.refl _) fun _ => zipDictEncodeStats_checks _

theorem zipEncodeStats_checks (img : Img) : Proc.PanicOr (zipEncodeStats true img) (zipEncodeStats false img) := by
  unfold zipEncodeStats
  split
  · exact .refl _
  · exact zipDictEncodeStats_checks _

end Cniic
