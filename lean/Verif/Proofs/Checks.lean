import Verif.Model.Program
import Verif.Proofs.Hilbertc

/-! # Proofs: overflow checks only turn results into panics -/

namespace Cniic

/-- `a` is a panic, or `a` and `b` end in the same way. -/
def Ret.PanicOr {ε α : Type} (a b : Ret ε α) : Prop := a = .panic ∨ a = b

/-- The same where `none` is a panic. -/
def NoneOr {α : Type} (a b : Option α) : Prop := a = none ∨ a = b

/-- The same for calls that mutate a state. -/
def Proc.PanicOr {ε σ α : Type} (m m' : Proc ε σ α) : Prop := ∀ s, (m s).1 = .panic ∨ m s = m' s

namespace NoneOr

variable {α β : Type}

theorem refl (a : Option α) : NoneOr a a := .inr rfl

theorem bind {a b : Option α} {f g : α → Option β} (h : NoneOr a b) (hf : ∀ x, NoneOr (f x) (g x)) :
    NoneOr (a >>= f) (b >>= g) := by
  rcases h with rfl | rfl
  · exact .inl rfl
  · cases a with
    | none => exact .inl rfl
    | some x => exact hf x

end NoneOr

namespace Ret.PanicOr

variable {ε α β : Type}

theorem refl (a : Ret ε α) : a.PanicOr a := .inr rfl

theorem bind {a b : Ret ε α} {f g : α → Ret ε β} (h : a.PanicOr b) (hf : ∀ x, (f x).PanicOr (g x)) :
    (a >>= f).PanicOr (b >>= g) := by
  rcases h with rfl | rfl
  · exact .inl rfl
  · cases a with
    | ok x => exact hf x
    | err e => exact .inr rfl
    | panic => exact .inl rfl

theorem expect {a b : Option α} (h : NoneOr a b) : (Ret.expect a : Ret ε α).PanicOr (Ret.expect b) := by
  rcases h with rfl | rfl
  · exact .inl rfl
  · exact .inr rfl

end Ret.PanicOr

namespace Proc.PanicOr

variable {ε σ α β : Type}

theorem refl (m : Proc ε σ α) : m.PanicOr m := fun _ => .inr rfl

theorem bind {m m' : Proc ε σ α} {f g : α → Proc ε σ β} (h : m.PanicOr m') (hf : ∀ x, (f x).PanicOr (g x)) :
    (m >>= f).PanicOr (m' >>= g) := by
  intro s
  simp only [Proc.bind_def]
  rcases h s with h | h
  · rcases hm : m s with ⟨_ | _ | _, s'⟩ <;> rw [hm] at h <;> simp at h
    exact .inl rfl
  · rw [← h]
    rcases m s with ⟨a | _ | _, s'⟩
    · exact hf a s'
    · exact .inr rfl
    · exact .inl rfl

theorem orPanic {a b : Option α} (h : NoneOr a b) : (orPanic a : Proc ε σ α).PanicOr (orPanic b) := by
  rcases h with rfl | rfl
  · exact fun _ => .inl rfl
  · exact .refl _

theorem onStream {τ : Type} {m m' : Rd σ α} (h : Proc.PanicOr m m') (s : σ) :
    Proc.PanicOr (onStream m s : Rd τ α) (onStream m' s) := by
  intro t
  rcases h s with h | h
  · exact .inl (by simp [Cniic.onStream, h])
  · exact .inr (by simp [Cniic.onStream, h])

theorem forEach {f g : α → Proc ε σ Unit} (h : ∀ x, (f x).PanicOr (g x)) (xs : List α) :
    (Proc.forEach f xs).PanicOr (Proc.forEach g xs) := by
  induction xs with
  | nil => exact .refl _
  | cons x xs ih => exact .bind (h x) fun _ => ih

theorem run {m m' : Proc ε σ α} (h : m.PanicOr m') (s : σ) : (m.run s).1.PanicOr (m'.run s).1 := by
  rcases h s with h | h
  · exact .inl h
  · exact .inr (congrArg Prod.fst h)

end Proc.PanicOr

/-! ## Arithmetic -/

theorem u32Sub_checks (a b : UInt32) : NoneOr (u32Sub true a b) (u32Sub false a b) := by
  unfold u32Sub; split <;> simp [NoneOr]

theorem u32Sq_checks (a : UInt32) : NoneOr (u32Sq true a) (u32Sq false a) := by
  unfold u32Sq; split <;> simp [NoneOr]

theorem u32Add_checks (a b : UInt32) : NoneOr (u32Add true a b) (u32Add false a b) := by
  unfold u32Add; split <;> simp [NoneOr]

theorem u64Add_checks (a b : UInt64) : NoneOr (u64Add true a b) (u64Add false a b) := by
  unfold u64Add; split <;> simp [NoneOr]

theorem u32Mul_checks (a b : UInt32) : NoneOr (u32Mul true a b) (u32Mul false a b) := by
  unfold u32Mul; split <;> simp [NoneOr]

theorem addI16_checks (a b : Int16) : NoneOr (addI16 true a b) (addI16 false a b) := by
  unfold addI16; split <;> simp [NoneOr]

theorem nextPowerOfTwo_checks (n : Nat) : NoneOr (nextPowerOfTwo true n) (nextPowerOfTwo false n) := by
  unfold nextPowerOfTwo
  dsimp only
  split
  · exact .refl _
  · exact .inl (if_pos rfl)

/-! ## Clustering -/

namespace Kmeans

variable {T : Type}

/-- The points of two compilation modes: those of the first may panic. -/
structure PointOps.PanicOr (a b : PointOps T) : Prop where
  dist : ∀ x y, NoneOr (a.dist x y) (b.dist x y)
  mean : ∀ xs, (a.mean xs).PanicOr (b.mean xs)

theorem distances_checks {a b : PointOps T} (h : a.PanicOr b) (cs : List T) (c : T) (ns : List (Nat × Rat)) :
    (distances a cs c ns).PanicOr (distances b cs c ns) := by
  induction ns with
  | nil => exact .refl _
  | cons n ns ih =>
    exact .bind (.refl _) fun dst => .bind (.expect (h.dist c dst)) fun d => .bind ih fun rest => .refl _

theorem updateDistances_checks {a b : PointOps T} (h : a.PanicOr b) (cs : List T) (g : Neigh) :
    (g.updateDistances a cs).PanicOr (g.updateDistances b cs) :=
  .bind (.refl _) fun c => .bind (distances_checks h cs c _) fun _ => .refl _

theorem computeOne_checks {a b : PointOps T} (h : a.PanicOr b) (env : Env T) (cs : List T) (fuel : Nat) (g : Neigh) :
    (computeOne { env with pt := a } cs fuel g).PanicOr (computeOne { env with pt := b } cs fuel g) := by
  induction fuel generalizing g with
  | zero => exact .refl _
  | succ fuel ih =>
    refine .bind (updateDistances_checks h cs g) fun g => ?_
    dsimp only
    split
    · exact .refl _
    · exact ih _

theorem computeNeighbours_checks {a b : PointOps T} (h : a.PanicOr b) (env : Env T) (fuel : Nat) (cs : List T)
    (gs : List Neigh) :
    (computeNeighbours { env with pt := a } fuel cs gs).PanicOr (computeNeighbours { env with pt := b } fuel cs gs) := by
  induction gs with
  | nil => exact .refl _
  | cons g gs ih => exact .bind (computeOne_checks h env cs fuel g) fun _ => .bind ih fun _ => .refl _

theorem fakeClone_checks {a b : PointOps T} (h : a.PanicOr b) (x : T) : (fakeClone a x).PanicOr (fakeClone b x) := by
  unfold fakeClone
  rcases h.mean [x] with h | h
  · rw [h]; exact .inl rfl
  · rw [h]; exact .refl _

theorem initCentroids_checks {a b : PointOps T} (h : a.PanicOr b) (asg : List (List T)) :
    (initCentroids a asg).PanicOr (initCentroids b asg) := by
  induction asg with
  | nil => exact .refl _
  | cons v rest ih => exact .bind (.refl _) fun x => .bind (fakeClone_checks h x) fun _ => .bind ih fun _ => .refl _

theorem computeCentroids_checks {a b : PointOps T} (h : a.PanicOr b) (env : Env T) (fuel : Nat) (asg : List (List T))
    (vs : List (List T)) (k : Nat) :
    (computeCentroids { env with pt := a } fuel asg vs k).PanicOr (computeCentroids { env with pt := b } fuel asg vs k) := by
  induction vs generalizing k with
  | nil => exact .refl _
  | cons v vs ih =>
    simp only [computeCentroids]
    rcases h.mean v with hm | hm
    · rw [hm]; exact .inl rfl
    · rw [hm]
      cases b.mean v with
      | ok c => exact .bind (ih k) fun _ => .refl _
      | err e =>
        exact .bind (.refl _) fun x => .bind (.refl _) fun y => .bind (fakeClone_checks h y) fun _ =>
          .bind (ih _) fun _ => .refl _
      | panic => exact .refl _

theorem scan_checks {a b : PointOps T} (h : a.PanicOr b) (cs : List T) (x : T) (cutoff : Rat) (ns : List (Nat × Rat))
    (pos : Nat) (d : Rat) (j : Nat) : (scan a cs x cutoff ns pos d j).PanicOr (scan b cs x cutoff ns pos d j) := by
  induction ns generalizing pos d j with
  | nil => exact .refl _
  | cons n ns ih =>
    simp only [scan]
    split
    · exact .refl _
    · refine .bind (.refl _) fun c => .bind (.expect (h.dist c x)) fun t => ?_
      split
      · exact ih _ _ _
      · exact ih _ _ _

theorem choose_checks {a b : PointOps T} (h : a.PanicOr b) (env : Env T) (cs : List T) (g : Neigh) (i : Nat) (x : T) :
    (choose { env with pt := a } cs g i x).PanicOr (choose { env with pt := b } cs g i x) := by
  refine .bind (.refl _) fun c => .bind (.expect (h.dist c x)) fun t => ?_
  dsimp only
  split
  · exact .refl _
  · exact .bind (scan_checks h cs x _ _ _ _ _) fun _ => .refl _

theorem assignLoop_checks {a b : PointOps T} (h : a.PanicOr b) (env : Env T) (cs : List T) (ps : List (Nat × T))
    (asg : List (List T)) (ns : List Neigh) (ch : Bool) :
    (assignLoop { env with pt := a } cs ps asg ns ch).PanicOr (assignLoop { env with pt := b } cs ps asg ns ch) := by
  induction ps generalizing asg ns ch with
  | nil => exact .refl _
  | cons p ps ih =>
    exact .bind (.refl _) fun g => .bind (choose_checks h env cs g _ _) fun _ => .bind (.refl _) fun _ =>
      .bind (.refl _) fun _ => ih _ _ _

theorem assignPoints_checks {a b : PointOps T} (h : a.PanicOr b) (env : Env T) (cl : Clusters T) :
    (assignPoints { env with pt := a } cl).PanicOr (assignPoints { env with pt := b } cl) := by
  unfold assignPoints
  split
  · exact .bind (assignLoop_checks h env _ _ _ _ _) fun _ => .refl _
  · exact .refl _

theorem init_checks {a b : PointOps T} (h : a.PanicOr b) (env : Env T) (fuel : Nat) (points : List T) (n : Nat) :
    (init { env with pt := a } fuel points n).PanicOr (init { env with pt := b } fuel points n) :=
  .bind (.refl _) fun asg => .bind (initCentroids_checks h asg) fun _ =>
    .bind (computeNeighbours_checks h env fuel _ _) fun _ => .refl _

theorem iteration_checks {a b : PointOps T} (h : a.PanicOr b) (env : Env T) (fuel : Nat) (cl : Clusters T) (k : Nat) :
    (iteration { env with pt := a } fuel cl k).PanicOr (iteration { env with pt := b } fuel cl k) :=
  .bind (assignPoints_checks h env cl) fun _ =>
    .bind (.bind (computeCentroids_checks h env fuel _ _ _) fun _ => .refl _) fun _ =>
      .bind (.bind (computeNeighbours_checks h env fuel _ _) fun _ => .refl _) fun _ => .refl _

theorem iterate_checks {a b : PointOps T} (h : a.PanicOr b) (env : Env T) (fuel left : Nat) (cl : Clusters T) (k : Nat) :
    (iterate { env with pt := a } fuel left cl k).PanicOr (iterate { env with pt := b } fuel left cl k) := by
  induction left generalizing cl k with
  | zero => exact .refl _
  | succ left ih =>
    refine .bind (iteration_checks h env fuel cl k) fun r => ?_
    dsimp only
    split
    · exact ih _ _
    · exact .refl _

theorem cluster_checks {a b : PointOps T} (h : a.PanicOr b) (env : Env T) (fuel : Nat) (points : List T) (n : Nat) :
    (cluster { env with pt := a } fuel points n).PanicOr (cluster { env with pt := b } fuel points n) :=
  .bind (init_checks h env fuel points n) fun cl => .bind (iterate_checks h env fuel fuel cl 0) fun _ => .refl _

end Kmeans

open Kmeans

theorem weighedSums_checks (ps : List ColorCount) (t : UInt64 × UInt64 × UInt64 × UInt64) :
    NoneOr (weighedSums true ps t) (weighedSums false ps t) := by
  induction ps generalizing t with
  | nil => exact .refl _
  | cons p ps ih =>
    exact .bind (u64Add_checks _ _) fun _ => .bind (u64Add_checks _ _) fun _ => .bind (u64Add_checks _ _) fun _ =>
      .bind (u64Add_checks _ _) fun _ => ih _

theorem colorMean_checks (ps : List ColorCount) : (ColorCount.mean true ps).PanicOr (ColorCount.mean false ps) := by
  unfold ColorCount.mean
  split
  · exact .refl _
  · exact .refl _
  · rcases weighedSums_checks ps (0, 0, 0, 0) with h | h
    · rw [h]; exact .inl rfl
    · rw [h]; exact .refl _

theorem posSums_checks (ps : List ColorPos) (t : UInt64 × UInt64 × UInt64 × UInt64 × UInt64) :
    NoneOr (posSums true ps t) (posSums false ps t) := by
  induction ps generalizing t with
  | nil => exact .refl _
  | cons p ps ih =>
    exact .bind (u64Add_checks _ _) fun _ => .bind (u64Add_checks _ _) fun _ => .bind (u64Add_checks _ _) fun _ =>
      .bind (u64Add_checks _ _) fun _ => .bind (u64Add_checks _ _) fun _ => ih _

theorem posMean_checks (ps : List ColorPos) : (ColorPos.mean true ps).PanicOr (ColorPos.mean false ps) := by
  unfold ColorPos.mean
  split
  · exact .refl _
  · rcases posSums_checks ps (0, 0, 0, 0, 0) with h | h
    · rw [h]; exact .inl rfl
    · rw [h]; exact .refl _

theorem posDist_checks (fl : FloatOps) (a b : ColorPos) : NoneOr (a.dist fl true b) (a.dist fl false b) :=
  .bind (u32Sub_checks _ _) fun _ => .bind (u32Sq_checks _) fun _ => .bind (u32Sub_checks _ _) fun _ =>
    .bind (u32Sq_checks _) fun _ => .refl _

theorem clusterColorsEncode_checks (o : Outside) (ho1 ho2 : List (Rgb UInt8 × Nat) → List (Rgb UInt8 × Nat))
    (M : MinHeap (Rgb UInt8)) (fuel : Nat) (n : UInt64) (img : Img) :
    (clusterColorsEncode o true ho1 ho2 M fuel n img).PanicOr (clusterColorsEncode o false ho1 ho2 M fuel n img) :=
  .bind (cluster_checks (a := (colorEnv o true).pt) (b := (colorEnv o false).pt)
    ⟨fun _ _ => .refl _, colorMean_checks⟩ (colorEnv o true) fuel _ _) fun _ => .refl _

theorem voronoiEncode_checks (o : Outside) (fuel : Nat) (n : UInt64) (img : Img) :
    (voronoiEncode o true fuel n img).PanicOr (voronoiEncode o false fuel n img) :=
  .bind (cluster_checks (a := (posEnv o true).pt) (b := (posEnv o false).pt)
    ⟨posDist_checks o.fl, posMean_checks⟩ (posEnv o true) fuel _ _) fun _ => .refl _

/-! ## Decoding -/

theorem pixelKey_checks (x y : UInt32) (c : ColorPos) : NoneOr (pixelKey true x y c) (pixelKey false x y c) :=
  .bind (u32Sub_checks _ _) fun _ => .bind (u32Sq_checks _) fun _ => .bind (u32Sub_checks _ _) fun _ =>
    .bind (u32Sq_checks _) fun _ => u32Add_checks _ _

theorem minByKey_checks {α : Type} {f g : α → Option UInt32} (h : ∀ a, NoneOr (f a) (g a)) (as : List α) (best : α)
    (k : UInt32) : NoneOr (minByKey f as best k) (minByKey g as best k) := by
  induction as generalizing best k with
  | nil => exact .refl _
  | cons a as ih =>
    refine .bind (h a) fun k' => ?_
    split
    · exact ih _ _
    · exact ih _ _

theorem pixelColor_checks (cs : List ColorPos) (x y : UInt32) : NoneOr (pixelColor true cs x y) (pixelColor false cs x y) := by
  cases cs with
  | nil => exact .refl _
  | cons c cs =>
    exact .bind (pixelKey_checks x y c) fun _ => .bind (minByKey_checks (pixelKey_checks x y) _ _ _) fun _ => .refl _

theorem optMap_checks {α β : Type} {f g : α → Option β} (h : ∀ a, NoneOr (f a) (g a)) (as : List α) :
    NoneOr (optMap f as) (optMap g as) := by
  induction as with
  | nil => exact .refl _
  | cons a as ih => exact .bind (h a) fun _ => .bind ih fun _ => .refl _

theorem voronoiDecode_checks (file : List UInt8) : (voronoiDecode true file).PanicOr (voronoiDecode false file) := by
  refine Proc.PanicOr.run (.bind (.refl _) fun dims => .bind (.refl _) fun img => .bind (.refl _) fun n =>
    .bind (.refl _) fun cs => .bind (.orPanic (optMap_checks (fun i => ?_) _)) fun px => .refl _) file
  exact pixelColor_checks _ _ _

theorem signedAdd_checks (a b : SignedColor) : NoneOr (a.add true b) (a.add false b) := by
  unfold SignedColor.add
  rcases addI16_checks a.r b.r with h | h <;> rcases addI16_checks a.g b.g with h' | h' <;>
    rcases addI16_checks a.b b.b with h'' | h'' <;> simp [h, h', h'', NoneOr]

theorem fromDiff_checks {σ : Type} (next : Rd σ SignedColor) :
    Proc.PanicOr (FromDiff.next true next) (FromDiff.next false next) := by
  intro s
  unfold FromDiff.next
  rcases next s.diffStream with ⟨d | _ | _, t⟩
  · dsimp only
    rcases signedAdd_checks s.lastColor d with h | h
    · rw [h]; exact .inl rfl
    · rw [h]; exact .inr rfl
  · exact .inr rfl
  · exact .inl rfl

theorem paint_checks {σ : Type} {f g : Rd σ (Rgb UInt8)} (h : Proc.PanicOr f g) (cells : List (Nat × Nat)) (img : RgbImage) :
    Proc.PanicOr (paint f cells img) (paint g cells img) := by
  induction cells generalizing img with
  | nil => exact .refl _
  | cons c cells ih =>
    intro s
    simp only [paint]
    rcases h s with h | h
    · rcases hm : f s with ⟨_ | _ | _, t⟩ <;> rw [hm] at h <;> simp at h
      exact .inl rfl
    · rw [h]
      rcases g s with ⟨d | _ | _, t⟩
      · dsimp only
        cases img.put c.1 c.2 d with
        | some img' => exact ih img' t
        | none => exact .inl rfl
      · exact .inr rfl
      · exact .inl rfl

theorem deltaDecode_checks (scan : Scan) (file : List UInt8) :
    (deltaDecode true scan file).PanicOr (deltaDecode false scan file) := by
  exact Proc.PanicOr.run (.bind (.refl _) fun di => .bind (.refl _) fun ds =>
    .onStream (paint_checks (fromDiff_checks _) _ _) _) file

theorem deltaEncode_checks (chk : Bool) (scan : Scan) (M : MinHeap SignedColor)
    (ho : List (SignedColor × Nat) → List (SignedColor × Nat)) (img : Img) :
    deltaEncode chk scan M ho img = deltaEncode false scan M ho img := by
  have h : ∀ (k : Bool) (cs : List (Rgb UInt8)), drain (DiffStream.next k) (cs.length + 1) (DiffStream.new cs) =
      .ok (diffs black cs) := fun k cs =>
    drain_of_yields (diffStream_yields k black cs) (by rw [diffs_length]; omega)
  unfold deltaEncode
  simp only [h]

/-! ## The codecs and the benchmark -/

/-- The same, compiled with overflow checks. -/
def Setup.debug (p : Setup) : Setup := { p with chk := true }

/-- The same, compiled without. -/
def Setup.release (p : Setup) : Setup := { p with chk := false }

theorem encode_checks (p : Setup) (fuel : Nat) (c : AnyCodec) (img : Img) :
    (c.encode p.debug fuel img).PanicOr (c.encode p.release fuel img) := by
  cases c with
  | clusterColors n => exact clusterColorsEncode_checks _ _ _ _ _ _ _
  | voronoi n => exact voronoiEncode_checks _ _ _ _
  | delta => exact .inr (by simp only [AnyCodec.encode]; exact congrArg _ (deltaEncode_checks _ _ _ _ _))
  | hilbert m => exact .refl _
  | hufman => exact .refl _
  | zip z => exact .refl _

theorem decode_checks (p : Setup) (c : AnyCodec) (file : List UInt8) :
    (c.decode p.debug file).PanicOr (c.decode p.release file) := by
  cases c with
  | clusterColors n => exact .refl _
  | voronoi n => exact voronoiDecode_checks _
  | delta => exact deltaDecode_checks _ _
  | hilbert m => exact .refl _
  | hufman => exact .refl _
  | zip z => exact .refl _

theorem rawSize_checks (img : Img) : NoneOr (rawSize true img) (rawSize false img) :=
  .bind (u32Mul_checks _ _) fun _ => u32Mul_checks _ _

theorem computeError_checks (fl : FloatOps) (x : Img) (y : RgbImage) :
    NoneOr (computeError fl true x y) (computeError fl false x y) := .bind (u32Mul_checks _ _) fun _ => .refl _

theorem measureOne_checks (p : Setup) (fuel : Nat) (c : AnyCodec) (j : Job) :
    (measureOne p.debug fuel c j).1 = .panic ∨ measureOne p.debug fuel c j = measureOne p.release fuel c j := by
  unfold measureOne
  cases j.opened with
  | none => exact .inr rfl
  | some img =>
    dsimp only
    rcases encode_checks p fuel c img with h | h
    · rw [h]; exact .inl rfl
    rw [h]
    cases c.encode p.release fuel img with
    | err e => exact .inr rfl
    | panic => exact .inl rfl
    | ok m =>
      dsimp only
      cases bytesOf m with
      | err e => exact .inr rfl
      | panic => exact .inl rfl
      | ok data =>
        dsimp only
        have hr : NoneOr (rawSize p.debug.chk img) (rawSize p.release.chk img) := rawSize_checks img
        rcases hr with h | h
        · rw [h]; exact .inl rfl
        rw [h]
        cases rawSize p.release.chk img with
        | none => exact .inl rfl
        | some raw =>
          dsimp only
          rcases decode_checks p c data with h | h
          · rw [h]; exact .inl rfl
          rw [h]
          cases c.decode p.release data with
          | err e => exact .inr rfl
          | panic => exact .inl rfl
          | ok d =>
            dsimp only
            have hr : NoneOr (computeError p.debug.out.fl p.debug.chk img d)
              (computeError p.release.out.fl p.release.chk img d) := computeError_checks p.out.fl img d
            rcases hr with h | h
            · rw [h]; exact .inl rfl
            rw [h]
            exact .inr rfl

theorem workOn_checks {Node : Type} (host : Host Node) (p : Setup) (fuel : Nat) (c : AnyCodec) (path : List Char)
    (o : Option Img) : (workOn host p.debug fuel c path o).1 = .panic ∨
      workOn host p.debug fuel c path o = workOn host p.release fuel c path o := by
  unfold workOn
  cases underOutput path "png".toList with
  | some out => exact measureOne_checks _ _ _ _
  | none =>
    dsimp only
    rcases measureOne_checks p fuel c { name := String.ofList path, opened := o, saves := true } with h | h
    · left
      generalize measureOne p.debug fuel c _ = r at h ⊢
      obtain ⟨r, _ | d⟩ := r
      · exact h
      · rfl
    · rw [h]; exact .inr rfl

/-! ## Parsing -/

open Prs

theorem funCallStep_checks (input : List Char) (pos : Nat) (ch : Char) (s : FunCall) :
    (funCallStep true input pos ch s).PanicOr (funCallStep false input pos ch s) := by
  unfold funCallStep
  by_cases h1 : ch = '('
  · by_cases h2 : s.parenStack = 0
    · simp only [h1, h2, if_true]; exact .refl _
    · by_cases h3 : s.parenStack = 65535
      · simp [h1, h3, Ret.PanicOr]
      · simp [h1, h2, h3, Ret.PanicOr]
  · simp only [h1, if_false]; exact .refl _

theorem funCallLoop_checks (input : List Char) (pos : Nat) (cs : List Char) (s : FunCall) :
    (funCallLoop true input pos cs s).PanicOr (funCallLoop false input pos cs s) := by
  induction cs generalizing pos s with
  | nil => exact .refl _
  | cons ch cs ih =>
    simp only [funCallLoop]
    rcases funCallStep_checks input pos ch s with h | h
    · rw [h]; exact .inl rfl
    · rw [h]
      cases funCallStep false input pos ch s with
      | ok s' => exact ih _ _
      | err e => exact .refl _
      | panic => exact .refl _

theorem funCall_checks (input : List Char) : (funCall true input).PanicOr (funCall false input) := by
  unfold funCall
  rcases funCallLoop_checks input 0 input { funName := none, params := [], parenStack := 0, lastPos := 0 } with h | h
  · rw [h]; exact .inl rfl
  · rw [h]; exact .refl _

theorem thenTry_checks {T : Type} {a b : Alternatives T} {r r' : Ret ParseError T} (name : String)
    (h : a = .panic ∨ a = b) (hr : r.PanicOr r') : a.thenTry name r = .panic ∨ a.thenTry name r = b.thenTry name r' := by
  rcases h with rfl | rfl
  · exact .inl rfl
  · rcases hr with rfl | rfl
    · cases a with
      | ok x => exact .inr rfl
      | panic => exact .inl rfl
      | err es => exact .inl rfl
    · exact .inr rfl

theorem parseRle_checks (pf : List Char → Option F64) (s : List Char) :
    (parseRle true pf s).PanicOr (parseRle false pf s) := by
  unfold parseRle
  split
  · exact .refl _
  · rcases funCall_checks s with h | h
    · rw [h]; exact .inl rfl
    · rw [h]; exact .refl _

theorem end_checks {T : Type} {a b : Alternatives T} (h : a = .panic ∨ a = b) : (a.end).PanicOr b.end := by
  rcases h with rfl | rfl
  · exact .inl rfl
  · exact .refl _

theorem compression_checks (pf : List Char → Option F64) (s : List Char) :
    (compressionFromStr true pf s).PanicOr (compressionFromStr false pf s) :=
  end_checks (thenTry_checks _ (thenTry_checks _ (.inr rfl) (parseRle_checks pf s)) (.refl _))

theorem hilbertFromStr_checks (pf : List Char → Option F64) (s : List Char) :
    (hilbertFromStr true pf s).PanicOr (hilbertFromStr false pf s) := by
  unfold hilbertFromStr
  rcases funCall_checks s with h | h
  · rw [h]; exact .inl rfl
  rw [h]
  cases funCall false s with
  | err e => exact .refl _
  | panic => exact .refl _
  | ok r =>
    obtain ⟨f, args⟩ := r
    dsimp only
    split
    · split
      · rename_i arg
        rcases compression_checks pf arg with h | h
        · rw [h]; exact .inl rfl
        · rw [h]; exact .refl _
      · exact .refl _
    · exact .refl _

theorem zipFromStr_checks (s : List Char) : (zipFromStr true s).PanicOr (zipFromStr false s) := by
  unfold zipFromStr
  rcases funCall_checks s with h | h
  · rw [h]; exact .inl rfl
  · rw [h]; exact .refl _

theorem parse_checks (ud : Char → Bool) (pf : List Char → Option F64) (s : List Char) :
    (anyCodecFromStr true ud pf s).PanicOr (anyCodecFromStr false ud pf s) :=
  end_checks (thenTry_checks _ (thenTry_checks _ (thenTry_checks _ (.inr rfl) (hilbertFromStr_checks pf s)) (.refl _))
    (zipFromStr_checks s))

theorem mainTask_checks (ud : Char → Bool) (pf : List Char → Option F64) (args : List (List Char)) :
    (mainTask true ud pf args).PanicOr (mainTask false ud pf args) := by
  unfold mainTask
  cases trySpecial args with
  | ok t => exact .refl _
  | panic => exact .refl _
  | err e =>
    dsimp only
    unfold tryBench
    cases separateArgs args with
    | err e => exact .refl _
    | panic => exact .refl _
    | ok r =>
      dsimp only
      cases stripPrefix "--codec=".toList r.1 with
      | none => exact .refl _
      | some s =>
        dsimp only
        rcases parse_checks ud pf s with h | h
        · rw [h]; exact .inl rfl
        · rw [h]; exact .refl _

/-! ## Exporting the traversals -/

theorem linearizeSmall_checks (scan : Scan) (img : Img) : NoneOr (linearizeSmall scan true img) (linearizeSmall scan false img) := by
  unfold linearizeSmall
  rcases nextPowerOfTwo_checks img.width.toNat with h | h <;> rcases nextPowerOfTwo_checks img.height.toNat with h' | h' <;>
    simp [h, h', NoneOr]

theorem linearizeLarge_checks (scan : Scan) (img : Img) : NoneOr (linearizeLarge scan true img) (linearizeLarge scan false img) := by
  unfold linearizeLarge
  rcases nextPowerOfTwo_checks img.width.toNat with h | h <;> rcases nextPowerOfTwo_checks img.height.toNat with h' | h' <;>
    simp [h, h', NoneOr]

theorem writeToCsv_checks (disk : Disk) {a b : Option (List Rgba)} (h : NoneOr a b) (path meth : List Char) :
    (writeToCsv disk a path meth).PanicOr (writeToCsv disk b path meth) := by
  rcases h with rfl | rfl
  · exact fun _ => .inl rfl
  · exact .refl _

theorem exportAll_checks (disk : Disk) (scan : Scan) (paths : List (List Char)) :
    (exportAll disk scan true paths).PanicOr (exportAll disk scan false paths) := by
  refine .forEach (fun path s => ?_) paths
  unfold exportImage
  cases disk.opened path with
  | none => exact .inl rfl
  | some img =>
    exact (Proc.PanicOr.bind (.refl _) fun _ => .bind (writeToCsv_checks disk (linearizeSmall_checks scan img) _ _) fun _ =>
      writeToCsv_checks disk (linearizeLarge_checks scan img) _ _) s

/-! ## Runs -/

namespace Run

variable {Node : Type} [DecidableEq Node] {host : Host Node} {p : Setup} {fuel : Nat} {c : AnyCodec}
  {paths : List (List Char)} {faults : Prop} {disk : Node → Option Img}

/-- As long as no work has panicked, a run of a debug build is a run of a release build. -/
theorem reachable_checks {s : Run Node} (h : Reachable host p.debug fuel c paths faults disk s)
    (hn : ∀ i, s.result i ≠ some .panic) : Reachable host p.release fuel c paths faults disk s := by
  induction h with
  | start => exact .start
  | @step s t h hstep ih =>
    cases hstep with
    | read h1 h2 => exact .step (ih hn) (.read h1 h2)
    | @work i path opened h1 h2 h3 =>
      have hi := hn i
      simp only [replaced, if_pos] at hi
      have he : workOn host p.debug fuel c path opened = workOn host p.release fuel c path opened :=
        (workOn_checks host p fuel c path opened).resolve_left fun h => hi (by rw [h])
      have hs : ∀ j, s.result j ≠ some .panic := by
        intro j
        by_cases hj : j = i
        · subst hj; rw [h3]; simp
        · have := hn j
          simpa only [replaced, if_neg hj] using this
      rw [he]
      exact .step (ih hs) (.work h1 h2 h3)
    | report h1 h2 => exact .step (ih hn) (.report h1 h2)

/-- Work that panicked is not reported. -/
theorem panic_not_done {s : Run Node} (h : Reachable host p fuel c paths faults disk s) :
    (∀ i, s.result i = none → s.bench.pc i = .working) ∧
    (∀ i, s.result i = some .panic → s.bench.pc i = .working ∨ s.bench.pc i = .panicked) ∧
    (∀ i, s.result i ≠ none → i < paths.length) := by
  induction h with
  | start => simp [start, Bench.start]
  | @step s t h hstep ih =>
    obtain ⟨ih1, ih2, ih3⟩ := ih
    cases hstep with
    | read h1 h2 => exact ⟨ih1, ih2, ih3⟩
    | @work i path opened h1 h2 h3 =>
      have hi : i < paths.length := (List.getElem?_eq_some_iff.1 h1).1
      refine ⟨fun j hj => ?_, fun j hj => ?_, fun j hj => ?_⟩
      · by_cases hji : j = i
        · subst hji; exact ih1 _ h3
        · simp only [replaced, if_neg hji] at hj; exact ih1 j hj
      · by_cases hji : j = i
        · subst hji; exact .inl (ih1 _ h3)
        · simp only [replaced, if_neg hji] at hj; exact ih2 j hj
      · by_cases hji : j = i
        · subst hji; exact hi
        · simp only [replaced, if_neg hji] at hj; exact ih3 j hj
    | @report b h1 h2 =>
      refine ⟨fun j hj => ?_, fun j hj => ?_, ih3⟩
      · by_cases e : b.pc j = s.bench.pc j
        · show b.pc j = _; rw [e]; exact ih1 j hj
        · exact absurd hj (h2 j e)
      · by_cases e : b.pc j = s.bench.pc j
        · show b.pc j = _ ∨ b.pc j = _; rw [e]; exact ih2 j hj
        · have hb := ih2 j hj
          have hg : (s.result j).getD .panic = .panic := by rw [hj]; rfl
          cases h1 with
          | @fail i e' a1 a2 a3 =>
            by_cases hji : j = i
            · subst hji; rw [hg] at a3; cases a3
            · exact absurd (by simp [Bench.set, hji]) e
          | @panic i a1 a2 a3 =>
            by_cases hji : j = i
            · subst hji; right; simp [Bench.set]
            · exact absurd (by simp [Bench.set, hji]) e
          | @lock i r a1 a2 a3 a4 =>
            by_cases hji : j = i
            · subst hji; rw [hg] at a3; cases a3
            · exact absurd (by simp [Bench.set, hji]) e
          | @header i a1 a2 =>
            by_cases hji : j = i
            · subst hji; rw [a1] at hb; simp at hb
            · exact absurd (by simp [Bench.set, hji]) e
          | @headerFails i a0 a1 a2 =>
            by_cases hji : j = i
            · subst hji; rw [a1] at hb; simp at hb
            · exact absurd (by simp [Bench.set, hji]) e
          | @skip i a1 a2 =>
            by_cases hji : j = i
            · subst hji; rw [a1] at hb; simp at hb
            · exact absurd (by simp [Bench.set, hji]) e
          | @row i r a1 a2 =>
            by_cases hji : j = i
            · subst hji; rw [a1] at hb; simp at hb
            · exact absurd (by simp [Bench.set, hji]) e
          | @rowFails i a0 a1 =>
            by_cases hji : j = i
            · subst hji; rw [a1] at hb; simp at hb
            · exact absurd (by simp [Bench.set, hji]) e

/-- In a run in which all images were worked on, no work panicked. -/
theorem finished_no_panic {s : Run Node} (h : Reachable host p fuel c paths faults disk s)
    (hf : s.bench.Finished paths.length) (i : Nat) : s.result i ≠ some .panic := by
  intro hi
  obtain ⟨-, h2, h3⟩ := panic_not_done h
  obtain ⟨ok, hok⟩ := hf i (h3 i (by rw [hi]; simp))
  rcases h2 i hi with h | h <;> rw [hok] at h <;> cases h

end Run

end Cniic
