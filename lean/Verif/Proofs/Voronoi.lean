import Verif.Proofs.Clusterc

/-! # Proofs: voronoi -/

namespace Cniic
open Spec SerSpec Kmeans Spec.Kmeans

/-! ## The format -/

theorem pos_valid (p : ColorPos) : valid p := trivial

theorem color_pos_bytes_length (p : ColorPos) : (bytes p).length = 19 := rfl

instance : LawfulSer ColorPos where
  emits p _ := by
    show Emits Emits.errOnly (ser p.x >>= fun _ => ser p.y >>= fun _ => ser p.color)
      (bytes p.x ++ bytes p.y ++ bytes p.color) ()
    rw [List.append_assoc]
    exact Emits.bind (LawfulSer.emits p.x trivial)
      (Emits.bind (LawfulSer.emits p.y trivial) (LawfulSer.emits p.color (rgb_valid _)))
  sim R Q n n' hq h := Sim.bind (LawfulSer.sim R Q n n' hq h) fun _ =>
    Sim.bind (LawfulSer.sim R Q n n' hq h) fun _ =>
    Sim.bind (LawfulSer.sim R Q n n' hq h) fun _ => Sim.pure _
  de_bytes p _ rest := by
    show (de listNext >>= fun x => de listNext >>= fun y => de listNext >>= fun color => pure (ColorPos.mk x y color))
      (bytes p.x ++ bytes p.y ++ bytes p.color ++ rest) = _
    rw [List.append_assoc, List.append_assoc, Proc.bind_ok (LawfulSer.de_bytes p.x trivial _),
      Proc.bind_ok (LawfulSer.de_bytes p.y trivial _), Proc.bind_ok (LawfulSer.de_bytes p.color (rgb_valid _) _)]
    rfl
  canon l p r h := by
    obtain ⟨x, s1, h1, h⟩ := bind_ok_inv h
    obtain ⟨y, s2, h2, h⟩ := bind_ok_inv h
    obtain ⟨c, s3, h3, h⟩ := bind_ok_inv h
    cases h
    obtain ⟨-, e1⟩ := LawfulSer.canon _ _ _ h1
    obtain ⟨-, e2⟩ := LawfulSer.canon _ _ _ h2
    obtain ⟨-, e3⟩ := LawfulSer.canon _ _ _ h3
    refine ⟨trivial, ?_⟩
    show l = bytes x ++ bytes y ++ bytes c ++ r
    rw [e1, e2, e3, List.append_assoc, List.append_assoc]
  no_panic l := bind_no_panic (LawfulSer.no_panic l) fun _ _ _ =>
    bind_no_panic (LawfulSer.no_panic _) fun _ _ _ =>
    bind_no_panic (LawfulSer.no_panic _) fun _ _ _ => by simp

/-! ## Arithmetic -/

theorem u32_sub_toNat (a b : UInt32) : ((a - b).toNat : Int) = ((a.toNat : Int) - b.toNat) % 2 ^ 32 := by
  rw [UInt32.toNat_sub]
  have := a.toNat_lt
  have := b.toNat_lt
  omega

/-- Differences that differ by a multiple of 2^32 have squares that do. -/
theorem sq_mod (d : Int) : (d % 2 ^ 32) * (d % 2 ^ 32) % 2 ^ 32 = d * d % 2 ^ 32 := by
  rw [← Int.mul_emod]

theorem sqDist_int (c : ColorPos) (x y : Nat) : (sqDist c x y : Int) =
    ((c.x.toNat : Int) - x) * ((c.x.toNat : Int) - x) + ((c.y.toNat : Int) - y) * ((c.y.toNat : Int) - y) := by
  have h1 : (0:Int) ≤ ((c.x.toNat : Int) - x) * ((c.x.toNat : Int) - x) := by
    rw [← Int.natAbs_mul_self', ← Int.natCast_mul]; exact Int.natCast_nonneg _
  have h2 : (0:Int) ≤ ((c.y.toNat : Int) - y) * ((c.y.toNat : Int) - y) := by
    rw [← Int.natAbs_mul_self', ← Int.natCast_mul]; exact Int.natCast_nonneg _
  unfold sqDist
  rw [Int.pow_succ, Int.pow_succ, Int.pow_zero, Int.one_mul, Int.pow_succ, Int.pow_succ, Int.pow_zero, Int.one_mul]
  omega

theorem pixelKey_false (x y : UInt32) (c : ColorPos) :
    ∃ k, pixelKey false x y c = some k ∧ k.toNat = wrappedSqDist c x.toNat y.toNat := by
  refine ⟨(c.x - x) * (c.x - x) + (c.y - y) * (c.y - y), ?_, ?_⟩
  · simp [pixelKey, u32Sub, u32Sq, u32Add]
  · have hx := u32_sub_toNat c.x x
    have hy := u32_sub_toNat c.y y
    have hd := sqDist_int c x.toNat y.toNat
    rw [wrappedSqDist, UInt32.toNat_add, UInt32.toNat_mul, UInt32.toNat_mul]
    apply Int.ofNat_inj.1
    rw [Int.natCast_emod, Int.natCast_emod, Int.natCast_add, Int.natCast_emod, Int.natCast_emod, Int.natCast_mul,
      Int.natCast_mul, hx, hy, hd]
    have e : ((2 ^ 32 : Nat) : Int) = 2 ^ 32 := rfl
    rw [e, sq_mod, sq_mod, ← Int.add_emod]

theorem pixelKey_true (x y : UInt32) (c : ColorPos)
    (h : x.toNat ≤ c.x.toNat ∧ y.toNat ≤ c.y.toNat ∧ sqDist c x.toNat y.toNat < 2 ^ 32) :
    ∃ k, pixelKey true x y c = some k ∧ k.toNat = sqDist c x.toNat y.toNat := by
  obtain ⟨hx, hy, hd⟩ := h
  have hi := sqDist_int c x.toNat y.toNat
  have ex : (c.x - x).toNat = c.x.toNat - x.toNat := UInt32.toNat_sub_of_le _ _ (UInt32.le_iff_toNat_le.2 hx)
  have ey : (c.y - y).toNat = c.y.toNat - y.toNat := UInt32.toNat_sub_of_le _ _ (UInt32.le_iff_toNat_le.2 hy)
  have hi' : sqDist c x.toNat y.toNat = (c.x - x).toNat * (c.x - x).toNat + (c.y - y).toNat * (c.y - y).toNat := by
    have h1 : ((c.x - x).toNat : Int) = (c.x.toNat : Int) - x.toNat := by omega
    have h2 : ((c.y - y).toNat : Int) = (c.y.toNat : Int) - y.toNat := by omega
    apply Int.ofNat_inj.1
    rw [hi, Int.natCast_add, Int.natCast_mul, Int.natCast_mul, h1, h2]
  rw [hi'] at hd ⊢
  have p1 : ((c.x - x) * (c.x - x)).toNat = (c.x - x).toNat * (c.x - x).toNat := by
    rw [UInt32.toNat_mul, Nat.mod_eq_of_lt (by omega)]
  have p2 : ((c.y - y) * (c.y - y)).toNat = (c.y - y).toNat * (c.y - y).toNat := by
    rw [UInt32.toNat_mul, Nat.mod_eq_of_lt (by omega)]
  refine ⟨(c.x - x) * (c.x - x) + (c.y - y) * (c.y - y), ?_, ?_⟩
  · have s1 : u32Sub true c.x x = some (c.x - x) := by
      rw [u32Sub, if_neg]; simp only [Bool.true_and, decide_eq_true_eq]; omega
    have s2 : u32Sub true c.y y = some (c.y - y) := by
      rw [u32Sub, if_neg]; simp only [Bool.true_and, decide_eq_true_eq]; omega
    have q1 : u32Sq true (c.x - x) = some ((c.x - x) * (c.x - x)) := by
      rw [u32Sq, if_neg]; simp only [Bool.true_and, decide_eq_true_eq]; omega
    have q2 : u32Sq true (c.y - y) = some ((c.y - y) * (c.y - y)) := by
      rw [u32Sq, if_neg]; simp only [Bool.true_and, decide_eq_true_eq]; omega
    have a1 : u32Add true ((c.x - x) * (c.x - x)) ((c.y - y) * (c.y - y)) =
        some ((c.x - x) * (c.x - x) + (c.y - y) * (c.y - y)) := by
      rw [u32Add, if_neg]; simp only [Bool.true_and, decide_eq_true_eq]; omega
    simp only [pixelKey, s1, s2, q1, q2, Option.bind_eq_bind, Option.bind_some, a1]
  · rw [UInt32.toNat_add, p1, p2, Nat.mod_eq_of_lt (by omega)]

theorem pixelKey_none (x y : UInt32) (c : ColorPos)
    (h : ¬ (x.toNat ≤ c.x.toNat ∧ y.toNat ≤ c.y.toNat ∧ sqDist c x.toNat y.toNat < 2 ^ 32)) :
    pixelKey true x y c = none := by
  cases hk : pixelKey true x y c with
  | none => rfl
  | some k =>
    exfalso
    apply h
    unfold pixelKey at hk
    simp only [Option.bind_eq_bind, Option.bind_eq_some_iff] at hk
    obtain ⟨dx, h1, dx2, h2, dy, h3, dy2, h4, h5⟩ := hk
    unfold u32Sub at h1 h3
    unfold u32Sq at h2 h4
    unfold u32Add at h5
    simp only [Bool.true_and, decide_eq_true_eq] at h1 h2 h3 h4 h5
    split at h1
    · cases h1
    split at h3
    · cases h3
    split at h2
    · cases h2
    split at h4
    · cases h4
    split at h5
    · cases h5
    cases h1; cases h2; cases h3; cases h4
    rename_i hx hy q1 q2 q3
    have hx : x.toNat ≤ c.x.toNat := by omega
    have hy : y.toNat ≤ c.y.toNat := by omega
    refine ⟨hx, hy, ?_⟩
    have ex : (c.x - x).toNat = c.x.toNat - x.toNat := UInt32.toNat_sub_of_le _ _ (UInt32.le_iff_toNat_le.2 hx)
    have ey : (c.y - y).toNat = c.y.toNat - y.toNat := UInt32.toNat_sub_of_le _ _ (UInt32.le_iff_toNat_le.2 hy)
    rw [UInt32.toNat_mul, UInt32.toNat_mul, Nat.mod_eq_of_lt (by omega), Nat.mod_eq_of_lt (by omega)] at q3
    have hi := sqDist_int c x.toNat y.toNat
    have h1 : ((c.x - x).toNat : Int) = (c.x.toNat : Int) - x.toNat := by omega
    have h2 : ((c.y - y).toNat : Int) = (c.y.toNat : Int) - y.toNat := by omega
    rw [← h1, ← h2, ← Int.natCast_mul, ← Int.natCast_mul, ← Int.natCast_add] at hi
    have := Int.ofNat_inj.1 hi
    omega

/-! ## The nearest centroid -/

theorem minByKey_ok {α : Type} {key : α → Option UInt32} {f : α → Nat} (l : List α) (best : α) (k : UInt32)
    (hk : k.toNat = f best) (h : ∀ a ∈ l, ∃ k, key a = some k ∧ k.toNat = f a) :
    ∃ b, minByKey key l best k = some b ∧ IsFirstMin f (best :: l) b := by
  induction l generalizing best k with
  | nil => exact ⟨best, rfl, [], [], rfl, by simp, by simp⟩
  | cons a l ih =>
    obtain ⟨k', h1, h2⟩ := h a (by simp)
    have hrest : ∀ a ∈ l, ∃ k, key a = some k ∧ k.toNat = f a := fun b hb => h b (by simp [hb])
    rw [minByKey, h1]
    simp only [Option.bind_eq_bind, Option.bind_some]
    split
    · rename_i hlt
      obtain ⟨b, e1, l1, l2, e2, e3, e4⟩ := ih a k' h2 hrest
      refine ⟨b, e1, best :: l1, l2, by rw [e2]; rfl, ?_, e4⟩
      intro c hc
      rcases List.mem_cons.1 hc with rfl | hc
      · cases l1 with
        | nil => cases e2; omega
        | cons d l1 =>
          cases e2
          have := e3 a (by simp)
          omega
      · exact e3 c hc
    · rename_i hge
      obtain ⟨b, e1, l1, l2, e2, e3, e4⟩ := ih best k hk hrest
      refine ⟨b, e1, ?_⟩
      cases l1 with
      | nil =>
        cases e2
        refine ⟨[], a :: l, rfl, by simp, ?_⟩
        intro c hc
        rcases List.mem_cons.1 hc with rfl | hc
        · omega
        · exact e4 c hc
      | cons d l1 =>
        cases e2
        refine ⟨best :: a :: l1, l2, rfl, ?_, e4⟩
        have hb := e3 best (by simp)
        intro c hc
        rcases List.mem_cons.1 hc with rfl | hc
        · exact hb
        rcases List.mem_cons.1 hc with rfl | hc
        · omega
        · exact e3 c (by simp [hc])

theorem minByKey_none {α : Type} {key : α → Option UInt32} (l : List α) (best : α) (k : UInt32) {a : α}
    (ha : a ∈ l) (h : key a = none) : minByKey key l best k = none := by
  induction l generalizing best k with
  | nil => cases ha
  | cons b l ih =>
    rw [minByKey]
    rcases List.mem_cons.1 ha with rfl | ha
    · rw [h]; rfl
    · cases hb : key b with
      | none => rfl
      | some k' =>
        simp only [Option.bind_eq_bind, Option.bind_some]
        split <;> exact ih _ _ ha

theorem pixelColor_ok {chk : Bool} {f : ColorPos → Nat} {cs : List ColorPos} (hne : cs ≠ []) {x y : UInt32}
    (h : ∀ c ∈ cs, ∃ k, pixelKey chk x y c = some k ∧ k.toNat = f c) :
    ∃ b, pixelColor chk cs x y = some b.color ∧ IsFirstMin f cs b := by
  cases cs with
  | nil => exact absurd rfl hne
  | cons c cs =>
    obtain ⟨k, h1, h2⟩ := h c (by simp)
    obtain ⟨b, e1, e2⟩ := minByKey_ok cs c k h2 fun a ha => h a (by simp [ha])
    refine ⟨b, ?_, e2⟩
    simp [pixelColor, h1, e1]

theorem pixelColor_none {chk : Bool} {cs : List ColorPos} {x y : UInt32} {c : ColorPos} (hc : c ∈ cs)
    (h : pixelKey chk x y c = none) : pixelColor chk cs x y = none := by
  cases cs with
  | nil => cases hc
  | cons d cs =>
    cases hd : pixelKey chk x y d with
    | none => simp [pixelColor, hd]
    | some k =>
      rcases List.mem_cons.1 hc with rfl | hc
      · rw [h] at hd; cases hd
      · simp [pixelColor, hd, minByKey_none cs d k hc h]

/-! ## Decoding -/

theorem voronoiDecode_eq (chk : Bool) (w h : UInt32) (cs : List ColorPos) (rest : List UInt8)
    (ha : 3 * (w.toNat * h.toNat) < 2 ^ 63) (hl : cs.length < 2 ^ 64) :
    voronoiDecode chk (voronoiBytes w h cs ++ rest) =
      match optMap (fun i => pixelColor chk cs (UInt32.ofNat (i % w.toNat)) (UInt32.ofNat (i / w.toNat)))
        (List.range (w.toNat * h.toNat)) with
      | some px => .ok { width := w, height := h, pixels := px }
      | none => .panic := by
  unfold voronoiDecode voronoiBytes
  have hd := LawfulSer.de_bytes (w, h) (dims_valid w h)
  have e : bytes w ++ bytes h = bytes (w, h) := rfl
  rw [e, List.append_assoc, List.append_assoc, Proc.run, Proc.bind_ok (hd _)]
  have hnew : RgbImage.new w h = some
      { width := w, height := h, pixels := List.replicate (w.toNat * h.toNat) black } := if_pos ha
  dsimp only
  rw [hnew]
  simp only [orPanic]
  rw [← usize_bytes _ hl, Proc.bind_ok (show (pure (RgbImage.mk w h (List.replicate (w.toNat * h.toNat) black)) :
      Rd (List UInt8) RgbImage) _ = (.ok _, _) from rfl), Proc.bind_ok (LawfulSer.de_bytes _ trivial _)]
  dsimp only
  rw [UInt64.toNat_ofNat_of_lt' (by simpa using hl),
    Proc.bind_ok (readN_bytes cs (fun _ _ => trivial) rest)]
  cases optMap (fun i => pixelColor chk cs (UInt32.ofNat (i % w.toNat)) (UInt32.ofNat (i / w.toNat)))
        (List.range (w.toNat * h.toNat)) <;> rfl

/-- Cut files are rejected. -/
theorem voronoiDecode_err (chk : Bool) (p : List UInt8)
    (hd : ∀ (d : UInt32 × UInt32) s, (de listNext p : Ret Unit _ × List UInt8) = (.ok d, s) → RgbImage.new d.1 d.2 ≠ none)
    (h : (de listNext p : Ret Unit ((UInt32 × UInt32) × List ColorPos) × List UInt8).1 = .err ()) :
    voronoiDecode chk p = .err () := by
  have key : (de listNext p : Ret Unit ((UInt32 × UInt32) × List ColorPos) × List UInt8) =
      ((de listNext : Rd (List UInt8) (UInt32 × UInt32)) >>= fun d =>
        ((de listNext : Rd (List UInt8) Usize) >>= fun n => (readN listNext n.val.toNat : Rd _ (List ColorPos))) >>=
          fun cs => pure (d, cs)) p := rfl
  rw [key] at h
  unfold voronoiDecode Proc.run
  rcases h1 : (de listNext p : Ret Unit (UInt32 × UInt32) × List UInt8) with ⟨d | e | _, s⟩
  · rw [Proc.bind_ok h1] at h ⊢
    cases hn : RgbImage.new d.1 d.2 with
    | none => exact absurd hn (hd d s h1)
    | some im =>
      simp only [orPanic]
      rw [Proc.bind_ok (show (pure im : Rd (List UInt8) RgbImage) _ = (.ok _, _) from rfl)]
      rcases h2 : (de listNext s : Ret Unit Usize × List UInt8) with ⟨n | e | _, s2⟩
      · rw [Proc.bind_ok h2]
        rcases h3 : (readN listNext n.val.toNat s2 : Ret Unit (List ColorPos) × List UInt8) with ⟨cs | e | _, s3⟩
        · rw [Proc.bind_ok (show ((de listNext : Rd (List UInt8) Usize) >>= fun n =>
            (readN listNext n.val.toNat : Rd _ (List ColorPos))) s = (.ok cs, s3) from by rw [Proc.bind_ok h2, h3])] at h
          cases h
        · rw [Proc.bind_err h3]
        · exact absurd (by rw [h3]) (readN_no_panic (α := ColorPos) n.val.toNat s2)
      · rw [Proc.bind_err h2]
      · exact absurd (by rw [h2]) (LawfulSer.no_panic (α := Usize) s)
  · rw [Proc.bind_err h1]
  · exact absurd (by rw [h1]) (LawfulSer.no_panic (α := UInt32 × UInt32) p)

theorem voronoiBytes_eq (w h : UInt32) (cs : List ColorPos) : voronoiBytes w h cs = bytes ((w, h), cs) := by
  unfold voronoiBytes
  rw [List.append_assoc]; rfl

/-! ## The mean of some pixels -/

theorem posSums_eq (chk : Bool) (l : List ColorPos) (acc : UInt64 × UInt64 × UInt64 × UInt64 × UInt64)
    (hx : acc.1.toNat + (l.map fun p => p.x.toNat).sum < 2 ^ 64)
    (hy : acc.2.1.toNat + (l.map fun p => p.y.toNat).sum < 2 ^ 64)
    (hr : acc.2.2.1.toNat + (l.map fun p => p.color.r.toNat).sum < 2 ^ 64)
    (hg : acc.2.2.2.1.toNat + (l.map fun p => p.color.g.toNat).sum < 2 ^ 64)
    (hb : acc.2.2.2.2.toNat + (l.map fun p => p.color.b.toNat).sum < 2 ^ 64) :
    ∃ x y r g b, posSums chk l acc = some (x, y, r, g, b) ∧
      x.toNat = acc.1.toNat + (l.map fun p => p.x.toNat).sum ∧
      y.toNat = acc.2.1.toNat + (l.map fun p => p.y.toNat).sum ∧
      r.toNat = acc.2.2.1.toNat + (l.map fun p => p.color.r.toNat).sum ∧
      g.toNat = acc.2.2.2.1.toNat + (l.map fun p => p.color.g.toNat).sum ∧
      b.toNat = acc.2.2.2.2.toNat + (l.map fun p => p.color.b.toNat).sum := by
  induction l generalizing acc with
  | nil =>
    obtain ⟨x, y, r, g, b⟩ := acc
    exact ⟨x, y, r, g, b, rfl, by simp, by simp, by simp, by simp, by simp⟩
  | cons p l ih =>
    obtain ⟨x, y, r, g, b⟩ := acc
    simp only [List.map_cons, List.sum_cons] at hx hy hr hg hb ⊢
    have c32 : ∀ n : UInt32, (UInt64.ofNat n.toNat).toNat = n.toNat := by
      intro n
      have := n.toNat_lt
      rw [UInt64.toNat_ofNat', Nat.mod_eq_of_lt (by omega)]
    have c8 : ∀ n : UInt8, (UInt64.ofNat n.toNat).toNat = n.toNat := by
      intro n
      have := n.toNat_lt
      rw [UInt64.toNat_ofNat', Nat.mod_eq_of_lt (by omega)]
    obtain ⟨x1, x2⟩ := u64Add_eq chk x (UInt64.ofNat p.x.toNat) (by rw [c32]; omega)
    obtain ⟨y1, y2⟩ := u64Add_eq chk y (UInt64.ofNat p.y.toNat) (by rw [c32]; omega)
    obtain ⟨r1, r2⟩ := u64Add_eq chk r (UInt64.ofNat p.color.r.toNat) (by rw [c8]; omega)
    obtain ⟨g1, g2⟩ := u64Add_eq chk g (UInt64.ofNat p.color.g.toNat) (by rw [c8]; omega)
    obtain ⟨b1, b2⟩ := u64Add_eq chk b (UInt64.ofNat p.color.b.toNat) (by rw [c8]; omega)
    rw [c32] at x2 y2
    rw [c8] at r2 g2 b2
    obtain ⟨x', y', r', g', b', e, ex, ey, er, eg, eb⟩ := ih (_, _, _, _, _)
      (by rw [x2]; omega) (by rw [y2]; omega) (by rw [r2]; omega) (by rw [g2]; omega) (by rw [b2]; omega)
    refine ⟨x', y', r', g', b', ?_, ?_, ?_, ?_, ?_, ?_⟩
    · rw [posSums]
      simp only [x1, y1, r1, g1, b1, Option.bind_eq_bind, Option.bind_some]
      exact e
    · rw [ex, x2]; omega
    · rw [ey, y2]; omega
    · rw [er, r2]; omega
    · rw [eg, g2]; omega
    · rw [eb, b2]; omega

theorem sum_le_length {α : Type} (f : α → Nat) (k : Nat) (l : List α) (h : ∀ a ∈ l, f a ≤ k) :
    (l.map f).sum ≤ k * l.length := by
  induction l with
  | nil => simp
  | cons a l ih =>
    have := ih fun b hb => h b (by simp [hb])
    have := h a (by simp)
    rw [List.map_cons, List.sum_cons, List.length_cons, Nat.mul_add]
    omega

/-- The mean of pixels: of the positions and of the colours, rounded down. -/
theorem pos_mean_ok (chk : Bool) (l : List ColorPos) (hne : l ≠ [])
    (hsx : (l.map fun p => p.x.toNat).sum < 2 ^ 64) (hsy : (l.map fun p => p.y.toNat).sum < 2 ^ 64)
    (hlt : 255 * l.length < 2 ^ 64) :
    ∃ c, ColorPos.mean chk l = .ok c ∧
      c.x.toNat = (l.map fun p => p.x.toNat).sum / l.length ∧
      c.y.toNat = (l.map fun p => p.y.toNat).sum / l.length ∧
      c.color = floorMean (l.map (·.color)) := by
  have b32 : ∀ f : ColorPos → UInt32, (l.map fun p => (f p).toNat).sum ≤ (2 ^ 32 - 1) * l.length := fun f =>
    sum_le_length _ _ _ fun a _ => by have := (f a).toNat_lt; omega
  have b8 : ∀ f : ColorPos → UInt8, (l.map fun p => (f p).toNat).sum ≤ 255 * l.length := fun f =>
    sum_le_length _ _ _ fun a _ => by have := (f a).toNat_lt; omega
  have hx := b32 (·.x)
  have hy := b32 (·.y)
  have hr := b8 (·.color.r)
  have hg := b8 (·.color.g)
  have hb := b8 (·.color.b)
  have zero : (0 : UInt64).toNat = 0 := rfl
  obtain ⟨x, y, r, g, b, e, ex, ey, er, eg, eb⟩ := posSums_eq chk l (0, 0, 0, 0, 0)
    (by rw [zero]; omega) (by dsimp only; rw [zero]; omega) (by dsimp only; rw [zero]; omega)
    (by dsimp only; rw [zero]; omega) (by dsimp only; rw [zero]; omega)
  dsimp only at ex ey er eg eb
  rw [zero, Nat.zero_add] at ex ey er eg eb
  have hpos : 0 < l.length := List.length_pos_iff.2 hne
  have en : (UInt64.ofNat l.length).toNat = l.length := by
    rw [UInt64.toNat_ofNat', Nat.mod_eq_of_lt (by omega)]
  have q32 : ∀ a : UInt64, a.toNat ≤ (2 ^ 32 - 1) * l.length →
      (a / UInt64.ofNat l.length).toUInt32.toNat = a.toNat / l.length := by
    intro a ha
    rw [UInt64.toNat_toUInt32, UInt64.toNat_div, en]
    apply Nat.mod_eq_of_lt
    apply Nat.lt_of_le_of_lt (Nat.div_le_of_le_mul (n := 2 ^ 32 - 1) (by rw [Nat.mul_comm]; exact ha))
    omega
  refine ⟨ColorPos.mk (x / UInt64.ofNat l.length).toUInt32 (y / UInt64.ofNat l.length).toUInt32
    ⟨(r / UInt64.ofNat l.length).toUInt8, (g / UInt64.ofNat l.length).toUInt8,
      (b / UInt64.ofNat l.length).toUInt8⟩, ?_, ?_, ?_, ?_⟩
  · rw [ColorPos.mean, if_neg (by omega), e]
  · dsimp only
    rw [q32 x (by omega), ex]
  · dsimp only
    rw [q32 y (by omega), ey]
  · simp only [u64_div_toUInt8, en, er, eg, eb, floorMean, List.map_map, List.length_map]
    rfl

theorem pos_mean_single (chk : Bool) (p : ColorPos) : ColorPos.mean chk [p] = .ok p := by
  obtain ⟨c, h1, h2, h3, h4⟩ := pos_mean_ok chk [p] (by simp)
    (by have := p.x.toNat_lt; simp; omega) (by have := p.y.toNat_lt; simp; omega) (by rw [List.length_singleton]; decide)
  rw [h1]
  congr 1
  obtain ⟨cx, cy, cc⟩ := c
  obtain ⟨px, py, pc⟩ := p
  simp only [List.map_cons, List.map_nil, List.sum_cons, List.sum_nil, Nat.add_zero, List.length_singleton,
    Nat.div_one, UInt32.toNat_inj] at h2 h3
  simp only [floorMean, List.map_cons, List.map_nil, List.sum_cons, List.sum_nil, Nat.add_zero,
    List.length_singleton, Nat.div_one, UInt8.ofNat_toNat] at h4
  rw [h2, h3, h4]

theorem pos_mean_err (chk : Bool) (l : List ColorPos) : ColorPos.mean chk l = .err () ↔ l = [] := by
  unfold ColorPos.mean
  cases l with
  | nil => simp
  | cons p l =>
    simp only [List.length_cons, Nat.add_one_ne_zero, if_false, reduceCtorEq, iff_false]
    cases posSums chk (p :: l) (0, 0, 0, 0, 0) with
    | none => simp
    | some s => obtain ⟨x, y, r, g, b⟩ := s; simp

theorem pos_meanOfSome (o : Outside) (chk : Bool) : MeanOfSome (posEnv o chk).pt := pos_mean_err chk

/-! ## The pixels -/

theorem dataPoints_length (img : Img) : (dataPoints img).length = img.pixels.length := by
  rw [dataPoints, List.length_map, List.length_zipIdx, Img.rgbPixels, List.length_map]

theorem dataPoints_get (img : Img) (i : Nat) : (dataPoints img)[i]? =
    (img.rgbPixels[i]?).map fun c =>
      { x := UInt32.ofNat (i % img.width.toNat), y := UInt32.ofNat (i / img.width.toNat), color := c } := by
  rw [dataPoints, List.getElem?_map, List.getElem?_zipIdx]
  cases img.rgbPixels[i]? <;> simp

theorem dataPoints_pos (img : Img) {i : Nat} {p : ColorPos} (h : (dataPoints img)[i]? = some p) :
    i < img.width.toNat * img.height.toNat ∧ p.x.toNat = i % img.width.toNat ∧ p.y.toNat = i / img.width.toNat ∧
      p.x.toNat < img.width.toNat ∧ p.y.toNat < img.height.toNat := by
  have hlt := (List.getElem?_eq_some_iff.1 h).1
  rw [dataPoints_length, img.size] at hlt
  rw [dataPoints_get] at h
  cases hc : img.rgbPixels[i]? with
  | none => rw [hc] at h; cases h
  | some c =>
    rw [hc] at h
    cases h
    have hw : 0 < img.width.toNat := Nat.pos_of_ne_zero (by intro h; rw [h] at hlt; simp at hlt)
    have hmod := Nat.mod_lt i hw
    have hdiv : i / img.width.toNat < img.height.toNat := Nat.div_lt_of_lt_mul hlt
    have hwl := img.width.toNat_lt
    have hhl := img.height.toNat_lt
    dsimp only
    rw [UInt32.toNat_ofNat', UInt32.toNat_ofNat', Nat.mod_eq_of_lt (a := i % _) (by omega),
      Nat.mod_eq_of_lt (a := i / _) (by omega)]
    exact ⟨hlt, rfl, rfl, hmod, hdiv⟩

theorem dataPoints_inside (img : Img) : ∀ p ∈ dataPoints img,
    p.x.toNat < img.width.toNat ∧ p.y.toNat < img.height.toNat := by
  intro p hp
  obtain ⟨i, hi⟩ := List.mem_iff_getElem?.1 hp
  exact (dataPoints_pos img hi).2.2.2

/-- Different pixels have different positions. -/
theorem dataPoints_nodup (img : Img) : ((dataPoints img).map fun p => (p.x, p.y)).Nodup := by
  unfold List.Nodup
  rw [List.pairwise_iff_getElem]
  intro i j hi hj hij heq
  rw [List.length_map] at hi hj
  rw [List.getElem_map, List.getElem_map] at heq
  simp only [Prod.mk.injEq] at heq
  obtain ⟨-, a1, a2, -⟩ := dataPoints_pos img (List.getElem?_eq_getElem hi)
  obtain ⟨-, b1, b2, -⟩ := dataPoints_pos img (List.getElem?_eq_getElem hj)
  rw [heq.1] at a1
  rw [heq.2] at a2
  have h1 := Nat.div_add_mod i img.width.toNat
  have h2 := Nat.div_add_mod j img.width.toNat
  rw [← a2, ← a1] at h1
  rw [← b2, ← b1] at h2
  omega

theorem Spec.SumsFit.of_small {img : Img} (h : img.pixels.length < 2 ^ 32) : SumsFit img := by
  have hw := img.width.toNat_lt
  have hh := img.height.toNat_lt
  refine ⟨?_, ?_⟩
  · have := Nat.mul_le_mul (show img.width.toNat ≤ 2 ^ 32 - 1 by omega) (show img.pixels.length ≤ 2 ^ 32 by omega)
    omega
  · have := Nat.mul_le_mul (show img.height.toNat ≤ 2 ^ 32 - 1 by omega) (show img.pixels.length ≤ 2 ^ 32 by omega)
    omega

theorem Spec.SumsFit.colors {img : Img} (h : SumsFit img) : 255 * img.pixels.length < 2 ^ 64 := by
  obtain ⟨h1, h2⟩ := h
  by_cases hw : 255 ≤ img.width.toNat
  · exact Nat.lt_of_le_of_lt (Nat.mul_le_mul_right _ hw) h1
  by_cases hh : 255 ≤ img.height.toNat
  · exact Nat.lt_of_le_of_lt (Nat.mul_le_mul_right _ hh) h2
  · rw [img.size]
    have := Nat.mul_le_mul (show img.width.toNat ≤ 255 by omega) (show img.height.toNat ≤ 255 by omega)
    omega

theorem part_length {T : Type} {l points : List T} (h : Part l points) : l.length ≤ points.length := by
  obtain ⟨rest, hp⟩ := h
  rw [← hp.length_eq, List.length_append]; omega

/-- The mean of some pixels of an image. -/
theorem pos_mean_part (chk : Bool) {img : Img} (hfit : SumsFit img) {l : List ColorPos} (hl : Part l (dataPoints img))
    (hne : l ≠ []) :
    ∃ c, ColorPos.mean chk l = .ok c ∧
      c.x.toNat = (l.map fun p => p.x.toNat).sum / l.length ∧
      c.y.toNat = (l.map fun p => p.y.toNat).sum / l.length ∧
      c.color = floorMean (l.map (·.color)) := by
  have hlen := part_length hl
  rw [dataPoints_length] at hlen
  have hin : ∀ p ∈ l, p.x.toNat < img.width.toNat ∧ p.y.toNat < img.height.toNat := fun p hp =>
    dataPoints_inside img p (part_mem hl p hp)
  apply pos_mean_ok chk l hne
  · exact Nat.lt_of_le_of_lt (Nat.le_trans (sum_le_length (fun p : ColorPos => p.x.toNat) img.width.toNat l
      fun a ha => Nat.le_of_lt (hin a ha).1) (Nat.mul_le_mul_left _ hlen)) hfit.1
  · exact Nat.lt_of_le_of_lt (Nat.le_trans (sum_le_length (fun p : ColorPos => p.y.toNat) img.height.toNat l
      fun a ha => Nat.le_of_lt (hin a ha).2) (Nat.mul_le_mul_left _ hlen)) hfit.2
  · have := hfit.colors
    omega

/-- Means of pixels of an image lie in the image. -/
theorem pos_closed (o : Outside) (chk : Bool) (img : Img) (hfit : SumsFit img) :
    Closed (posEnv o chk).pt (fun p => p.x.toNat < img.width.toNat ∧ p.y.toNat < img.height.toNat)
      (dataPoints img) where
  inputs := dataPoints_inside img
  means l c hl h := by
    have h : ColorPos.mean chk l = .ok c := h
    have hne : l ≠ [] := by
      rintro rfl
      rw [(pos_mean_err chk []).2 rfl] at h
      cases h
    have hpos : 0 < l.length := List.length_pos_iff.2 hne
    obtain ⟨c', h1, h2, h3, -⟩ := pos_mean_part chk hfit hl hne
    rw [h] at h1
    cases h1
    have hin : ∀ p ∈ l, p.x.toNat < img.width.toNat ∧ p.y.toNat < img.height.toNat := fun p hp =>
      dataPoints_inside img p (part_mem hl p hp)
    obtain ⟨p, hp⟩ := List.exists_mem_of_ne_nil l hne
    have hx := sum_le_length (fun p : ColorPos => p.x.toNat) (img.width.toNat - 1) l
      fun a ha => by have := (hin a ha).1; omega
    have hy := sum_le_length (fun p : ColorPos => p.y.toNat) (img.height.toNat - 1) l
      fun a ha => by have := (hin a ha).2; omega
    have hp' := hin p hp
    have qx := Nat.div_le_of_le_mul (by rw [Nat.mul_comm] at hx; exact hx)
    have qy := Nat.div_le_of_le_mul (by rw [Nat.mul_comm] at hy; exact hy)
    omega

theorem posSums_false (l : List ColorPos) (acc : UInt64 × UInt64 × UInt64 × UInt64 × UInt64) :
    posSums false l acc ≠ none := by
  induction l generalizing acc with
  | nil => intro h; cases h
  | cons p l ih =>
    obtain ⟨x, y, r, g, b⟩ := acc
    simp only [posSums, u64Add, Bool.false_and, Bool.false_eq_true, if_false, Option.bind_eq_bind, Option.bind_some]
    exact ih _

/-- Without overflow checks the sums of coordinates do not touch those of colours. -/
theorem posSums_colors (l : List ColorPos) (x y r g b : UInt64)
    (hr : r.toNat + (l.map fun p => p.color.r.toNat).sum < 2 ^ 64)
    (hg : g.toNat + (l.map fun p => p.color.g.toNat).sum < 2 ^ 64)
    (hb : b.toNat + (l.map fun p => p.color.b.toNat).sum < 2 ^ 64) :
    ∃ x' y' r' g' b', posSums false l (x, y, r, g, b) = some (x', y', r', g', b') ∧
      r'.toNat = r.toNat + (l.map fun p => p.color.r.toNat).sum ∧
      g'.toNat = g.toNat + (l.map fun p => p.color.g.toNat).sum ∧
      b'.toNat = b.toNat + (l.map fun p => p.color.b.toNat).sum := by
  induction l generalizing x y r g b with
  | nil => exact ⟨x, y, r, g, b, rfl, by simp, by simp, by simp⟩
  | cons p l ih =>
    simp only [List.map_cons, List.sum_cons] at hr hg hb ⊢
    have c8 : ∀ n : UInt8, (UInt64.ofNat n.toNat).toNat = n.toNat := by
      intro n
      have := n.toNat_lt
      rw [UInt64.toNat_ofNat', Nat.mod_eq_of_lt (by omega)]
    have r2 := (u64Add_eq false r (UInt64.ofNat p.color.r.toNat) (by rw [c8]; omega)).2
    have g2 := (u64Add_eq false g (UInt64.ofNat p.color.g.toNat) (by rw [c8]; omega)).2
    have b2 := (u64Add_eq false b (UInt64.ofNat p.color.b.toNat) (by rw [c8]; omega)).2
    rw [c8] at r2 g2 b2
    obtain ⟨x', y', r', g', b', e, er, eg, eb⟩ := ih (x + UInt64.ofNat p.x.toNat) (y + UInt64.ofNat p.y.toNat)
      (r + UInt64.ofNat p.color.r.toNat) (g + UInt64.ofNat p.color.g.toNat) (b + UInt64.ofNat p.color.b.toNat)
      (by rw [r2]; omega) (by rw [g2]; omega) (by rw [b2]; omega)
    refine ⟨x', y', r', g', b', ?_, by omega, by omega, by omega⟩
    simp only [posSums, u64Add, Bool.false_and, Bool.false_eq_true, if_false, Option.bind_eq_bind, Option.bind_some]
    exact e

theorem pos_mean_colors (l : List ColorPos) (hne : l ≠ []) (hlt : 255 * l.length < 2 ^ 64) :
    ∃ c, ColorPos.mean false l = .ok c ∧ c.color = floorMean (l.map (·.color)) := by
  have b8 : ∀ f : ColorPos → UInt8, (0 : UInt64).toNat + (l.map fun p => (f p).toNat).sum < 2 ^ 64 := by
    intro f
    have := sum_le_length (fun p => (f p).toNat) 255 l fun a _ => by have := (f a).toNat_lt; omega
    rw [show (0 : UInt64).toNat = 0 from rfl]
    omega
  obtain ⟨x, y, r, g, b, e, er, eg, eb⟩ := posSums_colors l 0 0 0 0 0 (b8 (·.color.r)) (b8 (·.color.g)) (b8 (·.color.b))
  rw [show (0 : UInt64).toNat = 0 from rfl, Nat.zero_add] at er eg eb
  have hpos : 0 < l.length := List.length_pos_iff.2 hne
  have en : (UInt64.ofNat l.length).toNat = l.length := by
    rw [UInt64.toNat_ofNat', Nat.mod_eq_of_lt (by omega)]
  refine ⟨_, by rw [ColorPos.mean, if_neg (by omega), e], ?_⟩
  simp only [u64_div_toUInt8, en, er, eg, eb, floorMean, List.map_map, List.length_map]
  rfl

/-- Without overflow checks nothing panics. -/
theorem pos_total (o : Outside) (points : List ColorPos) :
    Total (posEnv o false).pt (fun _ => True) points where
  inputs _ _ := trivial
  means _ _ _ _ := trivial
  dist a b _ _ := by
    show ColorPos.dist o.fl false a b ≠ none
    simp [ColorPos.dist, u32Sub, u32Sq]
  one a _ := by
    show ColorPos.mean false [a] ≠ .panic
    rw [pos_mean_single]; simp
  mean l hl := by
    show ColorPos.mean false l ≠ .panic
    unfold ColorPos.mean
    split
    · simp
    · split
      · rename_i h; exact absurd h (posSums_false l _)
      · simp
  single a := by
    show ColorPos.mean false [a] ≠ .err ()
    rw [pos_mean_single]; simp

/-! ## With overflow checks -/

/-- With overflow checks, distances exist in one direction only. -/
theorem checked_dist {fl : FloatOps} {a b : ColorPos} (h : ColorPos.dist fl true a b ≠ none) :
    b.x.toNat ≤ a.x.toNat ∧ b.y.toNat ≤ a.y.toNat := by
  unfold ColorPos.dist at h
  constructor
  · apply Nat.le_of_not_lt
    intro hlt
    apply h
    have : u32Sub true a.x b.x = none := by
      rw [u32Sub, if_pos]; simpa using hlt
    rw [this]; rfl
  · apply Nat.le_of_not_lt
    intro hlt
    apply h
    have : u32Sub true a.y b.y = none := by
      rw [u32Sub, if_pos]; simpa using hlt
    rw [this]
    cases u32Sub true a.x b.x with
    | none => rfl
    | some d =>
      simp only [Option.bind_eq_bind, Option.bind_some]
      cases u32Sq true d <;> rfl

theorem initCentroids_get {T : Type} {pt : PointOps T} {asg : List (List T)} {cs : List T}
    (h : initCentroids pt asg = .ok cs) (i : Nat) (c : T) (hc : cs[i]? = some c) :
    ∃ ps p, asg[i]? = some ps ∧ ps[0]? = some p ∧ pt.mean [p] = .ok c := by
  induction asg generalizing cs i with
  | nil => cases h; simp at hc
  | cons a asg ih =>
    rw [initCentroids] at h
    obtain ⟨p, h1, h⟩ := Ret.bind_ok.1 h
    obtain ⟨c', h2, h⟩ := Ret.bind_ok.1 h
    obtain ⟨r, h3, h⟩ := Ret.bind_ok.1 h
    cases h
    cases i with
    | zero =>
      simp only [List.getElem?_cons_zero, Option.some.injEq] at hc
      subst hc
      exact ⟨a, p, rfl, Ret.expect_ok.1 h1, fakeClone_ok h2⟩
    | succ i =>
      obtain ⟨ps, p, e1, e2, e3⟩ := ih h3 i (by simpa using hc)
      exact ⟨ps, p, by simpa using e1, e2, e3⟩

/-- The first neighbour lists take the distances between all centroids. -/
theorem initNeighbours_dist {T : Type} {env : Env T} {fuel : Nat} {cs : List T} {ns : List Neigh}
    (h : initNeighbours env fuel cs = .ok ns) {i j : Nat} {a b : T} (hi : cs[i]? = some a) (hj : cs[j]? = some b)
    (hij : i ≠ j) : env.pt.dist a b ≠ none := by
  rw [initNeighbours] at h
  obtain ⟨n1, n2⟩ := computeNeighbours_ok h
  rw [List.length_map, List.length_range] at n1
  have hil := (List.getElem?_eq_some_iff.1 hi).1
  have hjl := (List.getElem?_eq_some_iff.1 hj).1
  obtain ⟨g, e1, e2⟩ := n2 i ns[i] (List.getElem?_eq_getElem (by omega))
  have hg : g = Neigh.new i cs.length := by
    rw [List.getElem?_map, List.getElem?_range hil] at e1
    exact (Option.some.inj e1).symm
  subst hg
  cases fuel with
  | zero => cases e2
  | succ fuel =>
    rw [computeOne] at e2
    obtain ⟨g1, h1, -⟩ := Ret.bind_ok.1 e2
    obtain ⟨-, -, hm, c, hc, hd⟩ := updateDistances_ok h1
    have hc' : cs[i]? = some c := hc
    rw [hi] at hc'
    cases hc'
    have hjm : j ∈ g1.neighbours.map (·.1) := by
      rw [hm]
      simp only [Neigh.new, List.map_map, List.mem_map, List.mem_filter, List.mem_range]
      exact ⟨j, ⟨hjl, by simpa using Ne.symm hij⟩, rfl⟩
    obtain ⟨e, he, rfl⟩ := List.mem_map.1 hjm
    obtain ⟨t, t1, t2⟩ := hd e he
    rw [hj] at t1
    cases t1
    rw [t2]; simp

/-- The assignment step takes the distance of each point from its centroid. -/
theorem assignPoints_dist {T : Type} {env : Env T} {cl : Clusters T} {r : Clusters T × Bool}
    (h : assignPoints env cl = .ok r) {i : Nat} {c x : T} {ps : List T} (hc : cl.centroids[i]? = some c)
    (hp : cl.assignment[i]? = some ps) (hx : x ∈ ps) : env.pt.dist c x ≠ none := by
  obtain ⟨cl', ch⟩ := r
  obtain ⟨-, -, -, -, -, moves, m1, -, -, -, m5⟩ := assignPoints_ok h
  have ht := tagged_filter cl.assignment 0 i ps hp
  rw [← ht] at hx
  obtain ⟨e, he, rfl⟩ := List.mem_map.1 hx
  obtain ⟨he, hei⟩ := List.mem_filter.1 he
  rw [← m1] at he
  obtain ⟨m, hm, rfl⟩ := List.mem_map.1 he
  obtain ⟨g, g1, -, hch⟩ := m5 m hm
  have hei : m.source = i := by simpa using hei
  rw [hei] at hch
  unfold choose at hch
  rw [hc] at hch
  obtain ⟨c', e1, hch⟩ := Ret.bind_ok.1 hch
  cases e1
  obtain ⟨d, e2, -⟩ := Ret.bind_ok.1 hch
  dsimp only
  rw [Ret.expect_ok.1 e2]; simp

theorem Ret.bind_err {ε α β : Type} {m : Ret ε α} {f : α → Ret ε β} {e : ε} :
    (m >>= f) = .err e ↔ m = .err e ∨ ∃ a, m = .ok a ∧ f a = .err e := by
  cases m with
  | ok a => simp [Ret.bind_ok_eq]
  | err e' =>
    show (Ret.err e' : Ret ε β) = .err e ↔ _
    simp
  | panic =>
    show (Ret.panic : Ret ε β) = .err e ↔ _
    simp

theorem Ret.expect_ne_err {ε α : Type} {o : Option α} {e : ε} : (Ret.expect o : Ret ε α) ≠ .err e := by
  cases o <;> simp [Ret.expect]

theorem scan_ne_err {T : Type} {pt : PointOps T} {cs : List T} {x : T} {cutoff : Rat} {l : List (Nat × Rat)}
    {pos closest : Nat} {md : Rat} {e : Unit} : scan pt cs x cutoff l pos md closest ≠ .err e := by
  induction l generalizing pos md closest with
  | nil => simp [scan]
  | cons a l ih =>
    obtain ⟨t, d⟩ := a
    rw [scan]
    split
    · simp
    · intro h
      rcases Ret.bind_err.1 h with h | ⟨c, -, h⟩
      · exact Ret.expect_ne_err h
      rcases Ret.bind_err.1 h with h | ⟨td, -, h⟩
      · exact Ret.expect_ne_err h
      split at h
      · exact ih h
      · exact ih h

theorem choose_ne_err {T : Type} {env : Env T} {cs : List T} {g : Neigh} {i : Nat} {x : T} {e : Unit} :
    choose env cs g i x ≠ .err e := by
  intro h
  unfold choose at h
  rcases Ret.bind_err.1 h with h | ⟨c, -, h⟩
  · exact Ret.expect_ne_err h
  rcases Ret.bind_err.1 h with h | ⟨td, -, h⟩
  · exact Ret.expect_ne_err h
  split at h
  · cases h
  · rcases Ret.bind_err.1 h with h | ⟨c, -, h⟩
    · exact scan_ne_err h
    · cases h

theorem assignLoop_ne_err {T : Type} {env : Env T} {cs : List T} {l : List (Nat × T)} {asg : List (List T)}
    {ns : List Neigh} {ch : Bool} {e : Unit} : assignLoop env cs l asg ns ch ≠ .err e := by
  induction l generalizing asg ns ch with
  | nil => simp [assignLoop]
  | cons a l ih =>
    obtain ⟨i, x⟩ := a
    intro h
    rw [assignLoop] at h
    rcases Ret.bind_err.1 h with h | ⟨g, -, h⟩
    · exact Ret.expect_ne_err h
    rcases Ret.bind_err.1 h with h | ⟨⟨j, g1⟩, -, h⟩
    · exact choose_ne_err h
    rcases Ret.bind_err.1 h with h | ⟨ns1, -, h⟩
    · exact Ret.expect_ne_err h
    rcases Ret.bind_err.1 h with h | ⟨asg1, -, h⟩
    · exact Ret.expect_ne_err h
    exact ih h

theorem assignPoints_ne_err {T : Type} {env : Env T} {cl : Clusters T} {e : Unit} : assignPoints env cl ≠ .err e := by
  intro h
  unfold assignPoints at h
  split at h
  · rcases Ret.bind_err.1 h with h | ⟨r, -, h⟩
    · exact assignLoop_ne_err h
    · obtain ⟨asg, ns, ch⟩ := r
      dsimp only at h
      split at h <;> cases h
  · cases h

theorem computeNeighbours_new_ne_err {T : Type} {env : Env T} (hs : IsSort env.sort) {fuel : Nat} {cs : List T}
    {l : List Nat} : computeNeighbours env (fuel + 1) cs (l.map fun i => Neigh.new i cs.length) ≠ .err () := by
  induction l with
  | nil => simp [computeNeighbours]
  | cons i l ih =>
    intro h
    rw [List.map_cons, computeNeighbours] at h
    rcases Ret.bind_err.1 h with h | ⟨g, -, h⟩
    · exact (computeOne_new env hs cs fuel i).2 h
    rcases Ret.bind_err.1 h with h | ⟨gs, -, h⟩
    · exact ih h
    · cases h

theorem initCentroids_ne_err {T : Type} {pt : PointOps T} {asg : List (List T)} {e : Unit} :
    initCentroids pt asg ≠ .err e := by
  induction asg with
  | nil => simp [initCentroids]
  | cons a asg ih =>
    intro h
    rw [initCentroids] at h
    rcases Ret.bind_err.1 h with h | ⟨p, -, h⟩
    · exact Ret.expect_ne_err h
    rcases Ret.bind_err.1 h with h | ⟨c, -, h⟩
    · unfold fakeClone at h
      split at h <;> cases h
    rcases Ret.bind_err.1 h with h | ⟨cs, -, h⟩
    · exact ih h
    · cases h

theorem init_ne_err {T : Type} {env : Env T} (hs : IsSort env.sort) {fuel n : Nat} {points : List T} :
    init env (fuel + 1) points n ≠ .err () := by
  intro h
  rw [init] at h
  rcases Ret.bind_err.1 h with h | ⟨asg, -, h⟩
  · unfold initAssignment at h
    split at h
    · cases h
    · split at h <;> cases h
  rcases Ret.bind_err.1 h with h | ⟨cs, -, h⟩
  · exact initCentroids_ne_err h
  rcases Ret.bind_err.1 h with h | ⟨ns, -, h⟩
  · exact computeNeighbours_new_ne_err hs h
  · cases h

/-- Clustering pixels with overflow checks gets nowhere. -/
theorem checked_panics (o : Outside) (hs : IsSort o.sort) (fuel n : Nat) (img : Img) (h : 1 < img.pixels.length) :
    cluster (posEnv o true) (fuel + 1) (dataPoints img) n = .panic := by
  rw [cluster]
  cases hi : init (posEnv o true) (fuel + 1) (dataPoints img) n with
  | panic => rfl
  | err e => exact absurd hi (init_ne_err hs)
  | ok cl =>
    rw [Ret.bind_ok_eq]
    have hinv := init_ok hs hi
    rw [init] at hi
    obtain ⟨asg, h1, hi⟩ := Ret.bind_ok.1 hi
    obtain ⟨cs, h2, hi⟩ := Ret.bind_ok.1 hi
    obtain ⟨ns, h3, hi⟩ := Ret.bind_ok.1 hi
    cases hi
    have hget := initCentroids_get h2
    obtain ⟨hn, hlc, hla, -, hperm, -⟩ := hinv
    dsimp only at hlc hla hperm
    have hnd : ((asg.map fun ps => ps.map fun p => (p.x, p.y)).flatten).Nodup := by
      rw [← List.map_flatten]
      exact (hperm.map _).nodup_iff.2 (dataPoints_nodup img)
    have self : ∀ (i : Nat) c, cs[i]? = some c → ∃ ps, asg[i]? = some ps ∧ ps[0]? = some c := by
      intro i c hc
      obtain ⟨ps, p, e1, e2, e3⟩ := hget i c hc
      have e3 : ColorPos.mean true [p] = .ok c := e3
      rw [pos_mean_single] at e3
      cases e3
      exact ⟨ps, e1, e2⟩
    by_cases h1n : n = 1
    · -- a single cluster: its centroid is the first pixel
      subst h1n
      have hasg : asg = [dataPoints img] := by
        unfold initAssignment at h1
        rw [if_neg (by decide)] at h1
        split at h1
        · cases h1; rfl
        · cases h1
      subst hasg
      obtain ⟨c, hc⟩ : ∃ c, cs[0]? = some c := ⟨_, List.getElem?_eq_getElem (by omega)⟩
      obtain ⟨ps, e1, e2⟩ := self 0 c hc
      simp only [List.getElem?_cons_zero, Option.some.injEq] at e1
      subst e1
      rw [iterate, iteration]
      cases ha : assignPoints (posEnv o true) { centroids := cs, assignment := [dataPoints img], neighbours := ns } with
      | panic => rfl
      | err e => exact absurd ha assignPoints_ne_err
      | ok r =>
        exfalso
        have hl := dataPoints_length img
        have h0 := dataPoints_pos img e2
        have hget1 := List.getElem?_eq_getElem (show 1 < (dataPoints img).length by omega)
        have h1' := dataPoints_pos img hget1
        have := assignPoints_dist ha (i := 0) (c := c) (x := (dataPoints img)[1]) hc rfl
          (List.mem_of_getElem? hget1)
        have := checked_dist (fl := o.fl) this
        have a1 := h0.2.1
        have a2 := h0.2.2.1
        rw [Nat.zero_mod] at a1
        rw [Nat.zero_div] at a2
        have b1 := h1'.2.1
        have b2 := h1'.2.2.1
        have := Nat.div_add_mod 1 img.width.toNat
        rw [← b1, ← b2] at this
        have hx0 : (dataPoints img)[1].x.toNat = 0 := by omega
        have hy0 : (dataPoints img)[1].y.toNat = 0 := by omega
        rw [hx0, hy0] at this
        omega
    · exfalso
      obtain ⟨a, ha⟩ : ∃ c, cs[0]? = some c := ⟨_, List.getElem?_eq_getElem (by omega)⟩
      obtain ⟨b, hb⟩ : ∃ c, cs[1]? = some c := ⟨_, List.getElem?_eq_getElem (by omega)⟩
      have d1 := checked_dist (fl := o.fl) (initNeighbours_dist h3 ha hb (by decide))
      have d2 := checked_dist (fl := o.fl) (initNeighbours_dist h3 hb ha (by decide))
      obtain ⟨p0, e1, e2⟩ := self 0 a ha
      obtain ⟨p1, f1, f2⟩ := self 1 b hb
      have hpos : (a.x, a.y) = (b.x, b.y) := by
        rw [UInt32.toNat_inj.1 (Nat.le_antisymm d2.1 d1.1), UInt32.toNat_inj.1 (Nat.le_antisymm d2.2 d1.2)]
      have := flatten_unique hnd (i := 0) (j := 1) (x := (a.x, a.y)) (by rw [List.getElem?_map, e1]; rfl)
        (by rw [List.getElem?_map, f1]; rfl) (List.mem_map_of_mem (f := fun p : ColorPos => (p.x, p.y)) (List.mem_of_getElem? e2))
        (hpos ▸ List.mem_map_of_mem (f := fun p : ColorPos => (p.x, p.y)) (List.mem_of_getElem? f2))
      omega

end Cniic
