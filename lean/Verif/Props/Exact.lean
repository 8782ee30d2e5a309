import Verif.Props.AnyCodec

/-!
# C72: which codecs give back every image

The laws of `f64` leave some error to `powi`; the exact limit below also needs that small whole numbers are squared
without error (`SquaresExact`), which is the case if `powi(2)` is a multiplication.
-/

namespace Cniic
open Spec SerSpec Kmeans Spec.Kmeans

/-- Differences of 8-bit values are squared without error. -/
def SquaresExact (fl : FloatOps) : Prop := ∀ k : Int, |k| ≤ 255 → fl.powi2 k = k ^ 2

section
variable {fl : FloatOps}

/-- The exact squared distance of two colours. -/
def sqGap (a b : Rgb UInt8) : Nat :=
  ((a.r.toNat : Int) - b.r.toNat).natAbs ^ 2 + ((a.g.toNat : Int) - b.g.toNat).natAbs ^ 2 +
    ((a.b.toNat : Int) - b.b.toNat).natAbs ^ 2

theorem sqGap_eq_zero {a b : Rgb UInt8} : sqGap a b = 0 ↔ a = b := by
  unfold sqGap
  constructor
  · intro h
    have e : ∀ {x y : UInt8}, ((x.toNat : Int) - y.toNat).natAbs ^ 2 = 0 → x = y := by
      intro x y h
      rw [Nat.pow_eq_zero] at h
      exact UInt8.toNat_inj.1 (by omega)
    have h1 := e (x := a.r) (y := b.r) (by omega)
    have h2 := e (x := a.g) (y := b.g) (by omega)
    have h3 := e (x := a.b) (y := b.b) (by omega)
    cases a; cases b
    simp_all
  · rintro rfl; simp

theorem sub_u8 (hfl : fl.Lawful) (x y : UInt8) :
    fl.sub (x.toNat : Rat) (y.toNat : Rat) = (((x.toNat : Int) - y.toNat : Int) : Rat) := by
  have h1 := x.toNat_lt
  have h2 := y.toNat_lt
  rw [FloatOps.sub, ← hfl.rnd_exact _ (representable_int (n := (x.toNat : Int) - y.toNat) (by
    rw [abs_le]; constructor <;> omega))]
  push_cast
  rfl

theorem sq_u8 (hfl : fl.Lawful) (hsq : SquaresExact fl) (x y : UInt8) :
    fl.powi2 (fl.sub (x.toNat : Rat) (y.toNat : Rat)) = ((((x.toNat : Int) - y.toNat).natAbs ^ 2 : Nat) : Rat) := by
  have h1 := x.toNat_lt
  have h2 := y.toNat_lt
  rw [sub_u8 hfl, hsq _ (by rw [abs_le]; constructor <;> omega)]
  have : (((x.toNat : Int) - y.toNat).natAbs ^ 2 : Int) = ((x.toNat : Int) - y.toNat) ^ 2 := Int.natAbs_sq _
  rw [← Int.cast_pow, ← this, ← Int.natCast_pow, Int.cast_natCast]

/-- The distance of two colours is the rounded root of a whole number. -/
theorem distF64_colors (hfl : fl.Lawful) (hsq : SquaresExact fl) (a b : Rgb UInt8) :
    distF64 fl (asF64 a) (asF64 b) = fl.sqrt (sqGap a b) := by
  have hb : ∀ x y : UInt8, ((x.toNat : Int) - y.toNat).natAbs ^ 2 ≤ 255 ^ 2 := by
    intro x y
    have h1 := x.toNat_lt
    have h2 := y.toNat_lt
    exact Nat.pow_le_pow_left (by omega) 2
  have b1 := hb a.r b.r
  have b2 := hb a.g b.g
  have b3 := hb a.b b.b
  unfold distF64 asF64 sqGap
  simp only [sq_u8 hfl hsq]
  have z := add_nat hfl (a := 0) (b := ((a.r.toNat : Int) - b.r.toNat).natAbs ^ 2) (by omega)
  rw [Nat.cast_zero, Nat.zero_add] at z
  rw [z, add_nat hfl (by omega), add_nat hfl (by omega)]

theorem sqrt_one (hfl : fl.Lawful) : fl.sqrt 1 = 1 := by
  have := hfl.sqrt_sq 1 (by norm_num) (by have := representable_nat (n := 1) (by norm_num); simpa using this)
  simpa using this

/-- Different colours are at distance 1 at least. -/
theorem one_le_dist (hfl : fl.Lawful) (hsq : SquaresExact fl) {a b : Rgb UInt8} (h : a ≠ b) :
    1 ≤ distF64 fl (asF64 a) (asF64 b) := by
  rw [distF64_colors hfl hsq, ← sqrt_one hfl]
  apply hfl.sqrt_mono _ _ (by norm_num)
  have : 1 ≤ sqGap a b := Nat.one_le_iff_ne_zero.2 fun h0 => h (sqGap_eq_zero.1 h0)
  exact_mod_cast this

theorem chanSum_const {c : Rgb UInt8} {g : List (Rgb UInt8)} (h : ∀ x ∈ g, x = c) (ch : Rgb UInt8 → UInt8) :
    chanSum ch g = g.length * (ch c).toNat := by
  induction g with
  | nil => simp [chanSum]
  | cons x g ih =>
    have := ih fun y hy => h y (by simp [hy])
    simp only [chanSum, List.map_cons, List.sum_cons, List.length_cons] at this ⊢
    rw [this, h x (by simp)]
    ring

/-- The mean of equal colours is this colour. -/
theorem avgF64_const (hfl : fl.Lawful) {c : Rgb UInt8} {g : List (Rgb UInt8)} (hg : g ≠ []) (h : ∀ x ∈ g, x = c) :
    (avgOf g).avgF64 fl = asF64 c := by
  have hn : (g.length : Rat) ≠ 0 := by
    have := List.length_pos_iff.2 hg
    exact_mod_cast this.ne'
  have key : ∀ ch : Rgb UInt8 → UInt8, fl.div (chanSum ch g : Nat) g.length = (ch c).toNat := by
    intro ch
    rw [chanSum_const h ch, FloatOps.div]
    push_cast
    rw [mul_div_cancel_left₀ _ hn]
    exact hfl.rnd_exact _ (representable_nat (by have := (ch c).toNat_lt; omega))
  simp only [RunningAvg.avgF64, avgOf, asF64]
  rw [key (·.r), key (·.g), key (·.b)]

theorem meanColor_const {c : Rgb UInt8} {g : List (Rgb UInt8)} (hg : g ≠ []) (h : ∀ x ∈ g, x = c) : meanColor g = c := by
  have hp := List.length_pos_iff.2 hg
  have : ∀ n k : Nat, 0 < n → roundedDiv (n * k) n = k := by
    intro n k hn
    unfold roundedDiv
    rw [Nat.div_eq_of_lt_le]
    · have e : k * (2 * n) = 2 * (n * k) := by ring
      omega
    · have e : (k + 1) * (2 * n) = 2 * (n * k) + 2 * n := by ring
      omega
  unfold meanColor
  rw [chanSum_const h, chanSum_const h, chanSum_const h, this _ _ hp, this _ _ hp, this _ _ hp]
  simp

/-- Groups made of pixels nearer than 1 have a single colour. -/
theorem group_const (hfl : fl.Lawful) (hsq : SquaresExact fl) {d : F64} (hd : d.ge 1 = false) {g : List (Rgb UInt8)}
    (h : ∀ p x q, g = p ++ x :: q → p ≠ [] → joins fl d p x) : ∀ c, g.head? = some c → ∀ x ∈ g, x = c := by
  induction g using List.reverseRecOn with
  | nil => intro c hc; cases hc
  | append_singleton g x ih =>
    intro c hc
    by_cases hg : g = []
    · subst hg
      simp at hc
      simp [hc]
    · have hc' : g.head? = some c := by
        cases g with
        | nil => exact absurd rfl hg
        | cons a g => simpa using hc
      have h1 := ih (fun p y q e hp => h p y (q ++ [x]) (by rw [e]; simp) hp) c hc'
      have h2 := h g x [] rfl hg
      unfold joins at h2
      rw [avgF64_const hfl hg h1] at h2
      have h3 : x = c := by
        by_contra hne
        have := one_le_dist hfl hsq (a := c) (b := x) (fun e => hne e.symm)
        cases d with
        | nan => cases h2
        | negInf => cases h2
        | posInf => cases hd
        | fin q =>
          simp only [F64.ge, decide_eq_true_eq, decide_eq_false_iff_not, not_le] at h2 hd
          linarith
      intro y hy
      rcases List.mem_append.1 hy with hy | hy
      · exact h1 y hy
      · rw [List.mem_singleton.1 hy, h3]

theorem averaged_const {groups : List (List (Rgb UInt8))} (h : ∀ g ∈ groups, g ≠ [] ∧ ∀ c, g.head? = some c → ∀ x ∈ g, x = c) :
    averaged groups = groups.flatten := by
  induction groups with
  | nil => rfl
  | cons g groups ih =>
    have e := ih fun g' hg' => h g' (by simp [hg'])
    simp only [averaged, List.flatMap_cons, List.flatten_cons] at e ⊢
    rw [e]
    congr 1
    obtain ⟨hne, hc⟩ := h g (by simp)
    cases g with
    | nil => exact absurd rfl hne
    | cons c g =>
      have h1 := hc c rfl
      rw [meanColor_const hne h1]
      exact (List.eq_replicate_of_mem h1).symm

/-- Two pixels whose colours are at distance 1. -/
def twoShades : Img := { width := 2, height := 1, pixels := [⟨0, 0, 0, 255⟩, ⟨1, 0, 0, 255⟩], size := by decide }

theorem twoShades_addressable : Addressable twoShades := by unfold Addressable; decide

/-- With an allowance of 1 the two pixels are merged. -/
theorem twoShades_lost (hfl : fl.Lawful) (hsq : SquaresExact fl) {scan : Scan} (hs : VisitsOnce scan 2 1) {d : F64}
    (hd : d.ge 1 = true) {bytes : List UInt8} (hb : bytesOf (hilbertEncode scan fl (.rle d) twoShades) = .ok bytes) :
    hilbertDecode scan (.rle d) bytes ≠ .ok twoShades.toRgb := by
  have hz : d.isZero = false := by
    cases d with
    | fin q =>
      simp only [F64.ge, decide_eq_true_eq, F64.isZero, beq_eq_false_iff_ne] at hd ⊢
      rintro rfl
      norm_num at hd
    | _ => rfl
  obtain ⟨groups, bs, out, hg, he, h1, h2, h3, h4, h5⟩ := C35_codec hfl scan d hz twoShades hs twoShades_addressable
  rw [he.bytesOf] at hb
  cases hb
  have hj : ∀ x y, sqGap x y = 1 → joins fl d [x] y := by
    intro x y hxy
    unfold joins
    rw [avgF64_const hfl (c := x) (by simp) (by simp), distF64_colors hfl hsq, hxy, Nat.cast_one, sqrt_one hfl]
    exact hd
  have hsc : scan 2 1 = [(0, 0), (1, 0)] ∨ scan 2 1 = [(1, 0), (0, 0)] := by
    have hp : (scan 2 1).Perm [(0, 0), (1, 0)] := hs
    have hl := hp.length_eq
    match h : scan 2 1, hl with
    | [a, b], _ =>
      rw [h] at hp
      have hab := List.Perm.subset hp
      have hn := hp.nodup_iff.2 (by decide)
      have ha := hab (by simp : a ∈ [a, b])
      have hb := hab (by simp : b ∈ [a, b])
      simp only [List.mem_cons, List.not_mem_nil, or_false] at ha hb
      rcases ha with rfl | rfl <;> rcases hb with rfl | rfl <;> simp at hn ⊢
  have key : ∀ x y : Rgb UInt8, colorsAlong scan twoShades = [x, y] → sqGap x y = 1 → groups = [[x, y]] := by
    intro x y hc hxy
    rw [hc] at hg
    refine hg.unique (.group (g := [x, y]) (by simp) (by simp) ?_ (.inr (by simp)) .nil)
    intro p z q e hp
    match p, e, hp with
    | [a], e, _ =>
      simp only [List.cons_append, List.nil_append, List.cons.injEq] at e
      obtain ⟨rfl, rfl, -⟩ := e
      exact hj _ _ hxy
    | a :: b :: p, e, _ => simp at e
  rw [h1]
  intro ho
  cases ho
  change (scan 2 1).map (pixelAt twoShades.toRgb) = _ at h5
  rcases hsc with hsc | hsc
  · have hk := key ⟨0, 0, 0⟩ ⟨1, 0, 0⟩ (by unfold colorsAlong; change (scan 2 1).map _ = _; rw [hsc]; rfl) rfl
    rw [hk, hsc] at h5
    simp [averaged, pixelAt] at h5
    revert h5
    decide
  · have hk := key ⟨1, 0, 0⟩ ⟨0, 0, 0⟩ (by unfold colorsAlong; change (scan 2 1).map _ = _; rw [hsc]; rfl) rfl
    rw [hk, hsc] at h5
    simp [averaged, pixelAt] at h5
    revert h5
    decide

/-- **C72.** With exact squares, the hilbert codec with approximate runs gives back every image exactly if the allowance
is smaller than 1 (or NaN). -/
theorem C72_allowance (hfl : fl.Lawful) (hsq : SquaresExact fl) {scan : Scan} (hs : ∀ w h, VisitsOnce scan w h) (d : F64) :
    (∀ img, Addressable img → ∃ bytes, bytesOf (hilbertEncode scan fl (.rle d) img) = .ok bytes ∧
      hilbertDecode scan (.rle d) bytes = .ok img.toRgb) ↔ d.ge 1 = false := by
  constructor
  · intro h
    obtain ⟨bytes, h1, h2⟩ := h twoShades twoShades_addressable
    cases hd : d.ge 1 with
    | false => rfl
    | true => exact absurd h2 (twoShades_lost hfl hsq (hs 2 1) hd h1)
  · intro hd img ha
    cases hz : d.isZero with
    | true =>
      obtain ⟨bs, he, hdec⟩ := C30_hilbert_rle_lossless scan fl d hz img (hs _ _) ha
      exact ⟨bs, he.bytesOf, hdec⟩
    | false =>
      obtain ⟨groups, hg, he⟩ := hilbertEncode_approx hfl (hs _ _) hz
      obtain ⟨r1, r2⟩ := averaged_runs hg.sizes
      rw [averaged_const fun g hgm => ⟨(hg.sizes g hgm).1, group_const hfl hsq hd (hg.joined g hgm)⟩, hg.flatten] at r1
      refine ⟨_, he.bytesOf, ?_⟩
      rw [hilbertDecode_rle scan d img ha]
      apply paint_all (hs _ _)
      have := (rleDecoder_yields _ r2).supplies
      rw [r1] at this
      exact this

end

/-! ## All codecs -/

/-- Encoding completes and decoding the result gives back the image. -/
def Recovers (p : Setup) (c : AnyCodec) (img : Img) : Prop :=
  ∃ fuel m bytes, c.encode p fuel img = .ok m ∧ bytesOf m = .ok bytes ∧ c.decode p bytes = .ok img.toRgb

/-- The number of clusters of the clustering codecs. -/
def AnyCodec.clusters : AnyCodec → Option UInt64
  | .clusterColors n => some n
  | .voronoi n => some n
  | _ => none

/-- The pixels of a decoded voronoi file have the colours of the centroids. -/
theorem voronoi_colors {chk : Bool} {w h : UInt32} {cs : List ColorPos} {rest : List UInt8}
    (ha : 3 * (w.toNat * h.toNat) < 2 ^ 63) (hl : cs.length < 2 ^ 64) {out : RgbImage}
    (hd : voronoiDecode chk (voronoiBytes w h cs ++ rest) = .ok out) : ∀ c ∈ out.pixels, c ∈ cs.map (·.color) := by
  have key : ∀ x y c, pixelColor chk cs x y = some c → c ∈ cs.map (·.color) := by
    intro x y c hc
    have hmin : ∀ (l : List ColorPos) (best : ColorPos) (k : UInt32) r, minByKey (pixelKey chk x y) l best k = some r →
        r ∈ best :: l := by
      intro l
      induction l with
      | nil => intro best k r h; cases h; simp
      | cons a l ih =>
        intro best k r h
        simp only [minByKey] at h
        cases hk : pixelKey chk x y a with
        | none => rw [hk] at h; cases h
        | some k' =>
          rw [hk] at h
          simp only [Option.bind_eq_bind, Option.bind_some] at h
          split at h
          · have := ih _ _ _ h
            simp only [List.mem_cons] at this ⊢
            tauto
          · have := ih _ _ _ h
            simp only [List.mem_cons] at this ⊢
            tauto
    cases cs with
    | nil => cases hc
    | cons a cs =>
      simp only [pixelColor] at hc
      cases hk : pixelKey chk x y a with
      | none => rw [hk] at hc; cases hc
      | some k =>
        cases hm : minByKey (pixelKey chk x y) cs a k with
        | none => rw [hk] at hc; simp [hm] at hc
        | some r =>
          rw [hk] at hc
          simp only [Option.bind_eq_bind, Option.bind_some, hm, Option.some.injEq] at hc
          subst hc
          exact List.mem_map_of_mem (hmin _ _ _ _ hm)
  rw [voronoiDecode_eq chk w h cs rest ha hl] at hd
  split at hd
  · rename_i px ho
    cases hd
    obtain ⟨h1, h2⟩ := optMap_some ho
    intro c hc
    obtain ⟨i, hi, rfl⟩ := List.getElem_of_mem hc
    have hi' : i < w.toNat * h.toNat := by rw [← List.length_range (n := w.toNat * h.toNat), ← h1]; exact hi
    have := h2 i i (List.getElem?_range hi')
    rw [List.getElem?_eq_getElem hi] at this
    exact key _ _ _ this
  · cases hd

/-- **C72.** A clustering codec never gives back an image with more colours than clusters. -/
theorem C72_too_many_colors {p : Setup} (hp : p.Lawful) (hsort : IsSort p.out.sort) {c : AnyCodec} {n : UInt64}
    (hc : c.clusters = some n) {img : Img} (ha : Addressable img)
    {colors : List (Rgb UInt8)} (hn : colors.Nodup) (hin : ∀ x ∈ colors, x ∈ img.rgbPixels)
    (hmany : n.toNat < colors.length) : ¬ Recovers p c img := by
  rintro ⟨fuel, m, bytes, hm, hb, hd⟩
  have main : ∀ palette : List (Rgb UInt8), palette.length = n.toNat → (∀ x ∈ img.toRgb.pixels, x ∈ palette) → False := by
    intro palette hl hp
    have := nodup_length_le hn (l' := palette) fun x hx => hp x (hin x hx)
    omega
  cases c with
  | clusterColors n' =>
    cases hc
    obtain ⟨bs, out, palette, he, hdec, hl, hcol⟩ := C47_colors hsort hp.orderColor hp.orderRgb ha hm
    rw [he.bytesOf] at hb
    cases hb
    rw [AnyCodec.decode, hdec] at hd
    cases hd
    exact main palette hl hcol
  | voronoi n' =>
    cases hc
    obtain ⟨cl, -, hl, -, he⟩ := voronoi_file hsort hm
    rw [he.bytesOf] at hb
    cases hb
    rw [AnyCodec.decode] at hd
    rw [← List.append_nil (voronoiBytes _ _ _)] at hd
    refine main _ ?_ (voronoi_colors ha ?_ hd)
    · simpa using hl
    · rw [List.length_map, hl]; exact n.toNat_lt
  | _ => cases hc

/-- One pixel. -/
def onePixel : Img := { width := 1, height := 1, pixels := [⟨7, 7, 7, 255⟩], size := by decide }

/-- A row of equal pixels. -/
def uniform (w : UInt32) : Img :=
  { width := w, height := 1, pixels := List.replicate w.toNat ⟨7, 7, 7, 255⟩, size := by simp }

theorem uniform_length (w : UInt32) : (uniform w).pixels.length = w.toNat := by simp [uniform]

theorem uniform_rgb (w : UInt32) : (uniform w).rgbPixels = List.replicate (uniform w).pixels.length ⟨7, 7, 7⟩ := by
  rw [uniform_length]
  simp [uniform, Img.rgbPixels, Rgba.toRgb]

/-- **C72.** The codecs that give back every image with at least one pixel are those that report themselves lossless,
except zip(back), and the hilbert codec with an allowance smaller than 1, although it reports itself lossy unless the
allowance is 0. -/
theorem C72_exactly {p : Setup} (hp : p.Lawful) (hsort : IsSort p.out.sort) (hsq : SquaresExact p.out.fl)
    (hs : ∀ w h, VisitsOnce p.scan w h) (c : AnyCodec) :
    (∀ img, Addressable img → img.pixels ≠ [] → Recovers p c img) ↔
      (c.isLossless = true ∧ c ≠ .zip .back) ∨ ∃ d, c = .hilbert (.rle d) ∧ d.ge 1 = false := by
  constructor
  · intro h
    have few : ∀ n, c.clusters = some n → n = 1 := by
      intro n hc
      by_contra hn
      have h1 : n = 0 ∨ 1 < n.toNat := by
        by_cases h0 : n = 0
        · exact .inl h0
        · right
          have e0 : n.toNat ≠ 0 := fun e => h0 (UInt64.toNat_inj.1 e)
          have e1 : n.toNat ≠ 1 := fun e => hn (UInt64.toNat_inj.1 e)
          omega
      obtain ⟨fuel, m, bytes, hm, -⟩ := h onePixel (by unfold Addressable; decide) (by decide)
      cases c with
      | clusterColors n' =>
        cases hc
        rw [AnyCodec.encode, C49_cluster_colors hp.orderColor [⟨7, 7, 7⟩] (by decide) h1] at hm
        cases hm
      | voronoi n' =>
        cases hc
        rw [AnyCodec.encode, C49_voronoi h1] at hm
        cases hm
      | _ => cases hc
    have none : c.clusters = none := by
      cases hc : c.clusters with
      | none => rfl
      | some n =>
        exact absurd (h twoShades twoShades_addressable (by decide))
          (C72_too_many_colors hp hsort hc twoShades_addressable (colors := [⟨0, 0, 0⟩, ⟨1, 0, 0⟩])
            (by decide) (by decide) (by rw [few n hc]; decide))
    cases c with
    | clusterColors n => cases none
    | voronoi n => cases none
    | delta => exact .inl ⟨rfl, by simp⟩
    | hufman => exact .inl ⟨rfl, by simp⟩
    | hilbert method =>
      cases method with
      | zip => exact .inl ⟨rfl, by simp⟩
      | rle d =>
        refine .inr ⟨d, rfl, ?_⟩
        obtain ⟨fuel, m, bytes, h1, h2, h3⟩ := h twoShades twoShades_addressable (by decide)
        cases h1
        cases hd : d.ge 1 with
        | false => rfl
        | true => exact absurd h3 (twoShades_lost hp.float hsq (hs 2 1) hd h2)
    | zip z =>
      cases z with
      | dict => exact .inl ⟨rfl, by simp⟩
      | back =>
        exfalso
        obtain ⟨w, hw⟩ : ∃ w : UInt32, w.toNat = 8937 := ⟨8937, by decide⟩
        have hl := uniform_length w
        obtain ⟨fuel, m, bytes, h1, h2, -⟩ := h (uniform w)
          (by change 3 * (w.toNat * 1) < _; omega)
          (by intro h0; rw [h0, hw] at hl; cases hl)
        cases h1
        rw [C54_zip_back_uniform_images p.cap hp.cap _ _ (uniform_rgb w) (by omega)] at h2
        cases h2
  · rintro (⟨hc, hz⟩ | ⟨d, rfl, hd⟩) img ha hne
    · obtain ⟨m, bytes, h⟩ := C39_completes hp 0 hc hz (hs _ _) ha hne
      exact ⟨0, m, bytes, h⟩
    · obtain ⟨bytes, h1, h2⟩ := (C72_allowance hp.float hsq hs d).2 hd img ha
      exact ⟨0, _, bytes, rfl, h1, h2⟩

/-! ## Examples -/

/-- Squaring by multiplication. -/
theorem ieee_squares : SquaresExact Ieee.ops := by
  intro k hk
  change Ieee.rnd ((k : Rat) * k) = _
  rw [← pow_two, ← Int.cast_pow]
  apply Ieee.rnd_exact
  apply representable_int
  rw [abs_pow]
  calc |k| ^ 2 ≤ 255 ^ 2 := pow_le_pow_left₀ (abs_nonneg k) hk 2
    _ ≤ 2 ^ 53 := by norm_num

/-- An allowance of one half is lossless, an allowance of 1 is not. -/
example : (∀ img, Addressable img → ∃ bytes, bytesOf (hilbertEncode cells Ieee.ops (.rle (.fin (1 / 2))) img) = .ok bytes ∧
      hilbertDecode cells (.rle (.fin (1 / 2))) bytes = .ok img.toRgb) ∧
    ¬ ∀ img, Addressable img → ∃ bytes, bytesOf (hilbertEncode cells Ieee.ops (.rle (.fin 1)) img) = .ok bytes ∧
      hilbertDecode cells (.rle (.fin 1)) bytes = .ok img.toRgb := by
  rw [C72_allowance Ieee.lawful ieee_squares (fun _ _ => .refl _), C72_allowance Ieee.lawful ieee_squares (fun _ _ => .refl _)]
  decide +kernel

/-- The assumptions hold together, so for instance cluster-colors(1) loses an image of two colours and zip(dict) loses
none. -/
example : ¬ Recovers AnyCodecExamples.setup (.clusterColors 1) twoShades ∧ Recovers AnyCodecExamples.setup (.zip .dict) twoShades :=
  ⟨C72_too_many_colors AnyCodecExamples.setup_lawful sortByDist_isSort rfl twoShades_addressable
      (colors := [⟨0, 0, 0⟩, ⟨1, 0, 0⟩]) (by decide) (by decide) (by decide),
    (C72_exactly AnyCodecExamples.setup_lawful sortByDist_isSort ieee_squares (fun _ _ => .refl _) (.zip .dict)).2
      (.inl ⟨rfl, by simp⟩) _ twoShades_addressable (by decide)⟩

end Cniic
