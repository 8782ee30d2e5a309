import Verif.Props.Decode
import Verif.Props.Clusterc

/-!
# How large a picture a short file can give (C89)
-/

namespace Cniic
open Spec SerSpec

/-! ## Codecs that write the size uncompressed -/

theorem spelled_leaf {T : Type} (x : T) (n : Nat) : spelled (.leaf x) n [] = List.replicate n x := by
  induction n with
  | zero => rfl
  | succ n ih =>
    rw [List.replicate_succ, ← ih]
    simp [spelled, firstSymbol, leaves]

theorem addUp_zero (n : Nat) : (addUp (0, 0, 0) (List.replicate n ⟨0, 0, 0⟩)).2 = true := by
  induction n with
  | zero => rfl
  | succ n ih =>
    rw [List.replicate_succ, addUp]
    exact ih

/-- **C89.** For every codec but zip(dict) and zip(back) there is a file of at most 35 bytes for every size of a picture whose
pixels take less than 2^63 bytes.  (Voronoi: in release builds.) -/
theorem C89_any_size {p : Setup} (hs : ∀ w h, VisitsOnce p.scan w h) {c : AnyCodec} (hc : ∀ z, c ≠ .zip z)
    (hv : p.chk = false ∨ ∀ n, c ≠ .voronoi n) (w h : UInt32) (ha : 3 * (w.toNat * h.toNat) < 2 ^ 63) :
    ∃ file out, file.length ≤ 35 ∧ c.decode p file = .ok out ∧ out.width = w ∧ out.height = h := by
  have hsize : ∀ rest f, withSize (bytes (w, h) ++ rest) f = f w h rest := fun rest f => by
    rw [C75_size, if_neg (by omega)]
  have h8 : (bytes (w, h)).length = 8 := rfl
  have huf : ∃ file out, file.length ≤ 35 ∧ AnyCodec.hufman.decode p file = .ok out ∧ out.width = w ∧ out.height = h := by
    refine ⟨bytes (w, h) ++ treeBytes (.leaf (⟨0, 0, 0⟩ : Rgb UInt8)), ⟨w, h, List.replicate (w.toNat * h.toNat) ⟨0, 0, 0⟩⟩,
      ?_, ?_, rfl, rfl⟩
    · rw [List.length_append, h8]
      decide
    · rw [C75_hufman, hsize]
      have := C75_tree (.leaf ⟨0, 0, 0⟩) []
      rw [List.append_nil] at this
      rw [this]
      dsimp only
      rw [show bitsOf [] = [] from rfl, spelled_leaf, if_pos List.length_replicate]
  cases c with
  | zip z => exact absurd rfl (hc z)
  | hufman => exact huf
  | clusterColors n => exact huf
  | hilbert m =>
    refine ⟨bytes (w, h) ++ [], painted p.scan w h [], by rw [List.length_append, h8]; decide, ?_, rfl, rfl⟩
    cases m with
    | rle d =>
      rw [C75_hilbert_rle hs, hsize]
      exact if_pos (.inr rfl)
    | zip =>
      rw [C75_hilbert_zip hs, hsize]
      exact if_pos (.inr rfl)
  | delta =>
    refine ⟨bytes (w, h) ++ treeBytes (.leaf (⟨0, 0, 0⟩ : SignedColor)),
      painted p.scan w h (addUp (0, 0, 0) (List.replicate (w.toNat * h.toNat) ⟨0, 0, 0⟩)).1, ?_, ?_, rfl, rfl⟩
    · rw [List.length_append, h8]
      decide
    · rw [C75_delta hs, hsize]
      have := C75_tree_diff (.leaf ⟨0, 0, 0⟩) []
      rw [List.append_nil] at this
      rw [this]
      dsimp only
      rw [show bitsOf [] = [] from rfl, spelled_leaf]
      exact if_pos (.inr (addUp_zero _))
  | voronoi n =>
    obtain ⟨px, h1, -⟩ := C48_release w h [⟨0, 0, ⟨0, 0, 0⟩⟩] [] ha (by decide) (by decide)
    refine ⟨voronoiBytes w h [⟨0, 0, ⟨0, 0, 0⟩⟩] ++ [], ⟨w, h, px⟩, ?_, ?_, rfl, rfl⟩
    · rw [List.append_nil, voronoiBytes, show bytes w ++ bytes h = bytes (w, h) from rfl]
      simp only [List.length_append, h8]
      decide
    · rw [show (AnyCodec.voronoi n).decode p = voronoiDecode p.chk from rfl]
      rcases hv with hv | hv
      · rw [hv]; exact h1
      · exact absurd rfl (hv n)

/-- **C89**, voronoi in debug builds: both sides are bounded. -/
theorem C89_voronoi_checked {p : Setup} (hk : p.chk = true) {n : UInt64} {file : List UInt8} {out : RgbImage}
    (h : (AnyCodec.voronoi n).decode p file = .ok out) (hne : out.pixels ≠ []) :
    (out.width.toNat - 1) ^ 2 + (out.height.toNat - 1) ^ 2 < 2 ^ 32 := by
  rw [C75_voronoi, hk] at h
  obtain ⟨-, w, h', rest, -, ha, h⟩ := withSize_ok h
  cases hcs : centroidsIn rest with
  | none => rw [hcs] at h; cases h
  | some cs =>
    simp only [hcs] at h
    have hl := centroidsIn_length hcs
    have h0 : voronoiDecode true (voronoiBytes w h' cs ++ []) = .ok out := by rw [List.append_nil]; exact h
    have h1 := voronoiDecode_eq true w h' cs [] ha hl
    rw [h0] at h1
    have h2 : ¬ voronoiDecode true (voronoiBytes w h' cs ++ []) = .panic := by rw [h0]; nofun
    rw [C48_checked w h' cs [] ha hl] at h2
    split at h1
    · next px hpx =>
      cases h1
      have hpos : 0 < w.toNat * h'.toNat := by
        rcases Nat.eq_zero_or_pos (w.toNat * h'.toNat) with h0 | h0
        · rw [h0] at hpx
          cases hpx
          exact absurd rfl hne
        · exact h0
      dsimp only
      clear h h0 hpx ha hne
      generalize w.toNat = w at *
      generalize h'.toNat = h at *
      have hw : 0 < w := Nat.pos_of_mul_pos_right hpos
      cases cs with
      | nil => exact absurd ⟨0, hpos, .inl rfl⟩ h2
      | cons c cs =>
        have k1 : ∀ i < w * h, i % w ≤ c.x.toNat ∧ i / w ≤ c.y.toNat ∧ sqDist c (i % w) (i / w) < 2 ^ 32 := by
          intro i hi
          refine ⟨?_, ?_, ?_⟩ <;> refine Nat.le_of_not_lt fun hn => h2 ⟨i, hi, .inr ⟨c, List.mem_cons_self, ?_⟩⟩
          · exact .inl hn
          · exact .inr (.inl hn)
          · exact .inr (.inr (Nat.le_of_lt_succ hn))
        obtain ⟨k2, k3, -⟩ := k1 (w * h - 1) (by omega)
        obtain ⟨-, -, k4⟩ := k1 0 hpos
        have e : w * h - 1 = w - 1 + w * (h - 1) := by
          obtain ⟨h, rfl⟩ : ∃ k, h = k + 1 := ⟨h - 1, by have := Nat.pos_of_mul_pos_left hpos; omega⟩
          rw [Nat.mul_succ, Nat.add_sub_cancel]
          omega
        rw [e, Nat.add_mul_mod_self_left, Nat.mod_eq_of_lt (by omega)] at k2
        rw [e, Nat.add_mul_div_left _ _ hw, Nat.div_eq_of_lt (by omega), Nat.zero_add] at k3
        have k5 : sqDist c 0 0 = c.x.toNat ^ 2 + c.y.toNat ^ 2 := by
          rw [sqDist]
          simp only [Int.natCast_zero, Int.sub_zero]
          norm_cast
        rw [Nat.zero_mod, Nat.zero_div, k5] at k4
        have := Nat.pow_le_pow_left k2 2
        have := Nat.pow_le_pow_left k3 2
        omega
    · cases h1

/-! ## zip(dict) -/

theorem meaning_length : ∀ (l : List UInt8) (known : List (List UInt8)) (m : Nat), (∀ x ∈ known, x.length ≤ m) →
    (meaning known l).1.length + 2 * m ≤ 2 * m * 2 ^ (l.length / 4)
  | [], known, m, _ => by simp [meaning]
  | [_], known, m, _ => by simp [meaning]
  | [_, _], known, m, _ => by simp [meaning]
  | [_, _, _], known, m, _ => by simp [meaning]
  | a :: b :: c :: d :: rest, known, m, hm => by
    have he : ∀ s x, expand known s = some x → x.length ≤ m := by
      intro s x h
      unfold expand at h
      split at h
      · cases h; exact Nat.zero_le _
      · exact hm x (List.mem_of_getElem? h)
    have hp : (a :: b :: c :: d :: rest).length / 4 = rest.length / 4 + 1 := by simp only [List.length_cons]; omega
    have hpos := Nat.two_pow_pos (rest.length / 4)
    rw [hp, meaning, Nat.pow_succ]
    split
    · next x y hx hy =>
      have h1 := he _ _ hx
      have h2 := he _ _ hy
      have ih := meaning_length rest (learn known (x ++ y)) (2 * m) (by
        intro z hz
        unfold learn at hz
        split at hz
        · rcases List.mem_append.1 hz with hz | hz
          · exact Nat.le_trans (hm z hz) (by omega)
          · rw [List.mem_singleton.1 hz, List.length_append]; omega
        · exact Nat.le_trans (hm z hz) (by omega))
      simp only [List.length_append]
      have : 2 * (2 * m) * 2 ^ (rest.length / 4) = 2 * m * (2 ^ (rest.length / 4) * 2) := by
        rw [Nat.mul_comm 2 (2 * m), Nat.mul_assoc, Nat.mul_comm 2 (2 ^ _)]
      omega
    · simp only [List.length_nil, Nat.zero_add]
      exact Nat.le_mul_of_pos_right _ (by omega)

theorem recColors_length (ends : Bool) (l : List UInt8) : 11 * (recColors ends l).1.length ≤ l.length := by
  induction l using recColors.induct ends with
  | case1 r g b rest ih =>
    rw [recColors]
    simp only [List.length_cons]
    omega
  | case2 l h => rw [recColors] <;> first | exact h | simp

theorem unpacked_length {ends : Bool} {data : List UInt8} {out : RgbImage} (h : unpacked ends data = .ok out) :
    8 + 11 * (out.width.toNat * out.height.toNat) ≤ data.length := by
  unfold unpacked at h
  split at h
  · cases h
  · obtain ⟨-, w, h', rest, hd, ha, h⟩ := withSize_ok h
    dsimp only at h
    split at h
    · next hl =>
      cases h
      have := recColors_length ends rest
      rw [hd, List.length_append, show (bytes (w, h')).length = 8 from rfl]
      dsimp only
      omega
    · split at h <;> cases h

theorem oneByteSeqs_length : ∀ x ∈ oneByteSeqs, x.length ≤ 1 := by
  intro x hx
  obtain ⟨b, -, rfl⟩ := List.mem_map.1 hx
  exact Nat.le_refl _

/-- **C89**, zip(dict): each 4 bytes at most double the size, the 8 bytes of the size and 11 bytes per pixel included. -/
theorem C89_zip_dict {p : Setup} {file : List UInt8} {out : RgbImage} (h : (AnyCodec.zip .dict).decode p file = .ok out) :
    10 + 11 * (out.width.toNat * out.height.toNat) ≤ 2 * 2 ^ (file.length / 4) := by
  rw [C75_zip_dict] at h
  have h1 := unpacked_length h
  have h2 := meaning_length file oneByteSeqs 1 oneByteSeqs_length
  omega

/-- A pair of symbols. -/
def symPair (s t : Nat) : List UInt8 :=
  [UInt8.ofNat s, UInt8.ofNat (s / 256), UInt8.ofNat t, UInt8.ofNat (t / 256)]

theorem meaning_pair {known : List (List UInt8)} {s t : Nat} (hs : s < 65536) (ht : t < 65536) {x y : List UInt8}
    (hx : expand known s = some x) (hy : expand known t = some y) (rest : List UInt8) :
    meaning known (symPair s t ++ rest) =
      (x ++ y ++ (meaning (learn known (x ++ y)) rest).1, (meaning (learn known (x ++ y)) rest).2) := by
  have e : ∀ s < 65536, (UInt8.ofNat s).toNat + 256 * (UInt8.ofNat (s / 256)).toNat = s := by
    intro s hs
    simp only [UInt8.toNat_ofNat']
    omega
  rw [symPair]
  simp only [List.cons_append, List.nil_append]
  rw [meaning, e s hs, e t ht, hx, hy]

/-- `k` pairs, each made of the sequence learned from the one before; the next sequence to be learned has number `n`. -/
def doubling : Nat → Nat → Nat → List UInt8
  | 0, _, _ => []
  | k + 1, s, n => symPair s s ++ doubling k n (n + 1)

theorem doubling_length (k s n : Nat) : (doubling k s n).length = 4 * k := by
  induction k generalizing s n with
  | zero => rfl
  | succ k ih => rw [doubling, List.length_append, ih]; simp [symPair]; omega

theorem flatten_pairs (n : Nat) (x : List UInt8) :
    (List.replicate n (x ++ x)).flatten = (List.replicate (2 * n) x).flatten := by
  induction n with
  | zero => rfl
  | succ n ih => simp [List.replicate_succ, Nat.mul_succ, ih]

theorem meaning_doubling (k s : Nat) (x : List UInt8) (known : List (List UInt8)) (hx : known[s]? = some x)
    (hn : known.length + k ≤ 65535) :
    meaning known (doubling k s known.length) = ((List.replicate (2 ^ (k + 1) - 2) x).flatten, true) := by
  induction k generalizing s x known with
  | zero => rfl
  | succ k ih =>
    have hs : s < known.length := (List.getElem?_eq_some_iff.1 hx).1
    have he : expand known s = some x := by rw [expand, if_neg (by omega), hx]
    rw [doubling, meaning_pair (by omega) (by omega) he he]
    have hl : learn known (x ++ x) = known ++ [x ++ x] := if_pos (by omega)
    have := ih known.length (x ++ x) (known ++ [x ++ x]) (by simp) (by simp; omega)
    rw [List.length_append, List.length_singleton] at this
    rw [hl, this]
    congr 1
    have h2 : 2 ^ (k + 1 + 1) - 2 = 2 + 2 * (2 ^ (k + 1) - 2) := by
      have : 2 ^ (k + 1) ≥ 2 := by rw [Nat.pow_succ]; have := Nat.two_pow_pos k; omega
      rw [Nat.pow_succ]; omega
    rw [h2, List.replicate_add, List.flatten_append, flatten_pairs]
    simp [List.replicate_succ]

theorem expand_byte (ls : List (List UInt8)) (b : UInt8) : expand (oneByteSeqs ++ ls) b.toNat = some [b] := by
  have := b.toNat_lt
  rw [expand, if_neg (by omega), List.getElem?_append_left (by simp [oneByteSeqs]; omega)]
  simp [oneByteSeqs, this]

theorem expand_learned {ls : List (List UInt8)} {i : Nat} {x : List UInt8} (h : ls[i]? = some x) (hi : i < 65279) :
    expand (oneByteSeqs ++ ls) (256 + i) = some x := by
  have hl : oneByteSeqs.length = 256 := by simp [oneByteSeqs]
  rw [expand, if_neg (by omega), List.getElem?_append_right (by omega), hl, Nat.add_sub_cancel_left, h]

theorem learn_known {ls : List (List UInt8)} (h : ls.length < 65279) (x : List UInt8) :
    learn (oneByteSeqs ++ ls) x = oneByteSeqs ++ (ls ++ [x]) := by
  have hl : oneByteSeqs.length = 256 := by simp [oneByteSeqs]
  rw [learn, if_pos (by rw [List.length_append, hl]; omega), List.append_assoc]

theorem meaning_step {ls : List (List UInt8)} (hl : ls.length < 65279) {s t : Nat} (hs : s < 65536) (ht : t < 65536)
    {x y : List UInt8} (hx : expand (oneByteSeqs ++ ls) s = some x) (hy : expand (oneByteSeqs ++ ls) t = some y)
    {rest out : List UInt8} (h : meaning (oneByteSeqs ++ (ls ++ [x ++ y])) rest = (out, true)) :
    meaning (oneByteSeqs ++ ls) (symPair s t ++ rest) = (x ++ (y ++ out), true) := by
  rw [meaning_pair hs ht hx hy, learn_known hl, h, List.append_assoc]

/-- Black pixels as they are written. -/
def blackBytes : List UInt8 := [3, 0, 0, 0, 0, 0, 0, 0, 0, 0, 0]

theorem recColors_blackBytes (n : Nat) : recColors true (List.replicate n blackBytes).flatten = (List.replicate n black, true) := by
  induction n with
  | zero => rfl
  | succ n ih =>
    rw [List.replicate_succ, List.flatten_cons]
    conv => lhs; arg 2; arg 1; rw [blackBytes]
    simp only [List.cons_append, List.nil_append]
    rw [recColors, ih]
    rfl

/-- A file of 44 + 4 `m` bytes for 2^(`m`+1) + 1 black pixels (or fewer). -/
def blackFile (d : List UInt8) (m : Nat) : List UInt8 :=
  symPair (d.getD 0 0).toNat (d.getD 1 0).toNat ++ (symPair (d.getD 2 0).toNat (d.getD 3 0).toNat ++
  (symPair (d.getD 4 0).toNat (d.getD 5 0).toNat ++ (symPair (d.getD 6 0).toNat (d.getD 7 0).toNat ++
  (symPair 3 0 ++ (symPair 0 0 ++ (symPair 261 261 ++ (symPair 261 0 ++ (symPair 260 261 ++ (symPair 262 263 ++
  (symPair 264 265 ++ doubling m 266 267))))))))))

theorem blackFile_length (d : List UInt8) (m : Nat) : (blackFile d m).length = 44 + 4 * m := by
  simp only [blackFile, List.length_append, doubling_length]
  simp [symPair]
  omega

theorem meaning_blackFile {d : List UInt8} (hd : d.length = 8) {m : Nat} (hm : m ≤ 65268) :
    meaning oneByteSeqs (blackFile d m) = (d ++ (List.replicate (2 ^ (m + 1) + 1) blackBytes).flatten, true) := by
  have hb : ∀ b : UInt8, b.toNat < 65536 := fun b => by have := b.toNat_lt; omega
  have h0 := fun ls => expand_byte ls 0
  have h3 := fun ls => expand_byte ls 3
  match d, hd with
  | [d0, d1, d2, d3, d4, d5, d6, d7], _ =>
    have hlast := meaning_doubling m 266 blackBytes (oneByteSeqs ++ [[d0, d1], [d2, d3], [d4, d5], [d6, d7], [3, 0], [0, 0],
      [0, 0, 0, 0], [0, 0, 0], [3, 0, 0, 0], [0, 0, 0, 0, 0, 0, 0], blackBytes]) (by
        rw [List.getElem?_append_right (by simp [oneByteSeqs])]; simp [oneByteSeqs]) (by simp [oneByteSeqs]; omega)
    rw [show (oneByteSeqs ++ [[d0, d1], [d2, d3], [d4, d5], [d6, d7], [3, 0], [0, 0],
      [0, 0, 0, 0], [0, 0, 0], [3, 0, 0, 0], [0, 0, 0, 0, 0, 0, 0], blackBytes]).length = 267 from by simp [oneByteSeqs]] at hlast
    have k10 := meaning_step (ls := [[d0, d1], [d2, d3], [d4, d5], [d6, d7], [3, 0], [0, 0], [0, 0, 0, 0], [0, 0, 0], [3, 0, 0, 0], [0, 0, 0, 0, 0, 0, 0]]) (by simp) (s := 264) (t := 265) (by decide) (by decide)
      (expand_learned (i := 8) rfl (by decide)) (expand_learned (i := 9) rfl (by decide)) hlast
    have k9 := meaning_step (ls := [[d0, d1], [d2, d3], [d4, d5], [d6, d7], [3, 0], [0, 0], [0, 0, 0, 0], [0, 0, 0], [3, 0, 0, 0]]) (by simp) (s := 262) (t := 263) (by decide) (by decide)
      (expand_learned (i := 6) rfl (by decide)) (expand_learned (i := 7) rfl (by decide)) k10
    have k8 := meaning_step (ls := [[d0, d1], [d2, d3], [d4, d5], [d6, d7], [3, 0], [0, 0], [0, 0, 0, 0], [0, 0, 0]]) (by simp) (s := 260) (t := 261) (by decide) (by decide)
      (expand_learned (i := 4) rfl (by decide)) (expand_learned (i := 5) rfl (by decide)) k9
    have k7 := meaning_step (ls := [[d0, d1], [d2, d3], [d4, d5], [d6, d7], [3, 0], [0, 0], [0, 0, 0, 0]]) (by simp) (s := 261) (t := 0) (by decide) (by decide)
      (expand_learned (i := 5) rfl (by decide)) (h0 _) k8
    have k6 := meaning_step (ls := [[d0, d1], [d2, d3], [d4, d5], [d6, d7], [3, 0], [0, 0]]) (by simp) (s := 261) (t := 261) (by decide) (by decide)
      (expand_learned (i := 5) rfl (by decide)) (expand_learned (i := 5) rfl (by decide)) k7
    have k5 := meaning_step (ls := [[d0, d1], [d2, d3], [d4, d5], [d6, d7], [3, 0]]) (by simp) (s := 0) (t := 0) (by decide) (by decide)
      (h0 _) (h0 _) k6
    have k4 := meaning_step (ls := [[d0, d1], [d2, d3], [d4, d5], [d6, d7]]) (by simp) (s := 3) (t := 0) (by decide) (by decide)
      (h3 _) (h0 _) k5
    have k3 := meaning_step (ls := [[d0, d1], [d2, d3], [d4, d5]]) (by simp) (s := d6.toNat) (t := d7.toNat) (hb d6) (hb d7)
      (expand_byte _ d6) (expand_byte _ d7) k4
    have k2 := meaning_step (ls := [[d0, d1], [d2, d3]]) (by simp) (s := d4.toNat) (t := d5.toNat) (hb d4) (hb d5)
      (expand_byte _ d4) (expand_byte _ d5) k3
    have k1 := meaning_step (ls := [[d0, d1]]) (by simp) (s := d2.toNat) (t := d3.toNat) (hb d2) (hb d3)
      (expand_byte _ d2) (expand_byte _ d3) k2
    have k0 := meaning_step (ls := []) (by simp) (s := d0.toNat) (t := d1.toNat) (hb d0) (hb d1)
      (expand_byte _ d0) (expand_byte _ d1) k1
    have e : 2 ^ (m + 1) + 1 = 3 + (2 ^ (m + 1) - 2) := by
      have := Nat.two_pow_pos m
      rw [Nat.pow_succ]
      omega
    rw [e, List.replicate_add, List.flatten_append]
    rw [List.append_nil] at k0
    refine Eq.trans ?_ (k0.trans ?_)
    · simp only [blackFile, List.getD_cons_zero, List.getD_cons_succ]
    · simp [List.replicate_succ, blackBytes]

/-- **C89**, zip(dict): and nearly doubling is possible; 4 more bytes give twice as many pixels. -/
theorem C89_zip_dict_reached (p : Setup) (w h : UInt32) (ha : 3 * (w.toNat * h.toNat) < 2 ^ 63) {m : Nat} (hm : m ≤ 65268)
    (hn : w.toNat * h.toNat ≤ 2 ^ (m + 1) + 1) :
    ∃ file, file.length = 44 + 4 * m ∧ (AnyCodec.zip .dict).decode p file =
      .ok { width := w, height := h, pixels := List.replicate (w.toNat * h.toNat) black } := by
  refine ⟨blackFile (bytes (w, h)) m, blackFile_length _ _, ?_⟩
  rw [C75_zip_dict, meaning_blackFile rfl hm, unpacked]
  rw [if_neg (by simp), C75_size, if_neg (by omega)]
  simp only [recColors_blackBytes, List.length_replicate]
  rw [if_pos hn, List.take_replicate, Nat.min_eq_left hn]

/-! ## zip(back) -/

theorem le_length (k n : Nat) : (le k n).length = k := by
  simp [le]

theorem reads_length {N : Nat} {hist file data : List UInt8} {e : Ending} (h : Reads N hist file data e) :
    4 * data.length ≤ 32767 * file.length := by
  induction h with
  | stop _ => simp
  | shortCopy _ _ => simp
  | shortLiteral _ _ => simp
  | dangling _ _ => simp
  | empty _ _ => simp
  | @symbol hist s x rest out e hf hm _ _ ih =>
    rw [List.length_append, List.length_append]
    cases s with
    | explicit data =>
      simp only [symbolMeaning, Option.some.injEq] at hm
      subst hm
      simp only [Fits] at hf
      rw [symbolBytes, List.length_append, le_length]
      omega
    | lookBack len back =>
      simp only [symbolMeaning] at hm
      split at hm
      · cases hm
        simp only [Fits] at hf
        rw [symbolBytes, List.length_append, le_length, le_length, List.length_take]
        omega
      · cases hm

/-- **C89**, zip(back): 4 bytes give at most 32767 bytes, the 8 bytes of the size and 11 bytes per pixel included. -/
theorem C89_zip_back {p : Setup} {file : List UInt8} {out : RgbImage} (h : (AnyCodec.zip .back).decode p file = .ok out) :
    4 * (8 + 11 * (out.width.toNat * out.height.toNat)) ≤ 32767 * file.length := by
  obtain ⟨data, e, hr⟩ := C75_zip_back_total file
  rw [C75_zip_back p hr] at h
  have h1 := unpacked_length h
  have h2 := reads_length hr
  omega

/-- Black pixels as they are written, `n` bytes. -/
def blackData (n : Nat) : List UInt8 := (List.range n).map fun i => blackBytes.getD (i % 11) 0

theorem blackData_length (n : Nat) : (blackData n).length = n := by simp [blackData]

theorem blackData_add (n len : Nat) :
    blackData (n + len) = blackData n ++ (List.range len).map fun i => blackBytes.getD ((n + i) % 11) 0 := by
  rw [blackData, List.range_add, List.map_append, List.map_map]
  rfl

/-- A copy from a multiple of 11 bytes back goes on with black pixels. -/
theorem reads_black {d : List UInt8} {n len m : Nat} (hlen : 0 < len) (h1 : len ≤ 11 * m) (h2 : 11 * m ≤ n)
    (h3 : len ≤ 32767) (h4 : 11 * m ≤ 65535) {rest out : List UInt8} {e : Ending} {n' : Nat} (hn : n' = n + len)
    (h : Reads Back.ringSize (d ++ blackData n') rest out e) :
    Reads Back.ringSize (d ++ blackData n) (symbolBytes (.lookBack len (11 * m)) ++ rest)
      ((List.range len).map (fun i => blackBytes.getD ((n + i) % 11) 0) ++ out) e := by
  subst hn
  refine .symbol ⟨h3, h4⟩ ?_ (by simp; omega) (by rw [List.append_assoc, ← blackData_add]; exact h)
  rw [symbolMeaning, if_pos ⟨by rw [List.length_append, blackData_length]; omega, h4⟩]
  congr 1
  rw [List.length_append, blackData_length, show d.length + n - 11 * m = d.length + (n - 11 * m) from by omega,
    List.drop_append]
  simp only [List.drop_eq_nil_of_le (Nat.le_add_right d.length _), List.nil_append, Nat.add_sub_cancel_left]
  apply List.ext_getElem?
  intro i
  by_cases hi : i < len
  · rw [List.getElem?_take_of_lt hi, List.getElem?_drop]
    simp only [blackData, List.getElem?_map]
    rw [List.getElem?_range (by omega), List.getElem?_range hi]
    simp only [Option.map_some]
    congr 2
    omega
  · rw [List.getElem?_eq_none (by simp; omega), List.getElem?_eq_none (by simp; omega)]

/-- Doubling what is there, `j` times. -/
def doublings : Nat → Nat → List UInt8
  | 0, _ => []
  | j + 1, m => symbolBytes (.lookBack (11 * m) (11 * m)) ++ doublings j (2 * m)

theorem doublings_length (j m : Nat) : (doublings j m).length = 4 * j := by
  induction j generalizing m with
  | zero => rfl
  | succ j ih => rw [doublings, List.length_append, ih, symbolBytes, List.length_append, le_length, le_length]; omega

/-- The longest copies, `k` times. -/
def copies : Nat → List UInt8
  | 0 => []
  | k + 1 => symbolBytes (.lookBack 32767 (11 * 2979)) ++ copies k

theorem copies_length (k : Nat) : (copies k).length = 4 * k := by
  induction k with
  | zero => rfl
  | succ k ih => rw [copies, List.length_append, ih, symbolBytes, List.length_append, le_length, le_length]; omega

theorem reads_copies (d : List UInt8) (k n : Nat) (hn : 32769 ≤ n) :
    ∃ out, Reads Back.ringSize (d ++ blackData n) (copies k) out .none ∧ blackData n ++ out = blackData (n + 32767 * k) := by
  induction k generalizing n with
  | zero => exact ⟨[], .stop (by decide), by simp⟩
  | succ k ih =>
    obtain ⟨out, h1, h2⟩ := ih (n + 32767) (by omega)
    refine ⟨_, reads_black (by decide) (by decide) (by omega) (by decide) (by decide) rfl h1, ?_⟩
    rw [← List.append_assoc, ← blackData_add, h2, Nat.mul_succ, Nat.add_assoc, Nat.add_comm 32767]

theorem reads_doublings (d : List UInt8) {rest : List UInt8} {n : Nat} : ∀ (j m : Nat), 0 < m → 11 * (m * 2 ^ j) ≤ 65535 →
    (∃ out, Reads Back.ringSize (d ++ blackData (11 * (m * 2 ^ j))) rest out .none ∧
      blackData (11 * (m * 2 ^ j)) ++ out = blackData n) →
    ∃ out, Reads Back.ringSize (d ++ blackData (11 * m)) (doublings j m ++ rest) out .none ∧
      blackData (11 * m) ++ out = blackData n
  | 0, m, _, _, h => by simpa [doublings] using h
  | j + 1, m, hm, hj, h => by
    have e : m * 2 ^ (j + 1) = 2 * m * 2 ^ j := by rw [Nat.pow_succ, Nat.mul_comm (2 ^ j) 2, ← Nat.mul_assoc, Nat.mul_comm m 2]
    rw [e] at hj h
    obtain ⟨out, h1, h2⟩ := reads_doublings d j (2 * m) (by omega) hj h
    have hle : 2 * m ≤ 2 * m * 2 ^ j := Nat.le_mul_of_pos_right _ (Nat.two_pow_pos j)
    rw [doublings, List.append_assoc]
    refine ⟨_, reads_black (by omega) (Nat.le_refl _) (Nat.le_refl _) (by omega) (by omega)
      (show 11 * (2 * m) = 11 * m + 11 * m by omega) h1, ?_⟩
    rw [← List.append_assoc, ← blackData_add, ← h2]
    congr 2
    omega

/-- A file of 69 + 4 `k` bytes for (45056 + 32767 `k`) / 11 black pixels (or fewer). -/
def backFile (d : List UInt8) (k : Nat) : List UInt8 :=
  symbolBytes (.explicit (d ++ blackData (11 * 1))) ++ (doublings 12 1 ++ copies k)

theorem backFile_length {d : List UInt8} (hd : d.length = 8) (k : Nat) : (backFile d k).length = 69 + 4 * k := by
  rw [backFile, List.length_append, List.length_append, doublings_length, copies_length, symbolBytes, List.length_append,
    le_length, List.length_append, hd, blackData_length]
  omega

theorem reads_backFile {d : List UInt8} (hd : d.length = 8) (k : Nat) :
    Reads Back.ringSize [] (backFile d k) (d ++ blackData (45056 + 32767 * k)) .none := by
  obtain ⟨out, h1, h2⟩ := reads_doublings d 12 1 (by decide) (by decide) (reads_copies d k (11 * (1 * 2 ^ 12)) (by decide))
  have e : 11 * (1 * 2 ^ 12) = 45056 := by decide
  rw [e] at h2
  rw [← h2, ← List.append_assoc]
  refine .symbol ?_ rfl ?_ h1
  · simp only [Fits, List.length_append, hd, blackData_length]
    decide
  · intro h0
    have := congrArg List.length h0
    simp [hd] at this

theorem recColors_blackData (q n : Nat) (h : 11 * q ≤ n) :
    q ≤ (recColors true (blackData n)).1.length ∧ (recColors true (blackData n)).1.take q = List.replicate q black := by
  induction q generalizing n with
  | zero => simp
  | succ q ih =>
    obtain ⟨n, rfl⟩ : ∃ m, n = 11 + m := ⟨n - 11, by omega⟩
    obtain ⟨h1, h2⟩ := ih n (by omega)
    have e : blackData (11 + n) = blackBytes ++ blackData n := by
      rw [blackData_add]
      congr 1
      apply List.map_congr_left
      intro i _
      rw [Nat.add_mod_left]
    rw [e]
    conv => arg 1; rw [blackBytes]
    conv => arg 2; rw [blackBytes]
    simp only [List.cons_append, List.nil_append]
    rw [recColors]
    refine ⟨by rw [List.length_cons]; omega, ?_⟩
    rw [List.take_succ_cons, h2]
    rfl

/-- **C89**, zip(back): and nearly that is possible. -/
theorem C89_zip_back_reached (p : Setup) (w h : UInt32) (ha : 3 * (w.toNat * h.toNat) < 2 ^ 63) {k : Nat}
    (hn : 11 * (w.toNat * h.toNat) ≤ 45056 + 32767 * k) :
    ∃ file, file.length = 69 + 4 * k ∧ (AnyCodec.zip .back).decode p file =
      .ok { width := w, height := h, pixels := List.replicate (w.toNat * h.toNat) black } := by
  obtain ⟨h1, h2⟩ := recColors_blackData _ _ hn
  refine ⟨backFile (bytes (w, h)) k, backFile_length rfl _, ?_⟩
  rw [C75_zip_back p (reads_backFile rfl k), unpacked, if_neg (by simp), C75_size, if_neg (by omega)]
  simp only [show (Ending.none == Ending.none) = true from rfl]
  rw [if_pos h1, h2]

/-! ## Concrete cases -/

/-- C89: a picture of 2^32 - 1 columns and 2^29 rows, 6.9 exabytes, from 35 bytes or fewer. -/
example (p : Setup) (hs : ∀ w h, VisitsOnce p.scan w h) : ∃ file out, file.length ≤ 35 ∧
    AnyCodec.hufman.decode p file = .ok out ∧ out.width = 4294967295 ∧ out.height = 536870912 :=
  C89_any_size hs (c := .hufman) nofun (.inr nofun) _ _ (by decide)

/-- C89: the same with zip(dict), from 284 bytes. -/
example (p : Setup) : ∃ file, file.length = 284 ∧ (AnyCodec.zip .dict).decode p file =
    .ok { width := 4294967295, height := 536870912, pixels := List.replicate (4294967295 * 536870912) black } :=
  C89_zip_dict_reached p 4294967295 536870912 (by decide) (m := 60) (by decide) (by decide)

/-- C89: fifteen million pixels with zip(back), from 20000 bytes or so. -/
example (p : Setup) : ∃ file, file.length = 20069 ∧ (AnyCodec.zip .back).decode p file =
    .ok { width := 5000, height := 2979, pixels := List.replicate (5000 * 2979) black } :=
  C89_zip_back_reached p 5000 2979 (by decide) (k := 5000) (by decide)

end Cniic
