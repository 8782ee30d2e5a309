import Verif.Spec.Files
import Verif.Props.Trailing
import Verif.Props.Decode
import Verif.Props.Again
import Verif.Props.Sizes
import Verif.Props.Alpha
import Verif.Proofs.ZipDict
import Mathlib.Tactic.Ring
import Mathlib.Tactic.Linarith

/-!
# The files of a lossless codec (C90)
-/

namespace Cniic
open Spec SerSpec Kmeans

attribute [local irreducible] allBytes

/-- Some run of the encoder, in any build and with any order of the hash maps, writes `file`. -/
def Writes (scan : Scan) (c : AnyCodec) (img : Img) (file : List UInt8) : Prop :=
  ∃ (p : Setup) (fuel : Nat) (m : W Unit), p.Lawful ∧ IsSort p.out.sort ∧ p.scan = scan ∧
    c.encode p fuel img = .ok m ∧ bytesOf m = .ok file

theorem decode_congr {p q : Setup} (hs : ∀ w h, VisitsOnce p.scan w h) (h : q.scan = p.scan) {c : AnyCodec}
    (hc : c.isLossless = true) (file : List UInt8) : c.decode q file = c.decode p file := by
  cases c with
  | clusterColors n => rfl
  | voronoi n => cases hc
  | delta =>
    have e := C76_delta_checks hs file
    show deltaDecode q.chk q.scan file = deltaDecode p.chk p.scan file
    rw [h]
    cases q.chk <;> cases p.chk <;> first | rfl | exact e | exact e.symm
  | hilbert m => show hilbertDecode q.scan m file = hilbertDecode p.scan m file; rw [h]
  | hufman => rfl
  | zip z => rfl

/-- Every decoder gives back the picture, whatever follows the file. -/
theorem Writes.decode {scan : Scan} (hs : ∀ w h, VisitsOnce scan w h) {c : AnyCodec} (hc : c.isLossless = true) {img : Img}
    (ha : Addressable img) {file : List UInt8} (h : Writes scan c img file) {p : Setup} (hp : p.scan = scan)
    (rest : List UInt8) : c.decode p (file ++ rest) = .ok img.toRgb := by
  obtain ⟨q, fuel, m, hq, hsort, rfl, hm, hb⟩ := h
  rw [← decode_congr (p := p) (q := q) (by rw [hp]; exact hs) hp.symm hc,
    C74_written hq hsort (hs _ _) ha hm hb, C39_lossless_flag hq hc (hs _ _) ha hm hb]

/-- **C90.** A file written for one picture is not the beginning of a file written for another one. -/
theorem C90_prefix {scan : Scan} (hs : ∀ w h, VisitsOnce scan w h) {c : AnyCodec} (hc : c.isLossless = true)
    {img img' : Img} (ha : Addressable img) (ha' : Addressable img') {file file' : List UInt8}
    (h : Writes scan c img file) (h' : Writes scan c img' file') (hpre : file <+: file') : img.toRgb = img'.toRgb := by
  obtain ⟨rest, rfl⟩ := hpre
  obtain ⟨p, _, _, _, _, hp, _⟩ := id h
  have h1 := h.decode hs hc ha hp rest
  have h2 := h'.decode hs hc ha' hp []
  rw [List.append_nil, h1] at h2
  exact Ret.ok.inj h2

unseal allBytes in
theorem allBytes_length : allBytes.length = 256 := by simp [allBytes]

/-! ## Kraft's inequality for words of bytes -/

theorem sum_heads (L : List (List UInt8)) (hne : [] ∉ L) (g : List UInt8 → Nat) :
    (L.map fun a => g a.tail).sum =
      (allBytes.map fun b => ((L.filterMap fun a => if a.head? = some b then some a.tail else none).map g).sum).sum := by
  induction L with
  | nil => simp
  | cons a L ih =>
    rw [List.map_cons, List.sum_cons, ih fun h => hne (List.mem_cons_of_mem _ h)]
    cases a with
    | nil => exact absurd List.mem_cons_self hne
    | cons x t =>
      have key : ∀ (B : List UInt8), B.Nodup → ∀ F : UInt8 → Nat,
          (B.map fun b => (if x = b then g t else 0) + F b).sum = (if x ∈ B then g t else 0) + (B.map F).sum := by
        intro B hB F
        induction B with
        | nil => simp
        | cons b B ihB =>
          rw [List.map_cons, List.sum_cons, ihB hB.of_cons, List.map_cons, List.sum_cons]
          have hb := (List.nodup_cons.1 hB).1
          by_cases hx : x = b
          · subst hx
            rw [if_pos rfl, if_neg hb, if_pos List.mem_cons_self]
            omega
          · simp only [hx, if_false, List.mem_cons, false_or]
            omega
      have := key allBytes allBytes_nodup fun b =>
        ((L.filterMap fun a => if a.head? = some b then some a.tail else none).map g).sum
      rw [if_pos (mem_allBytes x)] at this
      simp only [List.tail_cons]
      rw [← this]
      congr 1
      apply List.map_congr_left
      intro b _
      by_cases hx : x = b
      · subst hx
        simp
      · have : ¬ (some x = some b) := fun h => hx (Option.some.inj h)
        simp [hx]

theorem kraft_bytes (M : Nat) (L : List (List UInt8)) (hp : NoneBegins L) (hM : ∀ a ∈ L, a.length ≤ M) :
    (L.map fun a => 256 ^ (M - a.length)).sum ≤ 256 ^ M := by
  by_cases hnil : [] ∈ L
  · have : L = [[]] := by
      match L, hp, hnil with
      | [a], _, h => rw [List.mem_singleton.1 h]
      | a :: b :: L, hp, h =>
        obtain ⟨h1, h2⟩ := List.pairwise_cons.1 hp
        rcases List.mem_cons.1 h with rfl | h
        · exact absurd List.nil_prefix (h1 b List.mem_cons_self).1
        · exact absurd List.nil_prefix (h1 [] h).2
    subst this
    simp
  · match M with
    | 0 =>
      cases L with
      | nil => simp
      | cons a L => exact absurd (List.length_eq_zero_iff.1 (Nat.le_zero.1 (hM a List.mem_cons_self)) ▸ List.mem_cons_self) hnil
    | M + 1 =>
      have e : (L.map fun a => 256 ^ (M + 1 - a.length)) = L.map fun a => (fun t : List UInt8 => 256 ^ (M - t.length)) a.tail := by
        apply List.map_congr_left
        intro a ha
        cases a with
        | nil => exact absurd ha hnil
        | cons x t => simp
      rw [e, sum_heads L hnil (fun t => 256 ^ (M - t.length))]
      have hb : ∀ b, ((L.filterMap fun a => if a.head? = some b then some a.tail else none).map
          fun t : List UInt8 => 256 ^ (M - t.length)).sum ≤ 256 ^ M := by
        intro b
        have hm : ∀ t, t ∈ (L.filterMap fun a => if a.head? = some b then some a.tail else none) ↔ b :: t ∈ L := by
          intro t
          rw [List.mem_filterMap]
          constructor
          · rintro ⟨a, ha, h⟩
            split at h
            · next hh =>
              cases h
              cases a with
              | nil => cases hh
              | cons x t => cases hh; exact ha
            · cases h
          · intro h
            exact ⟨_, h, by simp⟩
        apply kraft_bytes M
        · refine List.Pairwise.filterMap _ ?_ hp
          intro a a' hh t ht t' ht'
          cases a with
          | nil => cases ht
          | cons x a =>
            cases a' with
            | nil => cases ht'
            | cons y a' =>
              simp only [List.head?_cons, Option.some.injEq, List.tail_cons, Option.ite_none_right_eq_some] at ht ht'
              obtain ⟨rfl, rfl⟩ := ht
              obtain ⟨rfl, rfl⟩ := ht'
              simpa [List.cons_prefix_cons] using hh
        · intro t ht
          have := hM _ ((hm t).1 ht)
          rw [List.length_cons] at this
          omega
      have hsum : ∀ B : List UInt8, (B.map fun b => ((L.filterMap fun a => if a.head? = some b then some a.tail else none).map
          fun t : List UInt8 => 256 ^ (M - t.length)).sum).sum ≤ B.length * 256 ^ M := by
        intro B
        induction B with
        | nil => simp
        | cons b B ih =>
          rw [List.map_cons, List.sum_cons, List.length_cons, Nat.succ_mul]
          have := hb b
          omega
      refine Nat.le_trans (hsum allBytes) (Nat.le_of_eq ?_)
      rw [allBytes_length, Nat.pow_succ, Nat.mul_comm]

/-- With `256 ^ k` words, none of which is the beginning of another, the average length is at least `k`. -/
theorem average_bytes {L : List (List UInt8)} (hp : NoneBegins L) {k : Nat} (hk : 256 ^ k ≤ L.length) :
    k * L.length ≤ (L.map List.length).sum := by
  have hM : ∀ a ∈ L, a.length ≤ (L.map List.length).sum := fun a ha => List.le_sum_of_mem (List.mem_map_of_mem ha)
  generalize hg : (L.map List.length).sum = M at hM
  have bern : ∀ d, 1 + 255 * d ≤ 256 ^ d := by
    intro d
    induction d with
    | zero => simp
    | succ d ih => rw [Nat.pow_succ]; omega
  have item : ∀ l ≤ M, 256 ^ M * (1 + 255 * k) ≤ 256 ^ k * 256 ^ (M - l) + 255 * l * 256 ^ M := by
    intro l hl
    have e : 256 ^ M = 256 ^ l * 256 ^ (M - l) := by rw [← Nat.pow_add]; congr 1; omega
    have h1 : 256 ^ l * (1 + 255 * k) ≤ 256 ^ k + 255 * l * 256 ^ l := by
      rcases Nat.lt_trichotomy k l with h | h | h
      · have : 256 ^ l * (1 + 255 * k) ≤ 256 ^ l * (255 * l) := Nat.mul_le_mul_left _ (by omega)
        have h0 := Nat.zero_le (256 ^ k)
        linarith
      · subst h
        linarith
      · obtain ⟨d, rfl⟩ : ∃ d, k = l + d := ⟨k - l, by omega⟩
        have := Nat.mul_le_mul_left (256 ^ l) (bern d)
        rw [Nat.pow_add, Nat.mul_comm (255 * l), show 1 + 255 * (l + d) = (1 + 255 * d) + 255 * l by omega, Nat.mul_add]
        omega
    have h2 := Nat.mul_le_mul_right (256 ^ (M - l)) h1
    rw [Nat.add_mul, Nat.mul_right_comm, ← e, Nat.mul_assoc (255 * l), ← e] at h2
    exact h2
  have total : ∀ L' : List (List UInt8), (∀ a ∈ L', a.length ≤ M) →
      256 ^ M * (1 + 255 * k) * L'.length ≤ 256 ^ k * (L'.map fun a => 256 ^ (M - a.length)).sum +
        255 * 256 ^ M * (L'.map List.length).sum := by
    intro L' hL
    induction L' with
    | nil => simp
    | cons a L' ih =>
      have h1 := ih fun x hx => hL x (List.mem_cons_of_mem _ hx)
      have h2 := item a.length (hL a List.mem_cons_self)
      rw [List.length_cons, List.map_cons, List.sum_cons, List.map_cons, List.sum_cons]
      linarith
  have h1 := total L hM
  have h2 := Nat.mul_le_mul_left (256 ^ k) (kraft_bytes M L hp hM)
  have h3 := Nat.mul_le_mul_left (256 ^ M) hk
  rw [hg] at h1
  have h4 : 256 ^ M * (255 * (k * L.length)) ≤ 256 ^ M * (255 * M) := by linarith
  have h5 := Nat.le_of_mul_le_mul_left h4 (Nat.pow_pos (by decide))
  omega

/-! ## How long files are on average -/

/-- **C90.** Files of `256 ^ k` different pictures, whatever pictures, take `k` bytes on average at least. -/
theorem C90_average {scan : Scan} (hs : ∀ w h, VisitsOnce scan w h) {c : AnyCodec} (hc : c.isLossless = true)
    {entries : List (Img × List UInt8)} (hw : ∀ e ∈ entries, Addressable e.1 ∧ Writes scan c e.1 e.2)
    (hd : (entries.map fun e => e.1.toRgb).Nodup) {k : Nat} (hk : 256 ^ k ≤ entries.length) :
    k * entries.length ≤ (entries.map fun e => e.2.length).sum := by
  have hp : NoneBegins (entries.map Prod.snd) := by
    rw [NoneBegins, List.pairwise_map]
    rw [List.Nodup, List.pairwise_map] at hd
    refine hd.imp_of_mem fun {a b} ha hb hne => ⟨fun h => hne ?_, fun h => hne ?_⟩
    · exact C90_prefix hs hc (hw a ha).1 (hw b hb).1 (hw a ha).2 (hw b hb).2 h
    · exact (C90_prefix hs hc (hw b hb).1 (hw a ha).1 (hw b hb).2 (hw a ha).2 h).symm
  have := average_bytes hp (k := k) (by rwa [List.length_map])
  rwa [List.length_map, List.map_map] at this

theorem allColors_length : allColors.length = 256 ^ 3 := by
  rw [allColors, List.length_map, List.length_range]; decide

theorem mem_allColors (c : Rgb UInt8) : c ∈ allColors := by
  obtain ⟨r, g, b⟩ := c
  have h1 := r.toNat_lt
  have h2 := g.toNat_lt
  have h3 := b.toNat_lt
  refine List.mem_map.2 ⟨r.toNat * 65536 + g.toNat * 256 + b.toNat, List.mem_range.2 (by omega), ?_⟩
  congr 1 <;> apply UInt8.toNat_inj.1 <;> rw [UInt8.toNat_ofNat'] <;> omega

theorem allColors_nodup : allColors.Nodup := by
  rw [allColors, List.Nodup, List.pairwise_map]
  refine (List.nodup_range (n := 2 ^ 24)).imp_of_mem fun {a b} ha hb hne h => hne ?_
  have ha := List.mem_range.1 ha
  have hb := List.mem_range.1 hb
  injection h with h1 h2 h3
  have h1 := congrArg UInt8.toNat h1
  have h2 := congrArg UInt8.toNat h2
  have h3 := congrArg UInt8.toNat h3
  simp only [UInt8.toNat_ofNat'] at h1 h2 h3
  omega

attribute [local irreducible] allColors

theorem mem_allPixels (n : Nat) (px : List (Rgb UInt8)) : px ∈ allPixels n ↔ px.length = n := by
  induction n generalizing px with
  | zero => simp [allPixels]
  | succ n ih =>
    rw [allPixels, List.mem_flatMap]
    constructor
    · rintro ⟨c, -, h⟩
      obtain ⟨t, ht, rfl⟩ := List.mem_map.1 h
      rw [List.length_cons, (ih t).1 ht]
    · intro h
      cases px with
      | nil => cases h
      | cons c t => exact ⟨c, mem_allColors c, List.mem_map.2 ⟨t, (ih t).2 (by simpa using h), rfl⟩⟩

theorem allPixels_length (n : Nat) : (allPixels n).length = 256 ^ (3 * n) := by
  induction n with
  | zero => rfl
  | succ n ih =>
    have : ∀ l : List (Rgb UInt8), (l.flatMap fun c => (allPixels n).map (c :: ·)).length = l.length * 256 ^ (3 * n) := by
      intro l
      induction l with
      | nil => simp
      | cons c l ihl => rw [List.flatMap_cons, List.length_append, ihl, List.length_map, ih, List.length_cons]; ring
    rw [allPixels, this, allColors_length, ← Nat.pow_add]
    congr 1
    omega

theorem allPixels_nodup (n : Nat) : (allPixels n).Nodup := by
  induction n with
  | zero => simp [allPixels]
  | succ n ih =>
    have : ∀ l : List (Rgb UInt8), l.Nodup → (l.flatMap fun c => (allPixels n).map (c :: ·)).Nodup := by
      intro l hl
      induction l with
      | nil => simp
      | cons c l ihl =>
        rw [List.flatMap_cons, List.nodup_append]
        refine ⟨?_, ihl hl.of_cons, ?_⟩
        · rw [List.Nodup, List.pairwise_map]
          exact ih.imp fun h e => h (List.cons.inj e).2
        · intro a ha b hb hab
          obtain ⟨t, -, rfl⟩ := List.mem_map.1 ha
          obtain ⟨c', hc', h⟩ := List.mem_flatMap.1 hb
          obtain ⟨t', -, rfl⟩ := List.mem_map.1 h
          exact (List.nodup_cons.1 hl).1 ((List.cons.inj hab).1 ▸ hc')
    exact this _ allColors_nodup

/-- **C90.** All pictures of one size: on average a file takes at least as much as the pixels, 3 bytes each. -/
theorem C90_all {scan : Scan} (hs : ∀ w h, VisitsOnce scan w h) {c : AnyCodec} (hc : c.isLossless = true) {w h : UInt32}
    (ha : 3 * (w.toNat * h.toNat) < 2 ^ 63) {file : List (Rgb UInt8) → List UInt8}
    (hf : ∀ px (hl : px.length = w.toNat * h.toNat), Writes scan c (RgbImage.toImg ⟨w, h, px⟩ hl) (file px)) :
    3 * (w.toNat * h.toNat) * (allPixels (w.toNat * h.toNat)).length ≤
      ((allPixels (w.toNat * h.toNat)).map fun px => (file px).length).sum := by
  have hm : ∀ px ∈ allPixels (w.toNat * h.toNat), px.length = w.toNat * h.toNat := fun px hp => (mem_allPixels _ px).1 hp
  have := C90_average hs hc (k := 3 * (w.toNat * h.toNat))
    (entries := (allPixels (w.toNat * h.toNat)).pmap (fun px hl => (RgbImage.toImg ⟨w, h, px⟩ hl, file px)) hm) ?_ ?_ ?_
  · rw [List.length_pmap, List.map_pmap] at this
    rwa [← List.pmap_eq_map (p := fun px => px.length = w.toNat * h.toNat) (H := hm)]
  · intro e he
    obtain ⟨px, hpx, rfl⟩ := List.mem_pmap.1 he
    exact ⟨ha, hf px (hm px hpx)⟩
  · rw [List.map_pmap]
    have : (allPixels (w.toNat * h.toNat)).pmap (fun px hl => (RgbImage.toImg ⟨w, h, px⟩ hl).toRgb) hm =
        (allPixels (w.toNat * h.toNat)).map fun px => (⟨w, h, px⟩ : RgbImage) := by
      rw [← List.pmap_eq_map (p := fun px => px.length = w.toNat * h.toNat) (H := hm)]
      exact List.pmap_congr_left _ fun px _ h1 h2 => toImg_toRgb _ _
    rw [this, List.Nodup, List.pairwise_map]
    exact (allPixels_nodup _).imp fun hne e => hne (by injection e)
  · rw [List.length_pmap, allPixels_length]

theorem exists_ge_of_sum {α : Type} (f : α → Nat) (k : Nat) {l : List α} (hne : l ≠ []) (h : k * l.length ≤ (l.map f).sum) :
    ∃ x ∈ l, k ≤ f x := by
  apply Classical.byContradiction
  intro hno
  have hlt : ∀ x ∈ l, f x + 1 ≤ k := fun x hx => Nat.lt_of_not_le fun hk => hno ⟨x, hx, hk⟩
  have : ∀ l : List α, (∀ x ∈ l, f x + 1 ≤ k) → (l.map f).sum + l.length ≤ k * l.length := by
    intro l hl
    induction l with
    | nil => simp
    | cons x l ih =>
      have h1 := hl x List.mem_cons_self
      have h2 := ih fun y hy => hl y (List.mem_cons_of_mem _ hy)
      rw [List.map_cons, List.sum_cons, List.length_cons, Nat.mul_succ]
      omega
  have h1 := this l hlt
  have h2 := List.length_pos_iff.2 hne
  omega

/-- **C90.** No lossless codec makes every picture smaller: of each size there is one whose file is no smaller than its pixels. -/
theorem C90_incompressible {p : Setup} (hp : p.Lawful) (hsort : IsSort p.out.sort) (hs : ∀ w h, VisitsOnce p.scan w h)
    (fuel : Nat) {c : AnyCodec} (hc : c.isLossless = true) (hz : c ≠ .zip .back) {w h : UInt32}
    (h0 : 0 < w.toNat * h.toNat) (ha : 3 * (w.toNat * h.toNat) < 2 ^ 63) :
    ∃ img m file, img.width = w ∧ img.height = h ∧ c.encode p fuel img = .ok m ∧ bytesOf m = .ok file ∧
      3 * (w.toNat * h.toNat) ≤ file.length := by
  have hall : ∀ px : List (Rgb UInt8), ∃ file, ∀ hl : px.length = w.toNat * h.toNat,
      ∃ m, c.encode p fuel (RgbImage.toImg ⟨w, h, px⟩ hl) = .ok m ∧ bytesOf m = .ok file := by
    intro px
    by_cases hl : px.length = w.toNat * h.toNat
    · obtain ⟨m, file, h1, h2, -⟩ := C39_completes hp fuel hc hz (img := RgbImage.toImg ⟨w, h, px⟩ hl) (hs _ _) ha (by
        intro e
        have := (RgbImage.toImg ⟨w, h, px⟩ hl).size
        rw [e] at this
        have e2 : 0 = w.toNat * h.toNat := this
        omega)
      exact ⟨file, fun _ => ⟨m, h1, h2⟩⟩
    · exact ⟨[], fun h => absurd h hl⟩
  choose file hfile using hall
  have := C90_all hs hc ha (file := file) fun px hl => by
    obtain ⟨m, h1, h2⟩ := hfile px hl
    exact ⟨p, fuel, m, hp, hsort, rfl, h1, h2⟩
  obtain ⟨px, h1, h2⟩ := exists_ge_of_sum (fun px => (file px).length) _ (by
    intro e
    have := allPixels_length (w.toNat * h.toNat)
    rw [e] at this
    exact absurd this.symm (Nat.pow_pos (by decide)).ne') this
  have hl := (mem_allPixels _ px).1 h1
  obtain ⟨m, e1, e2⟩ := hfile px hl
  exact ⟨_, m, file px, rfl, rfl, e1, e2, h2⟩

theorem encode_nonempty {p : Setup} (hp : p.Lawful) (hs : ∀ w h, VisitsOnce p.scan w h)
    {fuel : Nat} {c : AnyCodec} (hc : c.isLossless = true) {img : Img} (ha : Addressable img) {m : W Unit}
    (hm : c.encode p fuel img = .ok m) : bytesOf m ≠ .ok [] := by
  intro hb
  have h1 := C39_lossless_flag hp hc (hs _ _) ha hm hb
  cases c with
  | clusterColors n => cases hc
  | voronoi n => cases hc
  | delta => rw [C75_delta hs] at h1; cases h1
  | hufman => rw [C75_hufman] at h1; cases h1
  | hilbert k =>
    cases k with
    | rle d => rw [C75_hilbert_rle hs] at h1; cases h1
    | zip => rw [C75_hilbert_zip hs] at h1; cases h1
  | zip z =>
    cases z with
    | dict => rw [C75_zip_dict] at h1; cases h1
    | back => rw [C75_zip_back p (.stop (by decide))] at h1; cases h1

/-- **C90.** Files that were written one after the other, each in a run of its own, stand for one sequence of pictures only, and
can be taken apart in one way only. -/
theorem C90_archive {scan : Scan} (hs : ∀ w h, VisitsOnce scan w h) {c : AnyCodec} (hc : c.isLossless = true)
    {es es' : List (Img × List UInt8)} (hw : ∀ e ∈ es, Addressable e.1 ∧ Writes scan c e.1 e.2)
    (hw' : ∀ e ∈ es', Addressable e.1 ∧ Writes scan c e.1 e.2)
    (h : (es.map Prod.snd).flatten = (es'.map Prod.snd).flatten) :
    es.map (·.1.toRgb) = es'.map (·.1.toRgb) ∧ es.map Prod.snd = es'.map Prod.snd := by
  have single : ∀ e e' : Img × List UInt8, (Addressable e.1 ∧ Writes scan c e.1 e.2) →
      (Addressable e'.1 ∧ Writes scan c e'.1 e'.2) → e.2 <+: e'.2 → e.1.toRgb = e'.1.toRgb ∧ e.2 = e'.2 := by
    rintro e e' ⟨ha, hw⟩ ⟨ha', hw'⟩ hpre
    have heq := C90_prefix hs hc ha ha' hw hw' hpre
    refine ⟨heq, ?_⟩
    obtain ⟨p, f, m, hp, -, hsc, h1, h2⟩ := hw
    obtain ⟨q, f', m', hq, -, hsc', h1', h2'⟩ := hw'
    rw [C73_alpha p f c heq] at h1
    exact hpre.eq_of_length (C77_same_size hp hq (hsc.trans hsc'.symm) hc (hsc ▸ hs _ _) h1 h1' h2 h2')
  have nonempty : ∀ e : Img × List UInt8, (Addressable e.1 ∧ Writes scan c e.1 e.2) → e.2 ≠ [] := by
    rintro e ⟨ha, p, f, m, hp, -, rfl, h1, h2⟩ h0
    exact encode_nonempty hp hs hc ha h1 (h0 ▸ h2)
  induction es generalizing es' with
  | nil =>
    cases es' with
    | nil => exact ⟨rfl, rfl⟩
    | cons e' es' =>
      have : e'.2 = [] := by
        have := congrArg List.length h
        simp only [List.map_nil, List.flatten_nil, List.length_nil, List.map_cons, List.flatten_cons, List.length_append] at this
        exact List.length_eq_zero_iff.1 (by omega)
      exact absurd this (nonempty e' (hw' e' List.mem_cons_self))
  | cons e es ih =>
    cases es' with
    | nil =>
      have : e.2 = [] := by
        have := congrArg List.length h
        simp only [List.map_nil, List.flatten_nil, List.length_nil, List.map_cons, List.flatten_cons, List.length_append] at this
        exact List.length_eq_zero_iff.1 (by omega)
      exact absurd this (nonempty e (hw e List.mem_cons_self))
    | cons e' es' =>
      rw [List.map_cons, List.map_cons, List.flatten_cons, List.flatten_cons] at h
      have h1 := hw e List.mem_cons_self
      have h2 := hw' e' List.mem_cons_self
      have : e.1.toRgb = e'.1.toRgb ∧ e.2 = e'.2 := by
        rcases List.prefix_or_prefix_of_prefix (List.prefix_append e.2 _) (h ▸ List.prefix_append e'.2 _) with hpre | hpre
        · exact single e e' h1 h2 hpre
        · obtain ⟨h3, h4⟩ := single e' e h2 h1 hpre
          exact ⟨h3.symm, h4.symm⟩
      rw [this.2] at h
      obtain ⟨h3, h4⟩ := ih (fun x hx => hw x (List.mem_cons_of_mem _ hx)) (fun x hx => hw' x (List.mem_cons_of_mem _ hx))
        (List.append_cancel_left h)
      simp only [List.map_cons, this.1, this.2, h3, h4, and_self]

/-! ## Concrete cases -/

section
open AnyCodecExamples

/-- C90: of the pictures with 640 × 480 pixels, one takes 921600 bytes or more with hufman. -/
example : ∃ img m file, img.width = 640 ∧ img.height = 480 ∧ AnyCodec.hufman.encode setup 0 img = .ok m ∧
    bytesOf m = .ok file ∧ 921600 ≤ file.length :=
  C90_incompressible setup_lawful sortByDist_isSort (fun _ _ => .refl _) 0 (c := .hufman) rfl nofun (w := 640) (h := 480) (by decide)
    (by decide)

/-- C90: two runs, two pictures; the file of the first one is not how the other one begins. -/
example {fileA fileB : List UInt8} {m m' : W Unit}
    (h : (AnyCodec.zip .dict).encode setup 0 (RgbImage.toImg ⟨1, 1, [⟨1, 2, 3⟩]⟩ rfl) = .ok m) (hm : bytesOf m = .ok fileA)
    (h' : (AnyCodec.zip .dict).encode setup 7 (RgbImage.toImg ⟨1, 2, [⟨1, 2, 3⟩, ⟨1, 2, 4⟩]⟩ rfl) = .ok m')
    (hm' : bytesOf m' = .ok fileB) : ¬ fileA <+: fileB := fun hpre => by
  have := C90_prefix (scan := setup.scan) (fun _ _ => .refl _) (c := .zip .dict) rfl (by unfold Addressable; decide)
    (by unfold Addressable; decide) ⟨setup, 0, m, setup_lawful, sortByDist_isSort, rfl, h, hm⟩
    ⟨setup, 7, m', setup_lawful, sortByDist_isSort, rfl, h', hm'⟩ hpre
  exact absurd (congrArg RgbImage.height this) (by decide)

/-- C90: two files of a picture in two colours, written by runs with different orders of the hash map, one after the other;
however the bytes are taken apart into hufman files, there are two, both of this picture. -/
example {fileA fileB : List UInt8} {m m' : W Unit} {img : Img} (ha : Addressable img)
    (h : AnyCodec.hufman.encode setup 0 img = .ok m) (hm : bytesOf m = .ok fileA)
    (h' : AnyCodec.hufman.encode SizeExamples.reversed 0 img = .ok m') (hm' : bytesOf m' = .ok fileB)
    {es : List (Img × List UInt8)} (hes : ∀ e ∈ es, Addressable e.1 ∧ Writes setup.scan .hufman e.1 e.2)
    (hfl : (es.map Prod.snd).flatten = fileA ++ fileB) : es.map (·.1.toRgb) = [img.toRgb, img.toRgb] := by
  refine (C90_archive (scan := setup.scan) (fun _ _ => .refl _) (c := .hufman) rfl (es' := [(img, fileA), (img, fileB)]) hes
    ?_ (by simpa using hfl)).1
  intro e he
  simp only [List.mem_cons, List.not_mem_nil, or_false] at he
  rcases he with rfl | rfl
  · exact ⟨ha, setup, 0, m, setup_lawful, sortByDist_isSort, rfl, h, hm⟩
  · exact ⟨ha, SizeExamples.reversed, 0, m', SizeExamples.reversed_lawful, sortByDist_isSort, rfl, h', hm'⟩

end

end Cniic
