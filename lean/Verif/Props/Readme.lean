import Verif.Props.Sizes
import Verif.Proofs.WrongCodec
import Verif.Proofs.Join

/-!
# The worked examples of the README (C111)

README.md:51-191 explains the codecs with examples of a few bytes or pixels.
-/

namespace Cniic
open Spec SerSpec

/-- **C111**, zip-dict: the example is right (README.md:56-66); the symbol 0x0101, which it does not use, stands for
`1 2 1 2`. -/
theorem C111_dict : bytesOf (zipDictEncode [1, 2, 1, 2, 1, 2]) = .ok [1, 0, 2, 0, 0, 1, 0, 1] ∧
    bytesOf (zipDictEncode [1, 2, 1, 2, 1, 2, 1, 2, 1, 2, 1, 2, 1, 2]) = .ok [1, 0, 2, 0, 0, 1, 0, 1, 1, 1, 1, 1] := by
  decide +kernel

theorem factor_short {N : Nat} {hist run rest : List UInt8} {syms : List Back.Symbol} (h : Factor N hist run rest syms)
    (hh : hist = run) (hr : run.length = 0 ∨ run.length = 2 ∨ run.length = 4 ∨ 8 ≤ run.length)
    (hl : run.length + rest.length < 14) : syms = literal (run ++ rest) := by
  induction h with
  | @copy hist run rest len back syms hc _ _ =>
    subst hh
    have h1 := hc.occurs.inHist
    have h2 := hc.occurs.inside
    have h3 := hc.occurs.avail
    have h4 := hc.useful
    omega
  | @extend hist run rest syms _ hm _ ih =>
    subst hh
    rw [ih rfl (by rw [List.length_append, List.length_take]; omega)
      (by rw [List.length_append, List.length_take, List.length_drop]; omega), List.append_assoc, List.take_append_drop]
  | last => rfl

/-- **C111**, zip-back: data of fewer than 14 bytes are never compressed, they are written as they are after their
length. -/
theorem C111_back (cap : Back.Caps) (hcap : ∀ i, Back.repBufInit ≤ cap i) (input : List UInt8) (hne : input ≠ [])
    (hl : input.length < 14) :
    bytesOf (Back.zipBackEncode Back.ringSize cap input) = .ok (le 2 input.length ++ input) := by
  obtain ⟨syms, hf, hfit, -⟩ := C22_completes_iff cap hcap input
  have e := factor_short hf rfl (.inl rfl) (by simpa using hl)
  rw [List.nil_append, literal, if_neg hne] at e
  subst e
  rw [(hfit (by
    intro s hs
    rw [List.mem_singleton.1 hs]
    show input.length ≤ 32767
    omega)).bytesOf]
  simp [symbolBytes]

/-- **C111**, so the example of zip-back (README.md:68-85) is not what is written: there are no copies. -/
theorem C111_back_refuted (cap : Back.Caps) (hcap : ∀ i, Back.repBufInit ≤ cap i) :
    bytesOf (Back.zipBackEncode Back.ringSize cap [1, 1, 2, 2, 1, 2, 1, 1]) = .ok [8, 0, 1, 1, 2, 2, 1, 2, 1, 1] :=
  C111_back cap hcap _ (by simp) (by decide)

/-- The bound: with 14 bytes there can be a copy. -/
example : bytesOf (Back.zipBackEncode 65 (fun _ => 16) [1, 2, 3, 4, 5, 6, 7, 8, 1, 2, 3, 4, 5, 6]) =
    .ok [8, 0, 1, 2, 3, 4, 5, 6, 7, 8, 6, 128, 8, 0] := by decide +kernel

/-- The values along the curve (README.md:105-108). -/
def readme : List UInt8 := [3, 3, 5, 7, 6, 6, 8, 8, 7, 7, 7, 8, 9, 9, 8, 9]

/-- A grey pixel. -/
def grey (v : UInt8) : Rgb UInt8 := ⟨v, v, v⟩

/-- A pixel with red only. -/
def red (v : UInt8) : Rgb UInt8 := ⟨v, 0, 0⟩

theorem readme_exact {T : Type} [DecidableEq T] (f : UInt8 → T) (hf : ∀ a b, f a = f b → a = b) :
    Yields (AbstractRle.next Exact) (rleExact (readme.map f))
      [(2, f 3), (1, f 5), (1, f 7), (2, f 6), (2, f 8), (3, f 7), (1, f 8), (2, f 9), (1, f 8), (1, f 9)] := by
  have hne : ∀ a b, a ≠ b → f a ≠ f b := fun a b h e => h (hf a b e)
  apply C34_unique
  · simp
  · rfl
  · exact ⟨.inl (hne _ _ (by decide)), .inl (hne _ _ (by decide)), .inl (hne _ _ (by decide)), .inl (hne _ _ (by decide)),
      .inl (hne _ _ (by decide)), .inl (hne _ _ (by decide)), .inl (hne _ _ (by decide)), .inl (hne _ _ (by decide)),
      .inl (hne _ _ (by decide)), trivial⟩

/-- **C111**, hilbert-rle: the example is right (README.md:110-115), whatever colours the values stand for. -/
theorem C111_rle (f : UInt8 → Rgb UInt8) (hf : ∀ a b, f a = f b → a = b) :
    Yields (AbstractRle.next Exact) (rleExact (readme.map f))
      [(2, f 3), (1, f 5), (1, f 7), (2, f 6), (2, f 8), (3, f 7), (1, f 8), (2, f 9), (1, f 8), (1, f 9)] :=
  readme_exact f hf

instance {fl : FloatOps} {d : F64} {g : List (Rgb UInt8)} {x : Rgb UInt8} : Decidable (joins fl d g x) := by
  unfold joins; infer_instance

theorem greedy_step {ok : List (Rgb UInt8) → Rgb UInt8 → Prop} {g rest : List (Rgb UInt8)} {groups : List (List (Rgb UInt8))}
    (h1 : g ≠ []) (h2 : g.length ≤ 255) (h3 : ∀ i : Fin g.length, 0 < i.1 → ok (g.take i.1) g[i])
    (h4 : ∀ x ∈ rest.head?, ¬ ok g x) (h5 : Greedy ok rest groups) : Greedy ok (g ++ rest) (g :: groups) :=
  .group h1 h2 (joins_all fun i h0 hi => h3 ⟨i, hi⟩ h0) (.inr fun x hx => h4 x hx) h5

/-- **C111**, hilbert-rle-approx: the example is right (README.md:118-133) for a picture with one channel only. -/
theorem C111_approx : Yields (AbstractRle.next (Approx Ieee.ops (.fin 1))) (rleApprox (readme.map red))
    [(2, red 3), (1, red 5), (3, red 6), (6, red 8), (4, red 9)] := by
  obtain ⟨groups, hg, _, _, hy⟩ := C35_runs Ieee.lawful (.fin 1) (readme.map red)
  have h : Greedy (joins Ieee.ops (.fin 1)) ([3, 3].map red ++ ([5].map red ++ ([7, 6, 6].map red ++
      ([8, 8, 7, 7, 7, 8].map red ++ ([9, 9, 8, 9].map red ++ [])))))
      [[3, 3].map red, [5].map red, [7, 6, 6].map red, [8, 8, 7, 7, 7, 8].map red, [9, 9, 8, 9].map red] := by
    refine greedy_step (by decide) (by decide) (by decide +kernel) (by decide +kernel) ?_
    refine greedy_step (by decide) (by decide) (by decide +kernel) (by decide +kernel) ?_
    refine greedy_step (by decide) (by decide) (by decide +kernel) (by decide +kernel) ?_
    refine greedy_step (by decide) (by decide) (by decide +kernel) (by decide +kernel) ?_
    exact greedy_step (by decide) (by decide) (by decide +kernel) (by simp) .nil
  rw [hg.unique h] at hy
  have e : ([[3, 3].map red, [5].map red, [7, 6, 6].map red, [8, 8, 7, 7, 7, 8].map red, [9, 9, 8, 9].map red].map
      fun g => (UInt8.ofNat g.length, meanColor g)) = [(2, red 3), (1, red 5), (3, red 6), (6, red 8), (4, red 9)] := by decide +kernel
  rw [e] at hy
  exact hy

theorem chanSum_same (ch : Rgb UInt8 → UInt8) (n : Nat) (c : Rgb UInt8) :
    chanSum ch (List.replicate n c) = n * (ch c).toNat := by
  rw [chanSum, List.map_replicate, List.sum_replicate_nat]

theorem meanColor_same {n : Nat} (hn : 0 < n) (c : Rgb UInt8) : meanColor (List.replicate n c) = c := by
  have h : ∀ v : UInt8, UInt8.ofNat (roundedDiv (n * v.toNat) n) = v := by
    intro v
    have : roundedDiv (n * v.toNat) n = v.toNat := by
      unfold roundedDiv
      have e : 2 * (n * v.toNat) + n = n + 2 * n * v.toNat := by rw [Nat.mul_assoc]; omega
      rw [e, Nat.add_mul_div_left _ _ (by omega), Nat.div_eq_of_lt (by omega), Nat.zero_add]
    rw [this, UInt8.ofNat_toNat]
  simp only [meanColor, chanSum_same, List.length_replicate, h]

theorem meanExact_same {n : Nat} (hn : 0 < n) (c : Rgb UInt8) : meanExact (List.replicate n c) = exactColor c := by
  have hn' : (n : Rat) ≠ 0 := by exact_mod_cast hn.ne'
  simp only [meanExact, chanMean, chanSum_same, List.length_replicate, exactColor, Nat.cast_mul, mul_div_cancel_left₀ _ hn']

/-- **C111**, approximate runs of colours that are all farther apart than the allowance are the exact ones. -/
theorem C111_approx_far {fl : FloatOps} (hfl : fl.Lawful) {d : Rat} (hd : 1 / 2 ^ 40 ≤ d) {xs : List (Rgb UInt8)}
    (hx : ∀ a ∈ xs, ∀ b ∈ xs, Near (exactColor a) (exactColor b) (d * (1 + 1 / 2 ^ 40) + 1 / 2 ^ 40) → a = b)
    {runs : List (UInt8 × Rgb UInt8)} (hr : Yields (AbstractRle.next Exact) (rleExact xs) runs) :
    Yields (AbstractRle.next (Approx fl (.fin d))) (rleApprox xs) runs := by
  obtain ⟨groups, hg, he⟩ := rle_groups (exact_represents black) xs none
  obtain ⟨groups', hg', _, _, hy⟩ := C35_runs hfl (.fin d) xs
  have key : ∀ {xs groups}, Greedy sameAsFirst xs groups →
      (∀ a ∈ xs, ∀ b ∈ xs, Near (exactColor a) (exactColor b) (d * (1 + 1 / 2 ^ 40) + 1 / 2 ^ 40) → a = b) →
      Greedy (joins fl (.fin d)) xs groups ∧ groups.map (runOf fun g => g.headD black) =
        groups.map fun g => (UInt8.ofNat g.length, meanColor g) := by
    intro xs groups h hx
    induction h with
    | nil => exact ⟨.nil, rfl⟩
    | @group g rest groups h1 h2 h3 h4 h5 ih =>
      obtain ⟨i1, i2⟩ := ih fun a ha b hb => hx a (List.mem_append_right _ ha) b (List.mem_append_right _ hb)
      have hpos := List.length_pos_iff.2 h1
      obtain ⟨n, c, hn, rfl⟩ : ∃ n c, 0 < n ∧ g = List.replicate n c := ⟨_, _, hpos, group_same (d := black) h3⟩
      refine ⟨.group h1 h2 ?_ ?_ i1, ?_⟩
      · intro p x q e hp
        obtain ⟨-, e2, e3⟩ := List.replicate_eq_append_iff.1 e
        rw [e2]
        have hx : x = c := List.eq_of_mem_replicate (by rw [← e3]; exact List.mem_cons_self)
        subst hx
        refine near_joins hfl (by rw [← e2]; exact hp) (le_refl _) (by linarith) (e := 0) ?_
        rw [meanExact_same (List.length_pos_iff.2 hp)]
        exact ⟨by simp⟩
      · refine h4.imp_right fun h x hxr hj => h x hxr ?_
        have hj' := (joins_near hfl h1 hj).2
        rw [meanExact_same hn] at hj'
        have := hx c (by simp; omega) x (by simp; right; exact List.mem_of_mem_head? hxr) hj'
        subst this
        show (List.replicate n c).head? = some c
        rw [List.head?_replicate, if_neg (by omega)]
      · rw [List.map_cons, List.map_cons, i2, meanColor_same hn]
        congr 1
        simp [runOf]; cases n with
        | zero => omega
        | succ n => rfl
  obtain ⟨k1, k2⟩ := key hg hx
  rw [hg'.unique k1, ← k2, yields_unique he hr] at hy
  exact hy

/-- **C111**, the example with grey pixels: two different greys are more than 1 apart (the distance of colours 1 apart in
all channels is the root of 3), so the runs are the exact ones and not those of the README. -/
theorem C111_approx_refuted {fl : FloatOps} (hfl : fl.Lawful) :
    Yields (AbstractRle.next (Approx fl (.fin 1))) (rleApprox (readme.map grey))
      [(2, grey 3), (1, grey 5), (1, grey 7), (2, grey 6), (2, grey 8), (3, grey 7), (1, grey 8), (2, grey 9), (1, grey 8),
        (1, grey 9)] := by
  refine C111_approx_far hfl (by norm_num) ?_ (C111_rle grey (by intro a b h; injection h))
  intro a ha b hb h
  obtain ⟨u, -, rfl⟩ := List.mem_map.1 ha
  obtain ⟨v, -, rfl⟩ := List.mem_map.1 hb
  have := h.le
  simp only [exactColor, grey] at this
  have h1 : ((u.toNat : Rat) - v.toNat) ^ 2 < 1 := by
    have e : ((1 : Rat) * (1 + 1 / 2 ^ 40) + 1 / 2 ^ 40) ^ 2 < 3 := by norm_num
    linarith
  have h2 : ((u.toNat : Int) - v.toNat) ^ 2 < 1 := by exact_mod_cast h1
  have h3 : (u.toNat : Int) - v.toNat = 0 := by nlinarith [sq_nonneg ((u.toNat : Int) - v.toNat)]
  have h4 : u = v := UInt8.toNat_inj.1 (by omega)
  rw [h4]

/-- **C111**, hilbert-zip: the symbols of the example (README.md:136-143) are never written.  The file of every picture
that is not empty has the same first six symbols, because every colour is preceded by the number of its channels in eight
bytes. -/
theorem C111_zip {p : Setup} (fuel : Nat) {img : Img} (hs : VisitsOnce p.scan img.width.toNat img.height.toNat)
    (hne : img.pixels ≠ []) :
    ∃ m rest, (AnyCodec.hilbert .zip).encode p fuel img = .ok m ∧
      bytesOf m = .ok (bytes (img.width, img.height) ++ symBytes (3 :: 0 :: 0 :: 0 :: 0x101 :: 0x101 :: rest)) := by
  obtain ⟨syms, hp, he⟩ := zipDictEncode_spec ((colorsAlong p.scan img).flatMap bytes)
  obtain ⟨l, hl⟩ : ∃ l, (colorsAlong p.scan img).flatMap bytes = 3 :: 0 :: 0 :: 0 :: 0 :: 0 :: 0 :: 0 :: l := by
    cases hc : colorsAlong p.scan img with
    | nil =>
      have h0 : (colorsAlong p.scan img).length = img.pixels.length := by
        rw [colorsAlong, List.length_map, linearize_length hs, ← img.size]
      rw [hc] at h0
      exact absurd (List.length_eq_zero_iff.1 h0.symm) hne
    | cons c cs => exact ⟨_, rfl⟩
  rw [hl] at hp
  obtain ⟨rest, rfl, -⟩ := parse_colors hp
  refine ⟨_, rest, rfl, ?_⟩
  rw [hilbertEncode_zip_eq p.out.fl hs]
  exact (Emits.bind (emits_dims img) (f := fun _ => _) he).bytesOf

/-- A difference that is the same in all channels. -/
def greyDiff (v : Int16) : SignedColor := ⟨v, v, v⟩

/-- **C111**, delta: the differences of the example are right (README.md:146-174), also that the first one is the
first value itself. -/
theorem C111_differences : diffs black (readme.map grey) =
    [3, 0, 2, 2, -1, 0, 2, 0, -1, 0, 0, 1, 1, 0, -1, 1].map greyDiff := by decide +kernel

/-- The code in the example (README.md:176-190). -/
def readmeCode (d : SignedColor) : List Bool :=
  if d.r = 0 then [false] else if d.r = -1 then [true, false, false] else if d.r = 1 then [true, false, true]
  else if d.r = 2 then [true, true, false] else [true, true, true]

/-- The bits of a code as the program builds it are the fewest possible. -/
theorem built_fewest {T : Type} [DecidableEq T] {items : List T} (hne : items ≠ []) {B : Nat}
    (h : (build (listHeap T) (countFreqs items)).map (fun r => payloadBits (codeOf r.2) items) = some B) (code : T → List Bool)
    (hpf : PrefixFree items code) : B ≤ payloadBits code items := by
  have hnk := countFreqs_nodup items
  obtain ⟨enc, dec, hb, hs, -, -, hopt⟩ := build_spec (listHeap T) (countFreqs items)
    (by
      intro h0
      obtain ⟨x, hx⟩ := List.exists_mem_of_ne_nil _ hne
      have := (mem_countFreqs items x).2 hx
      simp [h0] at this) hnk
  rw [hb] at h
  cases h
  have hk := Kraft.of_prefixFree hnk (code := code) (by
    intro x hx y hy h
    exact hpf x ((mem_countFreqs _ _).1 hx) y ((mem_countFreqs _ _).1 hy) h)
  rw [List.map_map] at hk
  have h1 := hopt (fun x => (code x).length) hk
  rw [countFreqs_sum items (fun x => (codeOf dec x).length), countFreqs_sum items (fun x => (code x).length)] at h1
  exact h1

theorem readme_bits : FewestBits (diffs black (readme.map grey)) 36 := by
  refine ⟨⟨readmeCode, by unfold PrefixFree; decide +kernel, by decide +kernel⟩, built_fewest (by decide) (by decide +kernel)⟩

/-- **C111**, delta: the code of the example is a prefix code, spells the differences in the 36 bits shown, and no prefix
code needs fewer.  Whichever code of this kind the program chooses, the file of a picture with these greys along the curve
has 52 bytes: 39 for the code, 5 for the differences and 8 for the size. -/
theorem C111_delta {p : Setup} (hp : p.Lawful) (fuel : Nat) {img : Img}
    (hs : VisitsOnce p.scan img.width.toNat img.height.toNat) (hc : colorsAlong p.scan img = readme.map grey) :
    PrefixFree (diffs black (readme.map grey)) readmeCode ∧
    (diffs black (readme.map grey)).flatMap readmeCode =
      [true, true, true, false, true, true, false, true, true, false, true, false, false, false, true, true, false, false,
        true, false, false, false, false, true, false, true, true, false, true, false, true, false, false, true, false,
        true] ∧
    FewestBits (diffs black (readme.map grey)) 36 ∧
    ∃ m bytes, AnyCodec.delta.encode p fuel img = .ok m ∧ bytesOf m = .ok bytes ∧ bytes.length = 52 := by
  refine ⟨by unfold PrefixFree; decide +kernel, by decide +kernel, readme_bits, ?_⟩
  have hl : (colorsAlong p.scan img).length = img.pixels.length := by
    rw [colorsAlong, List.length_map, linearize_length hs, ← img.size]
  have hne : img.pixels ≠ [] := by
    intro h
    rw [hc, h] at hl
    cases hl
  obtain ⟨m, bs, B, h1, h2, h3, h4, -⟩ := C77_delta hp fuel hs hne (S := [0, -1, 1, 2, 3].map greyDiff) (by
    rw [hc, C111_differences]
    refine ⟨by decide +kernel, fun x => ?_⟩
    simp only [List.map_cons, List.map_nil, List.mem_cons, List.not_mem_nil, or_false]
    tauto)
  rw [hc] at h3
  rw [FewestBits.unique h3 readme_bits] at h4
  exact ⟨m, bs, h1, h2, h4⟩

/-- The picture of the example (README.md:90-101) in grey, and the traversal drawn beside it. -/
def readmeImg : Img where
  width := 4
  height := 4
  pixels := [6, 8, 7, 7, 6, 8, 7, 8, 7, 5, 9, 9, 3, 3, 8, 9].map fun v => ⟨v, v, v, 255⟩
  size := rfl

/-- The traversal of the example. -/
def readmeScan : Scan := fun w h => if w = 4 ∧ h = 4 then
    [(0, 3), (1, 3), (1, 2), (0, 2), (0, 1), (0, 0), (1, 0), (1, 1), (2, 1), (2, 0), (3, 0), (3, 1), (3, 2), (2, 2), (2, 3), (3, 3)]
  else cells w h

/-- The traversal visits every cell once, and along it there are the values given. -/
theorem C111_traversal : (∀ w h, VisitsOnce readmeScan w h) ∧ colorsAlong readmeScan readmeImg = readme.map grey := by
  refine ⟨fun w h => ?_, by decide +kernel⟩
  unfold VisitsOnce readmeScan
  split
  · rename_i h
    obtain ⟨rfl, rfl⟩ := h
    decide +kernel
  · exact .refl _

example : ∃ p : Setup, p.Lawful ∧ p.scan = readmeScan ∧ ∃ m bytes, AnyCodec.delta.encode p 0 readmeImg = .ok m ∧
    bytesOf m = .ok bytes ∧ bytes.length = 52 :=
  have hp : ({ AnyCodecExamples.setup with scan := readmeScan } : Setup).Lawful := { AnyCodecExamples.setup_lawful with }
  ⟨_, hp, rfl, (C111_delta hp 0 (C111_traversal.1 _ _) C111_traversal.2).2.2.2⟩

example : ∃ m rest, (AnyCodec.hilbert .zip).encode { AnyCodecExamples.setup with scan := readmeScan } 0 readmeImg = .ok m ∧
    bytesOf m = .ok ([4, 0, 0, 0, 4, 0, 0, 0] ++ symBytes (3 :: 0 :: 0 :: 0 :: 0x101 :: 0x101 :: rest)) :=
  C111_zip 0 (img := readmeImg) (C111_traversal.1 _ _) (by decide)

end Cniic
