import Verif.Props.Program
import Verif.Props.Sizes
import Verif.Props.Quality

/-!
# Reports of lossless codecs are reproducible (C92)

The order of the hash maps, the heap, the capacities of buffers and the random numbers differ from one run of the program to the
next.  The reports of lossless codecs do not depend on them; those of cluster-colors do.
-/

namespace Cniic
open Spec

/-- Two runs of a lossless encoder give files of the same size, or fail alike. -/
theorem lossless_same {p q : Setup} (hp : p.Lawful) (hq : q.Lawful) (hscan : p.scan = q.scan) {fuel fuel' : Nat}
    {c : AnyCodec} (hc : c.isLossless = true) {img : Img} (hs : VisitsOnce p.scan img.width.toNat img.height.toNat) :
    ∃ m m', c.encode p fuel img = .ok m ∧ c.encode q fuel' img = .ok m' ∧
      ((∃ b b', bytesOf m = .ok b ∧ bytesOf m' = .ok b' ∧ b.length = b'.length) ∨
        ((∀ b, bytesOf m ≠ .ok b) ∧ bytesOf m = bytesOf m')) := by
  have hs' := hs
  rw [hscan] at hs'
  have other : c.usesHuffman = false → _ := fun hh => C77_deterministic (fuel := fuel) (fuel' := fuel') hp hq hscan hc hh hs
  have done : (∃ m m', c.encode p fuel img = .ok m ∧ c.encode q fuel' img = .ok m' ∧ bytesOf m = bytesOf m') →
      ∃ m m', c.encode p fuel img = .ok m ∧ c.encode q fuel' img = .ok m' ∧
      ((∃ b b', bytesOf m = .ok b ∧ bytesOf m' = .ok b' ∧ b.length = b'.length) ∨
        ((∀ b, bytesOf m ≠ .ok b) ∧ bytesOf m = bytesOf m')) := by
    rintro ⟨m, m', h1, h2, h3⟩
    refine ⟨m, m', h1, h2, ?_⟩
    by_cases h : ∃ b, bytesOf m = .ok b
    · obtain ⟨b, h⟩ := h
      exact .inl ⟨b, b, h, by rw [← h3, h], rfl⟩
    · exact .inr ⟨fun b hb => h ⟨b, hb⟩, h3⟩
  cases c with
  | clusterColors n => cases hc
  | voronoi n => cases hc
  | hilbert me => exact done (other rfl)
  | zip z => exact done (other rfl)
  | hufman =>
    by_cases hne : img.pixels = []
    · exact done ⟨_, _, rfl, rfl, by
        rw [C28_empty_image_panics p.heapRgb p.orderRgb hp.orderRgb img hne,
          C28_empty_image_panics q.heapRgb q.orderRgb hq.orderRgb img hne]⟩
    · obtain ⟨S, hS⟩ := distinct_exists img.rgbPixels
      obtain ⟨m1, b1, B1, e1, e2, e3, e4, -⟩ := C77_hufman hp fuel hne hS
      obtain ⟨m2, b2, B2, f1, f2, f3, f4, -⟩ := C77_hufman hq fuel' hne hS
      exact ⟨m1, m2, e1, f1, .inl ⟨b1, b2, e2, f2, by rw [e4, f4, FewestBits.unique e3 f3]⟩⟩
  | delta =>
    by_cases hne : img.pixels = []
    · exact done ⟨_, _, rfl, rfl, by rw [C39_delta_empty hp hs hne, C39_delta_empty hq hs' hne]⟩
    · obtain ⟨S, hS⟩ := distinct_exists (diffs black (colorsAlong p.scan img))
      obtain ⟨m1, b1, B1, e1, e2, e3, e4, -⟩ := C77_delta hp fuel hs hne hS
      rw [hscan] at hS e3
      obtain ⟨m2, b2, B2, f1, f2, f3, f4, -⟩ := C77_delta hq fuel' hs' hne hS
      exact ⟨m1, m2, e1, f1, .inl ⟨b1, b2, e2, f2, by rw [e4, f4, FewestBits.unique e3 f3]⟩⟩

/-- **C92**, one image: with the same traversal, the same floating point numbers and the same build profile, the work on an image
has the same outcome, whatever the order of the hash maps, the heap, the capacities and the random numbers: the same row, or the same failure, and the
same picture saved. -/
theorem C92_measured {p q : Setup} (hp : p.Lawful) (hq : q.Lawful) (hscan : p.scan = q.scan) (hfl : p.out.fl = q.out.fl)
    (hchk : p.chk = q.chk) (fuel fuel' : Nat) {c : AnyCodec} (hc : c.isLossless = true) {j : Job}
    (hj : ∀ img, j.opened = some img → VisitsOnce p.scan img.width.toNat img.height.toNat ∧ Addressable img) :
    measureOne p fuel c j = measureOne q fuel' c j := by
  unfold measureOne
  cases ho : j.opened with
  | none => rfl
  | some img =>
    obtain ⟨hs, ha⟩ := hj img ho
    obtain ⟨m, m', h1, h2, h3⟩ := lossless_same (fuel := fuel) (fuel' := fuel') hp hq hscan hc hs
    dsimp only
    rw [h1, h2]
    dsimp only
    rcases h3 with ⟨b, b', h3, h4, hl⟩ | ⟨h3, h4⟩
    · have hs' := hs
      rw [hscan] at hs'
      rw [h3, h4]
      dsimp only
      rw [C39_lossless_flag hp hc hs ha h1 h3, C39_lossless_flag hq hc hs' ha h2 h4, hfl, hchk, hl]
    · rw [← h4]
      cases h5 : bytesOf m with
      | ok b => exact absurd h5 (h3 b)
      | err e => rfl
      | panic => rfl

/-- **C92**, builds: for small images the row is the same in debug and release builds, too. -/
theorem C92_builds {p q : Setup} (hp : p.Lawful) (hq : q.Lawful) (hscan : p.scan = q.scan) (hfl : p.out.fl = q.out.fl)
    (fuel fuel' : Nat) {c : AnyCodec} (hc : c.isLossless = true) (hz : c ≠ .zip .back) {j : Job} {img : Img}
    (ho : j.opened = some img) (hs : VisitsOnce p.scan img.width.toNat img.height.toNat) (hne : img.pixels ≠ [])
    (hsz : 24 * (img.width.toNat * img.height.toNat) < 2 ^ 32) :
    ∃ r, measureOne p fuel c j = (.ok r, none) ∧ measureOne q fuel' c j = (.ok r, none) := by
  have hs' := hs
  rw [hscan] at hs'
  have ha : Addressable img := by unfold Addressable; omega
  obtain ⟨m, b, h1, h2, -⟩ := C39_completes hp fuel hc hz hs ha hne
  obtain ⟨m', b', h1', h2', -⟩ := C39_completes hq fuel' hc hz hs' ha hne
  obtain ⟨raw, hr, h3⟩ := C64_lossless_measured hp hc ho hs hne hsz h1 h2
  obtain ⟨raw', hr', h3'⟩ := C64_lossless_measured hq hc ho hs' hne hsz h1' h2'
  have hraw : raw = raw' := UInt32.toNat_inj.1 (hr.trans hr'.symm)
  have hl := C77_same_size hp hq hscan hc hs h1 h1' h2 h2'
  exact ⟨_, h3, by rw [h3', hl, hraw, hfl]⟩

section
variable {Node : Type} [DecidableEq Node] {m : Machine Node} {args files : List (List Char)} {w : World Node} {c : AnyCodec}

/-- The work of one image on two machines that differ in what may differ from one run to the next. -/
theorem same_alone {q : Setup} (hp : m.setup.Lawful) (hq : q.Lawful) (hscan : m.setup.scan = q.scan)
    (hfl : m.setup.out.fl = q.out.fl) (hchk : m.setup.chk = q.chk) (fuel : Nat) (hc : c.isLossless = true)
    {disk : Node → Option Img} {path : List Char}
    (hj : ∀ img, disk (m.host.node path) = some img → VisitsOnce m.setup.scan img.width.toNat img.height.toNat ∧ Addressable img) :
    alone m.host m.setup m.fuel c disk path = alone m.host q fuel c disk path := by
  unfold alone workOn
  cases underOutput path "png".toList with
  | some out =>
    dsimp only
    rw [C92_measured hp hq hscan hfl hchk m.fuel fuel hc
      (j := { name := String.ofList path, opened := _, saves := m.host.writable (m.host.node out) }) hj]
  | none =>
    dsimp only
    rw [C92_measured hp hq hscan hfl hchk m.fuel fuel hc (j := { name := String.ofList path, opened := _, saves := true }) hj]

/-- **C92**, the program: two runs of the same command on the same files exit alike, and when they exit with status 0 their
reports have the same rows, possibly in another order. -/
theorem C92_report {q : Setup} (hp : m.setup.Lawful) (hq : q.Lawful) (hscan : m.setup.scan = q.scan)
    (hfl : m.setup.out.fl = q.out.fl) (hchk : m.setup.chk = q.chk) {fuel : Nat} (hc : c.isLossless = true)
    (ha : m.Asks args c files) (hsafe : m.Safe c files w)
    (himg : ∀ path ∈ files, ∀ img, w.images (m.host.node path) = some img →
      VisitsOnce m.setup.scan img.width.toNat img.height.toNat ∧ Addressable img)
    {e e' : Exit} {w1 w2 : World Node} (h : Main m False args w e w1)
    (h' : Main { m with setup := q, fuel := fuel } False args w e' w2) :
    e = e' ∧ (e = .success → ∃ rows rows' : List Row, rows.Perm rows' ∧
      w1.reports (reportPath m.showF64 c) = some (if rows = [] then [] else .header :: rows.map .row) ∧
      w2.reports (reportPath m.showF64 c) = some (if rows' = [] then [] else .header :: rows'.map .row)) := by
  have himg' : ∀ path ∈ files, ∀ img, m.created (reportPath m.showF64 c) w (m.host.node path) = some img →
      VisitsOnce m.setup.scan img.width.toNat img.height.toNat ∧ Addressable img := by
    intro path hpath img hi
    simp only [Machine.created, replaced] at hi
    split at hi
    · cases hi
    · exact himg path hpath img hi
  have hal : ∀ path ∈ files, alone m.host m.setup m.fuel c (m.created (reportPath m.showF64 c) w) path =
      alone m.host q fuel c (m.created (reportPath m.showF64 c) w) path :=
    fun path hpath => same_alone hp hq hscan hfl hchk fuel hc (himg' path hpath)
  have ha' : Machine.Asks { m with setup := q, fuel := fuel } args c files := by
    obtain ⟨prog, s, h1, h2⟩ := ha
    rw [hchk] at h2
    exact ⟨prog, s, h1, h2⟩
  have hsafe' : Machine.Safe { m with setup := q, fuel := fuel } c files w := by
    intro path hpath f d hd
    refine hsafe path hpath f d ?_
    rw [hal path hpath]
    exact hd
  have hout : ∀ i, m.outcome c files w i = Machine.outcome { m with setup := q, fuel := fuel } c files w i := by
    intro i
    unfold Machine.outcome aloneAt
    cases hi : files[i]? with
    | none => rfl
    | some path =>
      dsimp only
      rw [hal path (List.mem_of_getElem? hi)]
      rfl
  have he : e = .success ↔ e' = .success := by
    rw [C85_exit ha hsafe h, C85_exit ha' hsafe' h']
    simp only [hout]
  refine ⟨?_, fun hs => ?_⟩
  · cases e <;> cases e' <;> simp at he ⊢
  · have hs' := he.1 hs
    subst hs hs'
    obtain ⟨rows, k1, k2⟩ := C85_report ha hsafe h
    obtain ⟨rows', k1', k2'⟩ := C85_report ha' hsafe' h'
    refine ⟨rows, rows', k1.trans ?_, k2, k2'⟩
    refine .trans ?_ k1'.symm
    rw [show m.outcome c files w = Machine.outcome { m with setup := q, fuel := fuel } c files w from funext hout]
end

namespace ReproduceExamples
open ExtremeExamples (release release_lawful)
open Kmeans

/-- The same build with other random numbers. -/
def drawing (rand : Nat → Nat) : Setup := { release with out := { release.out with rand := rand } }

theorem drawing_lawful (rand : Nat → Nat) : (drawing rand).Lawful := { release_lawful with }

/-- The same build with a hash map that lists its entries the other way round. -/
def reversed : Setup := { release with orderColor := List.reverse }

theorem reversed_lawful : reversed.Lawful := { release_lawful with orderColor := fun l => List.reverse_perm l }

/-- Thirteen pixels of different colours: two groups of six dark and six lighter ones, and one for itself.  Each group is first
split into two clusters of three; rounding down moves their means, so that one of them takes the points of the other. -/
def thirteen : Img where
  width := 13
  height := 1
  pixels :=
    [⟨1, 1, 0, 255⟩, ⟨0, 1, 1, 255⟩, ⟨1, 0, 1, 255⟩, ⟨2, 1, 2, 255⟩, ⟨102, 101, 102, 255⟩, ⟨2, 2, 1, 255⟩, ⟨1, 2, 2, 255⟩,
      ⟨101, 101, 100, 255⟩, ⟨100, 101, 101, 255⟩, ⟨102, 102, 101, 255⟩, ⟨101, 102, 102, 255⟩, ⟨200, 200, 200, 255⟩,
      ⟨101, 100, 101, 255⟩]
  size := rfl

theorem thirteen_panics : (AnyCodec.clusterColors 5).encode (drawing fun _ => 0) 40 thirteen = .panic := by
  have h : cluster (colorEnv (drawing fun _ => 0).out (drawing fun _ => 0).chk) 40
    (colorCounts (drawing fun _ => 0).orderColor thirteen) (5 : UInt64).toNat = .panic := by decide +kernel
  show clusterColorsEncode _ _ _ _ _ 40 5 _ = _
  unfold clusterColorsEncode
  rw [h]
  rfl

end ReproduceExamples

open ReproduceExamples in
/-- **C92**, cluster-colors: the order of a hash map alone, or the random numbers alone, change the outcome; with other random
numbers the same command on the same picture may panic, write a file of another size, or give another error, although there are
more colours than clusters. -/
theorem C92_lossy :
    (∃ (p q : Setup) (img : Img) (l e e' : Nat), p.Lawful ∧ q.Lawful ∧ { p with orderColor := q.orderColor } = q ∧
      outcomeOf p 9 (.clusterColors 2) img = some (l, e) ∧ outcomeOf q 9 (.clusterColors 2) img = some (l, e') ∧ e ≠ e') ∧
    ∃ (p q r : Setup) (img : Img) (S : List (Rgb UInt8)) (l l' e e' : Nat), p.Lawful ∧ q.Lawful ∧ r.Lawful ∧
      { p with out := { p.out with rand := q.out.rand } } = q ∧ { p with out := { p.out with rand := r.out.rand } } = r ∧
      Distinct S img.rgbPixels ∧ S.length = 13 ∧
      (AnyCodec.clusterColors 5).encode p 40 img = .panic ∧
      outcomeOf q 40 (.clusterColors 5) img = some (l, e) ∧ outcomeOf r 40 (.clusterColors 5) img = some (l', e') ∧
      l ≠ l' ∧ e ≠ e' :=
  ⟨⟨ExtremeExamples.release, reversed, redRow [0, 6, 12, 16, 20] (by decide), 34, 50, 80, ExtremeExamples.release_lawful,
      reversed_lawful, rfl, by decide +kernel, by decide +kernel, by decide⟩,
    drawing fun _ => 0, drawing fun k => k + 1, drawing fun _ => 1, thirteen, thirteen.rgbPixels, 76, 62, 15, 16,
    drawing_lawful _, drawing_lawful _, drawing_lawful _, rfl, rfl, ⟨by decide, fun _ => .rfl⟩, rfl, thirteen_panics,
    by decide +kernel, by decide +kernel, by decide, by decide⟩

/-! ## Concrete cases -/

namespace ReproduceExamples
open ExtremeExamples (release release_lawful)
open ProgramExamples (machine world command twoFiles asks_hufman)
open RunExamples (imgA imgB)

/-- The maps of the Huffman coder list their entries the other way round. -/
def other : Setup := { release with orderRgb := List.reverse, orderDiff := List.reverse }

theorem other_lawful : other.Lawful :=
  { release_lawful with orderRgb := fun l => List.reverse_perm l, orderDiff := fun l => List.reverse_perm l }

/-- C92: one image, in two orders. -/
example : measureOne release 0 .hufman ⟨"cat", some imgA, true⟩ = measureOne other 7 .hufman ⟨"cat", some imgA, true⟩ :=
  C92_measured release_lawful other_lawful rfl rfl rfl 0 7 rfl fun img h => by
    cases h
    exact ⟨.refl _, by unfold Addressable; decide⟩

/-- C92: the files of the two runs differ. -/
example : ∃ m m' b b', AnyCodec.hufman.encode release 0 SizeExamples.pair = .ok m ∧
    AnyCodec.hufman.encode other 0 SizeExamples.pair = .ok m' ∧ bytesOf m = .ok b ∧ bytesOf m' = .ok b' ∧ b ≠ b' := by
  exact ⟨_, _, _, _, rfl, rfl, SizeExamples.file1, SizeExamples.file2, by decide⟩

/-- The same in a debug build. -/
def debug : Setup := { other with chk := true }

theorem debug_lawful : debug.Lawful :=
  ⟨other_lawful.float, other_lawful.orderColor, other_lawful.orderRgb, other_lawful.orderDiff, other_lawful.cap⟩

/-- C92: the same row in a debug build. -/
example : ∃ r, measureOne release 0 .delta ⟨"cat", some imgA, true⟩ = (.ok r, none) ∧
    measureOne debug 7 .delta ⟨"cat", some imgA, true⟩ = (.ok r, none) :=
  C92_builds (c := .delta) (img := imgA) release_lawful debug_lawful rfl rfl 0 7 rfl (by decide) rfl (.refl _)
    (by simp [imgA, RunExamples.two]) (by decide)

theorem hufman_safe : machine.Safe .hufman (twoFiles.map String.toList) world := by
  intro path hp f d hd
  have hal : ∃ r : Row, alone machine.host machine.setup machine.fuel .hufman
      (machine.created (reportPath machine.showF64 .hufman) world) path = (.ok r, none) := by
    simp only [twoFiles, List.map_cons, List.map_nil, List.mem_cons, List.not_mem_nil, or_false] at hp
    rcases hp with rfl | rfl
    · obtain ⟨r, h, -⟩ := lossless_alone (m := machine) (c := .hufman) (path := "a/cat.png".toList) (img := imgA)
        (disk := machine.created (reportPath machine.showF64 .hufman) world) release_lawful rfl (by decide) rfl
        (.refl _) (by simp [imgA, RunExamples.two]) (by decide)
      exact ⟨r, h⟩
    · obtain ⟨r, h, -⟩ := lossless_alone (m := machine) (c := .hufman) (path := "b/cat.bmp".toList) (img := imgB)
        (disk := machine.created (reportPath machine.showF64 .hufman) world) release_lawful rfl (by decide) rfl
        (.refl _) (by simp [imgB, RunExamples.two]) (by decide)
      exact ⟨r, h⟩
  obtain ⟨r, h⟩ := hal
  rw [h] at hd
  cases hd

/-- C92: two runs on two images. -/
example {e e' : Exit} {w1 w2 : World (List Char)} (h : Main machine False (command "hufman" twoFiles) world e w1)
    (h' : Main { machine with setup := other, fuel := 3 } False (command "hufman" twoFiles) world e' w2) : e = e' := by
  refine (C92_report release_lawful other_lawful rfl rfl rfl rfl (asks_hufman twoFiles) hufman_safe ?_ h h').1
  intro path hp img hi
  simp only [twoFiles, List.map_cons, List.map_nil, List.mem_cons, List.not_mem_nil, or_false] at hp
  rcases hp with rfl | rfl
  · cases hi.symm.trans (show world.images (machine.host.node "a/cat.png".toList) = some imgA from rfl)
    exact ⟨.refl _, by unfold Addressable; decide⟩
  · cases hi.symm.trans (show world.images (machine.host.node "b/cat.bmp".toList) = some imgB from rfl)
    exact ⟨.refl _, by unfold Addressable; decide⟩

end ReproduceExamples
end Cniic
