import Verif.Proofs.Rle

/-! # Proofs: the hilbert and delta codecs -/

namespace Cniic
open Spec SerSpec

/-- The colours of an image in the order of a traversal. -/
def colorsAlong (scan : Scan) (img : Img) : List (Rgb UInt8) :=
  (scan img.width.toNat img.height.toNat).map (colorAt img)

theorem forIter_yields {σ α : Type} {K : Surface → Prop} {next : Rd σ α} {f : α → W Unit}
    {g : α → List UInt8} {s : σ} {xs : List α} (h : Yields next s xs) {fuel : Nat}
    (hf : xs.length < fuel) (he : ∀ x ∈ xs, Emits K (f x) (g x) ()) :
    Emits K (forIter next f fuel s) (xs.flatMap g) () := by
  induction xs generalizing s fuel with
  | nil =>
    obtain ⟨P, hs, hP⟩ := h
    obtain ⟨fuel, rfl⟩ : ∃ k, fuel = k + 1 := ⟨fuel - 1, by simp at hf; omega⟩
    have := (hP s hs).1
    rcases hn : next s with ⟨_ | _ | _, s'⟩ <;> rw [hn] at this <;> simp at this
    rw [forIter, hn]
    exact Emits.pure ()
  | cons x xs ih =>
    obtain ⟨s', h1, h2⟩ := h
    obtain ⟨fuel, rfl⟩ : ∃ k, fuel = k + 1 := ⟨fuel - 1, by simp at hf; omega⟩
    rw [forIter, h1]
    exact Emits.bind (he x (by simp)) (ih h2 (by simpa using hf) fun y hy => he y (by simp [hy]))

/-! ## Encoding -/

theorem hilbertEncode_exact {scan : Scan} {img : Img} (fl : FloatOps)
    (hs : VisitsOnce scan img.width.toNat img.height.toNat) {d : F64} (hd : d.isZero = true) :
    ∃ runs, (∀ r ∈ runs, 1 ≤ r.1.toNat) ∧ expandRuns runs = colorsAlong scan img ∧ Maximal runs ∧
      Emits Emits.errOnly (hilbertEncode scan fl (.rle d) img)
        (bytes (img.width, img.height) ++ runs.flatMap runBytes) () := by
  obtain ⟨ps, h1, h2⟩ := linearize_eq hs
  obtain ⟨groups, hg, hy⟩ := rle_groups (exact_represents black) (colorsAlong scan img) none
  obtain ⟨r1, r2, r3⟩ := exact_runs (d := black) hg
  refine ⟨_, r1, r2, r3, ?_⟩
  unfold hilbertEncode
  apply Emits.bind (emits_dims img)
  rw [h1]
  simp only [orPanic, pure_bind, hd, if_true, h2]
  exact forIter_yields hy (by
    rw [List.length_map]
    exact Nat.lt_succ_of_le hg.length_le) fun r _ => emits_run r

theorem hilbertEncode_zip {scan : Scan} {img : Img} (fl : FloatOps)
    (hs : VisitsOnce scan img.width.toNat img.height.toNat) :
    ∃ syms, Parse oneByteSeqs ((colorsAlong scan img).flatMap bytes) syms ∧
      Emits Emits.errOnly (hilbertEncode scan fl .zip img)
        (bytes (img.width, img.height) ++ symBytes syms) () := by
  obtain ⟨ps, h1, h2⟩ := linearize_eq hs
  obtain ⟨syms, hp, he⟩ := zipDictEncode_spec ((colorsAlong scan img).flatMap bytes)
  refine ⟨syms, hp, ?_⟩
  unfold hilbertEncode
  apply Emits.bind (emits_dims img)
  rw [h1]
  simp only [orPanic, pure_bind, h2]
  rw [drain_rgbs]
  simp only [pure_bind]
  exact he

/-! ## Decoding -/

theorem decodeAny_eq {σ : Type} (scan : Scan) (next : Rd σ (Rgb UInt8)) (img : Img)
    (ha : Addressable img) (s : σ) :
    decodeAny scan next (img.width, img.height) s =
      paint next (scan img.width.toNat img.height.toNat)
        { width := img.width, height := img.height
          pixels := List.replicate (img.width.toNat * img.height.toNat) black } s := by
  simp only [decodeAny]
  rw [new_eq img ha]
  rfl

theorem hilbertDecode_rle (scan : Scan) (d : F64) (img : Img) (ha : Addressable img)
    (rest : List UInt8) :
    hilbertDecode scan (.rle d) (bytes (img.width, img.height) ++ rest) =
      (paint RleDecoder.next (scan img.width.toNat img.height.toNat)
        { width := img.width, height := img.height
          pixels := List.replicate (img.width.toNat * img.height.toNat) black } (.new rest)).1 := by
  unfold hilbertDecode Proc.run
  refine (congrArg Prod.fst (Proc.bind_ok
    (LawfulSer.de_bytes _ (dims_valid img.width img.height) rest))).trans ?_
  simp only [onStream, decodeAny_eq scan _ img ha]

theorem hilbertDecode_zip (scan : Scan) (img : Img) (ha : Addressable img) (rest : List UInt8) :
    hilbertDecode scan .zip (bytes (img.width, img.height) ++ rest) =
      (paint (deserStream DictDecoder.next) (scan img.width.toNat img.height.toNat)
        { width := img.width, height := img.height
          pixels := List.replicate (img.width.toNat * img.height.toNat) black }
        (zipDictDecode rest)).1 := by
  unfold hilbertDecode Proc.run
  refine (congrArg Prod.fst (Proc.bind_ok
    (LawfulSer.de_bytes _ (dims_valid img.width img.height) rest))).trans ?_
  simp only [onStream, decodeAny_eq scan _ img ha]

theorem rgb_de_nil : (de listNext [] : Ret Unit (Rgb UInt8) × List UInt8).1 = .err () :=
  de_nil fun c => by
    intro h
    have := congrArg List.length h
    rw [rgb_bytes_length] at this
    simp at this

/-! ## Differences -/

instance : SerSpec SignedColor :=
  ⟨fun _ => True, fun c => bytes c.r ++ bytes c.g ++ bytes c.b⟩

/-- A signed colour as an array. -/
def SignedColor.toVec (c : SignedColor) : Vector Int16 3 := ⟨#[c.r, c.g, c.b], rfl⟩

theorem SignedColor.valid_toVec (c : SignedColor) : valid c.toVec := fun _ _ => trivial

theorem SignedColor.bytes_toVec (c : SignedColor) : bytes c.toVec = bytes c := by
  show List.flatMap bytes [c.r, c.g, c.b] = _
  simp [SerSpec.bytes]

theorem SignedColor.ofVec_toVec (v : Vector Int16 3) : (⟨v[0], v[1], v[2]⟩ : SignedColor).toVec = v := by
  apply Vector.ext
  intro i hi
  match i, hi with
  | 0, _ => rfl
  | 1, _ => rfl
  | 2, _ => rfl

instance : LawfulSer SignedColor where
  emits c _ := by
    rw [← c.bytes_toVec]; exact LawfulSer.emits c.toVec c.valid_toVec
  sim R Q n n' hq h := Sim.bind (LawfulSer.sim R Q n n' hq h) fun _ => Sim.pure _
  de_bytes c _ rest := by
    show (de listNext >>= fun v : Vector Int16 3 => pure (⟨v[0], v[1], v[2]⟩ : SignedColor)) _ = _
    rw [← c.bytes_toVec, Proc.bind_ok (LawfulSer.de_bytes c.toVec c.valid_toVec rest)]
    rfl
  canon l a r h := by
    obtain ⟨v, s1, h1, h⟩ := bind_ok_inv h
    obtain ⟨_, e1⟩ := LawfulSer.canon _ _ _ h1
    cases h
    refine ⟨trivial, ?_⟩
    rw [← SignedColor.bytes_toVec, SignedColor.ofVec_toVec]
    exact e1
  no_panic l := bind_no_panic (LawfulSer.no_panic l) fun _ _ _ => by simp

theorem int16_toInt_ofNat_u8 (x : UInt8) : (Int16.ofNat x.toNat).toInt = x.toNat := by
  have := x.toNat_lt
  exact Int16.toInt_ofNat_of_lt (by omega)

theorem toInt_sub_u8 (x y : UInt8) :
    (Int16.ofNat x.toNat - Int16.ofNat y.toNat).toInt = (x.toNat : Int) - y.toNat := by
  have h1 := x.toNat_lt
  have h2 := y.toNat_lt
  rw [Int16.toInt_sub, int16_toInt_ofNat_u8, int16_toInt_ofNat_u8]
  apply Int.bmod_eq_of_le <;> omega

theorem subI16_u8 (chk : Bool) (x y : UInt8) :
    subI16 chk (Int16.ofNat x.toNat) (Int16.ofNat y.toNat) =
      some (Int16.ofNat x.toNat - Int16.ofNat y.toNat) := by
  unfold subI16
  rw [toInt_sub_u8, int16_toInt_ofNat_u8, int16_toInt_ofNat_u8, if_neg]
  simp

theorem addI16_u8 (chk : Bool) (x y : UInt8) :
    addI16 chk (Int16.ofNat y.toNat) (Int16.ofNat x.toNat - Int16.ofNat y.toNat) =
      some (Int16.ofNat x.toNat) := by
  have h1 := x.toNat_lt
  have h2 := y.toNat_lt
  have h3 : Int16.ofNat y.toNat + (Int16.ofNat x.toNat - Int16.ofNat y.toNat) = Int16.ofNat x.toNat := by
    apply Int16.toInt.inj
    rw [Int16.toInt_add, toInt_sub_u8, int16_toInt_ofNat_u8, int16_toInt_ofNat_u8]
    rw [Int.bmod_eq_of_le] <;> omega
  unfold addI16
  rw [h3, if_neg]
  simp only [toInt_sub_u8, int16_toInt_ofNat_u8]
  simp
  intro _; omega

theorem u8TryFromI16_u8 (x : UInt8) : u8TryFromI16 (Int16.ofNat x.toNat) = some x := by
  have h1 := x.toNat_lt
  unfold u8TryFromI16
  rw [int16_toInt_ofNat_u8, if_pos (by omega)]
  simp

/-- The difference of two colours. -/
def diffOf (c d : Rgb UInt8) : SignedColor :=
  ⟨Int16.ofNat c.r.toNat - Int16.ofNat d.r.toNat, Int16.ofNat c.g.toNat - Int16.ofNat d.g.toNat,
    Int16.ofNat c.b.toNat - Int16.ofNat d.b.toNat⟩

/-- Each colour minus the one before it. -/
def diffs (last : Rgb UInt8) : List (Rgb UInt8) → List SignedColor
  | [] => []
  | c :: cs => diffOf c last :: diffs c cs

theorem diffs_length (last : Rgb UInt8) (cs : List (Rgb UInt8)) : (diffs last cs).length = cs.length := by
  induction cs generalizing last with
  | nil => rfl
  | cons c cs ih => simp [diffs, ih]

theorem diffs_take (last : Rgb UInt8) (cs : List (Rgb UInt8)) (m : Nat) :
    (diffs last cs).take m = diffs last (cs.take m) := by
  induction cs generalizing last m with
  | nil => simp [diffs]
  | cons c cs ih => cases m <;> simp [diffs, ih]

theorem sub_ofRgb (chk : Bool) (c d : Rgb UInt8) :
    (SignedColor.ofRgb c).sub chk (SignedColor.ofRgb d) = some (diffOf c d) := by
  simp [SignedColor.sub, SignedColor.ofRgb, subI16_u8, diffOf]

theorem add_diffOf (chk : Bool) (c d : Rgb UInt8) :
    (SignedColor.ofRgb d).add chk (diffOf c d) = some (SignedColor.ofRgb c) := by
  simp [SignedColor.add, SignedColor.ofRgb, addI16_u8, diffOf]

theorem tryIntoRgb_ofRgb (c : Rgb UInt8) : (SignedColor.ofRgb c).tryIntoRgb = some c := by
  simp [SignedColor.tryIntoRgb, SignedColor.ofRgb, u8TryFromI16_u8]

theorem start_eq : SignedColor.start = SignedColor.ofRgb black := rfl

theorem diffStream_yields (chk : Bool) (last : Rgb UInt8) (cs : List (Rgb UInt8)) :
    Yields (DiffStream.next chk) ⟨cs, .ofRgb last⟩ (diffs last cs) := by
  induction cs generalizing last with
  | nil => exact ⟨fun t => t = ⟨[], .ofRgb last⟩, rfl, by rintro t rfl; exact ⟨rfl, rfl⟩⟩
  | cons c cs ih =>
    refine ⟨⟨cs, .ofRgb c⟩, ?_, ih c⟩
    simp only [DiffStream.next, sub_ofRgb]

theorem fromDiff_step {σ : Type} (chk : Bool) {next : Rd σ SignedColor} {s s' : σ} {c d : Rgb UInt8}
    (h : next s = (.ok (diffOf c d), s')) :
    FromDiff.next chk next ⟨s, .ofRgb d⟩ = (.ok c, ⟨s', .ofRgb c⟩) := by
  simp only [FromDiff.next, h, add_diffOf, tryIntoRgb_ofRgb]

theorem fromDiff_supplies {σ : Type} (chk : Bool) {next : Rd σ SignedColor} {s : σ}
    (last : Rgb UInt8) (cs : List (Rgb UInt8)) (h : Supplies next s (diffs last cs)) :
    Supplies (FromDiff.next chk next) ⟨s, .ofRgb last⟩ cs := by
  induction cs generalizing s last with
  | nil => trivial
  | cons c cs ih =>
    obtain ⟨s', h1, h2⟩ := h
    exact ⟨_, fromDiff_step chk h1, ih c h2⟩

theorem fromDiff_endsAfter {σ : Type} (chk : Bool) {next : Rd σ SignedColor} {s : σ}
    (last : Rgb UInt8) (cs : List (Rgb UInt8)) (h : EndsAfter next s (diffs last cs)) :
    EndsAfter (FromDiff.next chk next) ⟨s, .ofRgb last⟩ cs := by
  induction cs generalizing s last with
  | nil =>
    simp only [EndsAfter, diffs] at h ⊢
    rcases hn : next s with ⟨_ | _ | _, s'⟩ <;> rw [hn] at h <;> simp at h
    simp [FromDiff.next, hn]
  | cons c cs ih =>
    obtain ⟨s', h1, h2⟩ := h
    exact ⟨_, fromDiff_step chk h1, ih c h2⟩

theorem deltaEncode_eq (chk : Bool) {scan : Scan} {img : Img} (M : MinHeap SignedColor)
    (ho : List (SignedColor × Nat) → List (SignedColor × Nat))
    (hs : VisitsOnce scan img.width.toNat img.height.toNat) :
    deltaEncode chk scan M ho img = (do
      ser (img.width, img.height)
      encodeAll M ho (diffs black (colorsAlong scan img))) := by
  obtain ⟨ps, h1, h2⟩ := linearize_eq hs
  unfold deltaEncode
  rw [h1]
  simp only [orPanic, pure_bind, h2]
  have : drain (DiffStream.next chk) ((colorsAlong scan img).length + 1)
      (DiffStream.new (colorsAlong scan img)) = _ :=
    drain_of_yields (diffStream_yields chk black (colorsAlong scan img)) (by rw [diffs_length]; omega)
  simp only [colorsAlong] at this ⊢
  rw [this]

theorem deltaDecode_eq (chk : Bool) (scan : Scan) (img : Img) (ha : Addressable img)
    (rest : List UInt8) :
    deltaDecode chk scan (bytes (img.width, img.height) ++ rest) =
      match decodeAll rest with
      | (.ok ds, _) =>
        (paint (FromDiff.next chk DecStream.next) (scan img.width.toNat img.height.toNat)
          { width := img.width, height := img.height
            pixels := List.replicate (img.width.toNat * img.height.toNat) black }
          ⟨ds, .ofRgb black⟩).1
      | _ => .panic := by
  unfold deltaDecode Proc.run
  rw [Proc.bind_ok (createBuffer_eq img ha rest)]
  simp only [Proc.bind_def, Proc.unwrap]
  rcases (decodeAll rest : Ret Unit (DecStream SignedColor) × List UInt8) with ⟨_ | _ | _, _⟩ <;> rfl

end Cniic
