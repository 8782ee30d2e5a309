import Verif.Core.Float
import Verif.Model.Hilbert
import Verif.Model.Huf
import Verif.Model.ZipDict
import Verif.Model.Hufc
import Verif.Model.Zipc

/-!
# Model of `src/codec/hilbertc.rs`

`print!`/`println!` (hilbertc.rs:34,41,133) are not modelled.  `chk` tells whether the program is compiled
with overflow checks.
-/

namespace Cniic

/-! ## AbstractRle -/

/-- `trait Criteria<T>` (hilbertc.rs:154-158) implemented by a state `S`; `none` = panic. -/
structure Criteria (S T : Type) where
  startSequence : S → T → S
  accept : S → T → Option (Bool × S)
  endRepetition : S → Option (T × S)

/-- `struct AbstractRle` (hilbertc.rs:99-103); the source iterator is the list of its items. -/
structure AbstractRle (S T : Type) where
  iter     : List T
  criteria : S
  last     : Option T

/-- `AbstractRle::new` (hilbertc.rs:106-112). -/
def AbstractRle.new {S T : Type} (iter : List T) (initState : S) : AbstractRle S T :=
  { iter := iter, criteria := initState, last := none }

/-- The loop of `AbstractRle::next` (hilbertc.rs:127-143): what is left of the source, the state of the
criteria, `self.last`, the count; `none` = panic. -/
def rleLoop {S T : Type} (C : Criteria S T) :
    List T → S → UInt8 → Option (List T × S × Option T × UInt8)
  | [], crit, count => some ([], crit, none, count)
  | x :: iter, crit, count =>
    match C.accept crit x with
    | none => none
    | some (true, crit) =>
      let count := count + 1
      if count = 255 then some (iter, crit, none, count) else rleLoop C iter crit count
    | some (false, crit) => some (iter, crit, some x, count)

/-- `AbstractRle::next` (hilbertc.rs:118-151). -/
def AbstractRle.next {S T : Type} (C : Criteria S T) : Rd (AbstractRle S T) (UInt8 × T) := fun s =>
  -- lines 119-122
  let start : Option (T × List T) :=
    match s.last with
    | some x => some (x, s.iter)
    | none =>
      match s.iter with
      | x :: iter => some (x, iter)
      | [] => none
  match start with
  | none => (.err (), { s with last := none })
  | some (nextVal, iter) =>
    match rleLoop C iter (C.startSequence s.criteria nextVal) 1 with
    | none => (.panic, s)
    | some (iter, crit, last, count) =>
      match C.endRepetition crit with
      | none => (.panic, s)
      | some (v, crit) => (.ok (count, v), { iter := iter, criteria := crit, last := last })

/-! ## rle_exact -/

/-- `impl Criteria for Exact` (hilbertc.rs:178-196); the state is `curr_val` (hilbertc.rs:166-168). -/
def Exact {T : Type} [DecidableEq T] : Criteria (Option T) T where
  startSequence _ v := some v
  accept s x := match s with
    | some y => some (y = x, s)
    | none => none
  endRepetition s := match s with
    | some y => some (y, none)
    | none => none

/-- `rle_exact` (hilbertc.rs:162-164). -/
def rleExact {T : Type} (iter : List T) : AbstractRle (Option T) T := .new iter none

/-! ## rle_approx -/

/-- `struct RunningAvg` (hilbertc.rs:251-254). -/
structure RunningAvg where
  sum   : Rgb Rat
  count : Nat

/-- `as_f64` (hilbertc.rs:287-290). -/
def asF64 (c : Rgb UInt8) : Rgb Rat := ⟨c.r.toNat, c.g.toNat, c.b.toNat⟩

/-- `RunningAvg::new` (hilbertc.rs:257-262). -/
def RunningAvg.new (c : Rgb UInt8) : RunningAvg := { sum := asF64 c, count := 1 }

/-- `RunningAvg::add` (hilbertc.rs:264-269). -/
def RunningAvg.add (fl : FloatOps) (a : RunningAvg) (x : Rgb UInt8) : RunningAvg :=
  { sum := ⟨fl.add a.sum.r x.r.toNat, fl.add a.sum.g x.g.toNat, fl.add a.sum.b x.b.toNat⟩
    count := a.count + 1 }

/-- `RunningAvg::avg_f64` (hilbertc.rs:271-274). -/
def RunningAvg.avgF64 (fl : FloatOps) (a : RunningAvg) : Rgb Rat :=
  ⟨fl.div a.sum.r a.count, fl.div a.sum.g a.count, fl.div a.sum.b a.count⟩

/-- The closure `safe_convert` (hilbertc.rs:278-281); `none` = panic. -/
def safeConvert (x : Rat) : Option UInt8 := if x ≤ 255 then some (roundU8 x) else none

/-- `RunningAvg::avg` (hilbertc.rs:276-284); `none` = panic. -/
def RunningAvg.avg (fl : FloatOps) (a : RunningAvg) : Option (Rgb UInt8) :=
  let c := a.avgF64 fl
  match safeConvert c.r, safeConvert c.g, safeConvert c.b with
  | some r, some g, some b => some ⟨r, g, b⟩
  | _, _, _ => none

/-- `Distance for [f64; 3]` (hilbertc.rs:292-300). -/
def distF64 (fl : FloatOps) (a b : Rgb Rat) : Rat :=
  let dist := fl.add 0 (fl.powi2 (fl.sub a.r b.r))
  let dist := fl.add dist (fl.powi2 (fl.sub a.g b.g))
  let dist := fl.add dist (fl.powi2 (fl.sub a.b b.b))
  fl.sqrt dist

/-- `impl Criteria for Approx` (hilbertc.rs:218-246); the state is `running_avg` (hilbertc.rs:204-207). -/
def Approx (fl : FloatOps) (allow : F64) : Criteria (Option RunningAvg) (Rgb UInt8) where
  startSequence _ v := some (.new v)
  accept s x := match s with
    | some avg =>
      let accept := allow.ge (distF64 fl (avg.avgF64 fl) (asF64 x))
      some (accept, some (if accept then avg.add fl x else avg))
    | none => none
  endRepetition s := match s with
    | some avg =>
      match avg.avg fl with
      | some c => some (c, none)
      | none => none
    | none => none

/-- `rle_approx` (hilbertc.rs:200-202). -/
def rleApprox (iter : List (Rgb UInt8)) : AbstractRle (Option RunningAvg) (Rgb UInt8) := .new iter none

/-! ## RleDecoder -/

/-- `struct RleDecoder` (hilbertc.rs:304-308) over a list of bytes. -/
structure RleDecoder where
  bytes     : List UInt8
  currColor : Rgb UInt8
  count     : UInt8

/-- `RleDecoder::new` (hilbertc.rs:311-317). -/
def RleDecoder.new (bytes : List UInt8) : RleDecoder :=
  { bytes := bytes, currColor := black, count := 0 }

/-- `RleDecoder::next` (hilbertc.rs:323-332). -/
def RleDecoder.next : Rd RleDecoder (Rgb UInt8) := fun d =>
  if d.count = 0 then
    match (de listNext d.bytes : Ret Unit UInt8 × List UInt8) with
    | (.ok count, bytes) =>
      if count > 0 then
        match (de listNext bytes : Ret Unit (Rgb UInt8) × List UInt8) with
        | (.ok color, bytes) => (.ok color, { bytes := bytes, currColor := color, count := count - 1 })
        | (_, bytes) => (.panic, { d with bytes := bytes, count := count })
      else (.panic, { d with bytes := bytes, count := count })
    | (.err _, bytes) => (.err (), { d with bytes := bytes })
    | (.panic, bytes) => (.panic, { d with bytes := bytes })
  else (.ok d.currColor, { d with count := d.count - 1 })

/-! ## The hilbert codec -/

/-- `enum CompressionMethod` (hilbertc.rs:16-21), the parameter of `struct Hilbert`
(hilbertc.rs:12-14). -/
inductive CompressionMethod where
  | rle (d : F64)
  | zip
  deriving DecidableEq

/-- `for x in iter { f(x)?; }` where the items come from a `next`.  `fuel` bounds the number of pulls;
running out of it is reported as a panic (and shown not to happen where used). -/
def forIter {σ α : Type} (next : Rd σ α) (f : α → W Unit) : Nat → σ → W Unit
  | 0, _ => Proc.panic
  | fuel + 1, s =>
    match next s with
    | (.ok a, s) => do
      f a
      forIter next f fuel s
    | (.err _, _) => pure ()
    | (.panic, _) => Proc.panic

/-- `count.serialize(writer)?; color.serialize(writer)?;` (hilbertc.rs:36-37,43-44). -/
def serRun (r : UInt8 × Rgb UInt8) : W Unit := do
  ser r.1
  ser r.2

/-- `Hilbert::encode` (hilbertc.rs:26-53). -/
def hilbertEncode (scan : Scan) (fl : FloatOps) (m : CompressionMethod) (img : Img) : W Unit := do
  ser (img.width, img.height)
  let iter ← orPanic (linearize scan img)
  let iter := iter.map Rgba.toRgb
  match m with
  | .rle d =>
    if d.isZero then forIter (AbstractRle.next Exact) serRun (iter.length + 1) (rleExact iter)
    else forIter (AbstractRle.next (Approx fl d)) serRun (iter.length + 1) (rleApprox iter)
  | .zip =>
    let bytes ← orPanic (drainBytes SerStream.next (11 * iter.length + 1) (SerStream.fromIter iter))
    zipDictEncode bytes

/-- `hilbert.zip(iter).for_each(|((x, y), color)| *img_buffer.get_pixel_mut(x, y) = color)`
(hilbertc.rs:59-62,426-428): stops when either side ends; the traversal is asked first. -/
def paint {σ : Type} (next : Rd σ (Rgb UInt8)) : List (Nat × Nat) → RgbImage → Rd σ RgbImage
  | [], img, s => (.ok img, s)
  | (x, y) :: cells, img, s =>
    match next s with
    | (.ok color, s) =>
      match img.put x y color with
      | some img => paint next cells img s
      | none => (.panic, s)
    | (.err _, s) => (.ok img, s)
    | (.panic, s) => (.panic, s)

/-- `decode_any` (hilbertc.rs:56-65). -/
def decodeAny {σ : Type} (scan : Scan) (next : Rd σ (Rgb UInt8)) (dimensions : UInt32 × UInt32) :
    Rd σ RgbImage := do
  let img ← orPanic (RgbImage.new dimensions.1 dimensions.2)
  paint next (scan dimensions.1.toNat dimensions.2.toNat) img

/-- `Hilbert::decode` (hilbertc.rs:55-79) on the bytes of a file. -/
def hilbertDecode (scan : Scan) (m : CompressionMethod) (bytes : List UInt8) : Ret Unit RgbImage :=
  (Proc.run (do
    let dimensions : UInt32 × UInt32 ← de listNext
    fun reader =>
      match m with
      | .rle _ => onStream (decodeAny scan RleDecoder.next dimensions) (.new reader) reader
      | .zip =>
        onStream (decodeAny scan (deserStream DictDecoder.next) dimensions) (zipDictDecode reader)
          reader) bytes).1

/-! ## The delta codec -/

/-- `struct SignedColor` (hilbertc.rs:516). -/
structure SignedColor where
  r : Int16
  g : Int16
  b : Int16
  deriving Repr, DecidableEq

/-- `Serialize`/`Deserialize for SignedColor` (hilbertc.rs:561-571), through `[i16; 3]`. -/
instance : Ser SignedColor where
  ser c := ser (⟨#[c.r, c.g, c.b], rfl⟩ : Vector Int16 3)
  de next := do
    let v : Vector Int16 3 ← de next
    pure ⟨v[0], v[1], v[2]⟩

/-- `START` (hilbertc.rs:445). -/
def SignedColor.start : SignedColor := ⟨0, 0, 0⟩

/-- `From<Rgb<u8>> for SignedColor` (hilbertc.rs:518-525). -/
def SignedColor.ofRgb (c : Rgb UInt8) : SignedColor :=
  ⟨Int16.ofNat c.r.toNat, Int16.ofNat c.g.toNat, Int16.ofNat c.b.toNat⟩

/-- `u8::try_from(i16)` (used in hilbertc.rs:533). -/
def u8TryFromI16 (n : Int16) : Option UInt8 :=
  if 0 ≤ n.toInt ∧ n.toInt ≤ 255 then some (UInt8.ofNat n.toInt.toNat) else none

/-- `TryFrom<SignedColor> for Rgb<u8>` (hilbertc.rs:527-537). -/
def SignedColor.tryIntoRgb (c : SignedColor) : Option (Rgb UInt8) :=
  match u8TryFromI16 c.r, u8TryFromI16 c.g, u8TryFromI16 c.b with
  | some r, some g, some b => some ⟨r, g, b⟩
  | _, _, _ => none

/-- `-` on `i16`: with overflow checks a panic (`none`) if the result does not fit, otherwise wrapping. -/
def subI16 (chk : Bool) (a b : Int16) : Option Int16 :=
  if chk && (a - b).toInt ≠ a.toInt - b.toInt then none else some (a - b)

/-- `+` on `i16`, likewise. -/
def addI16 (chk : Bool) (a b : Int16) : Option Int16 :=
  if chk && (a + b).toInt ≠ a.toInt + b.toInt then none else some (a + b)

/-- `Sub for SignedColor` (hilbertc.rs:539-548); `none` = panic. -/
def SignedColor.sub (chk : Bool) (a b : SignedColor) : Option SignedColor :=
  match subI16 chk a.r b.r, subI16 chk a.g b.g, subI16 chk a.b b.b with
  | some r, some g, some b => some ⟨r, g, b⟩
  | _, _, _ => none

/-- `Add for SignedColor` (hilbertc.rs:550-559); `none` = panic. -/
def SignedColor.add (chk : Bool) (a b : SignedColor) : Option SignedColor :=
  match addI16 chk a.r b.r, addI16 chk a.g b.g, addI16 chk a.b b.b with
  | some r, some g, some b => some ⟨r, g, b⟩
  | _, _, _ => none

/-- `struct DiffStream` (hilbertc.rs:449-452); the source iterator is the list of its items. -/
structure DiffStream where
  input : List (Rgb UInt8)
  last  : SignedColor

/-- `DiffStream::new` (hilbertc.rs:455-460). -/
def DiffStream.new (input : List (Rgb UInt8)) : DiffStream := { input := input, last := .start }

/-- `DiffStream::next` (hilbertc.rs:466-476). -/
def DiffStream.next (chk : Bool) : Rd DiffStream SignedColor := fun s =>
  match s.input with
  | c :: input =>
    let newSigned := SignedColor.ofRgb c
    match newSigned.sub chk s.last with
    | some diff => (.ok diff, { input := input, last := newSigned })
    | none => (.panic, s)
  | [] => (.err (), s)

/-- `struct FromDiff` (hilbertc.rs:482-485). -/
structure FromDiff (σ : Type) where
  diffStream : σ
  lastColor  : SignedColor

/-- `FromDiff::new` (hilbertc.rs:488-493). -/
def FromDiff.new {σ : Type} (s : σ) : FromDiff σ := { lastColor := .start, diffStream := s }

/-- `FromDiff::next` (hilbertc.rs:499-508). -/
def FromDiff.next {σ : Type} (chk : Bool) (next : Rd σ SignedColor) : Rd (FromDiff σ) (Rgb UInt8) :=
  fun s =>
    match next s.diffStream with
    | (.ok newDiff, d) =>
      match s.lastColor.add chk newDiff with
      | none => (.panic, { s with diffStream := d })
      | some newSigned =>
        match newSigned.tryIntoRgb with
        | some c => (.ok c, { diffStream := d, lastColor := newSigned })
        | none => (.panic, { diffStream := d, lastColor := newSigned })
    | (.err _, d) => (.err (), { s with diffStream := d })
    | (.panic, d) => (.panic, { s with diffStream := d })

/-- `Delta::encode` (hilbertc.rs:405-415).  `encode_all` calls the closure twice; each call traverses the
same image, so the items are the same. -/
def deltaEncode (chk : Bool) (scan : Scan) (M : MinHeap SignedColor)
    (hashOrder : List (SignedColor × Nat) → List (SignedColor × Nat)) (img : Img) : W Unit := do
  ser (img.width, img.height)
  let iter ← orPanic (linearize scan img)
  let iter := iter.map Rgba.toRgb
  match drain (DiffStream.next chk) (iter.length + 1) (DiffStream.new iter) with
  | .ok items => encodeAll M hashOrder items
  | _ => Proc.panic

/-- `Delta::decode` (hilbertc.rs:417-431) on the bytes of a file. -/
def deltaDecode (chk : Bool) (scan : Scan) (bytes : List UInt8) : Ret Unit RgbImage :=
  (Proc.run (do
    let (dimensions, img) ← createImageBufferStandard listNext
    let diffStream ← Proc.unwrap decodeAll
    onStream (paint (FromDiff.next chk DecStream.next) (scan dimensions.1.toNat dimensions.2.toNat) img)
      (FromDiff.new diffStream)) bytes).1

end Cniic
