import Verif.Proofs.BackNotes
import Verif.Props.ZipBack

/-!
# What zip-back prints (C103)
-/

namespace Cniic
open Spec Back

/-- **C103.** What is printed while the encoder works is described by `Says`, next to the symbols that are written.  If a
literal run or a copy is too long for the format, its length is the last thing printed. -/
theorem C103_printed (cap : Caps) (hcap : ∀ i, repBufInit ≤ cap i) (input : List UInt8) :
    ∃ syms notes, Says ringSize [] [] input syms notes ∧ Factor ringSize [] [] input syms ∧
      zipBackEncode ringSize cap input = Proc.forEach Symbol.ser syms ∧
      zipBackNotes ringSize cap input = upToTooLong notes := by
  obtain ⟨syms, notes, h1, h2, h3⟩ := encodeLoopNotes_spec (show 0 < ringSize by decide) (show ringSize ≤ 65535 by decide) hcap
    (input.length + 1) (e := .new ringSize input) ⟨.new ringSize, .new input⟩ (by simp)
  exact ⟨syms, notes, h1, Says.factor h1, h2, h3⟩

/-- **C103**, the lengths: when encoding succeeds, the printed lengths of the literal runs and copies add up to the length of
the input, and the size of the file can be read from them: 2 bytes and the literal bytes for each run, 4 bytes for each copy. -/
theorem C103_lengths (cap : Caps) (hcap : ∀ i, repBufInit ≤ cap i) (input bytes : List UInt8)
    (h : bytesOf (zipBackEncode ringSize cap input) = .ok bytes) :
    ((zipBackNotes ringSize cap input).map noteLen).sum = input.length ∧
    ((zipBackNotes ringSize cap input).map noteSize).sum = bytes.length ∧
    ∀ n ∈ zipBackNotes ringSize cap input, ¬ TooLong n := by
  obtain ⟨syms, notes, h1, -, h2, h3⟩ := C103_printed cap hcap input
  rw [h2] at h
  obtain ⟨hfit, rfl⟩ := bytesOf_syms h
  have hn := (says_fits (by decide) h1).2 hfit
  rw [h3, upTo_none hn]
  obtain ⟨h4, h5⟩ := says_sums h1
  exact ⟨by simpa using h4, h5, hn⟩

/-- **C103**, the panic: when encoding does not succeed, the last thing printed is a length above 32767, and it is the only
one. -/
theorem C103_panic (cap : Caps) (hcap : ∀ i, repBufInit ≤ cap i) (input : List UInt8)
    (h : ∀ bytes, bytesOf (zipBackEncode ringSize cap input) ≠ .ok bytes) :
    ∃ pre n, zipBackNotes ringSize cap input = pre ++ [n] ∧ TooLong n ∧ ∀ m ∈ pre, ¬ TooLong m := by
  obtain ⟨syms, notes, h1, -, h2, h3⟩ := C103_printed cap hcap input
  rw [h3]
  apply upTo_some
  intro hn
  refine h (syms.flatMap symbolBytes) ?_
  rw [h2]
  exact (emits_syms ((says_fits (by decide) h1).1 hn)).bytesOf

/-- **C103**, the numbers after the question marks: at most 65530 places are compared, and when encoding succeeds a copy
follows if and only if there are any. -/
theorem C103_places (cap : Caps) (hcap : ∀ i, repBufInit ≤ cap i) (input bytes : List UInt8)
    (h : bytesOf (zipBackEncode ringSize cap input) = .ok bytes) (pre post : List Note) (k : Nat)
    (he : zipBackNotes ringSize cap input = pre ++ .asked k :: post) :
    k ≤ 65530 ∧ (0 < k ↔ CopyNext k post) := by
  obtain ⟨syms, notes, h1, -, h2, h3⟩ := C103_printed cap hcap input
  rw [h2] at h
  obtain ⟨hfit, rfl⟩ := bytesOf_syms h
  rw [h3, upTo_none ((says_fits (by decide) h1).2 hfit)] at he
  exact says_asked h1 he

/-- **C103**, the text: what is on the console tells the notes, so the lengths can be read from it. -/
theorem C103_text (xs ys : List Note) : String.join (xs.map Note.text) = String.join (ys.map Note.text) ↔ xs = ys := by
  refine ⟨fun h => text_inj xs ys ?_, fun h => by rw [h]⟩
  have := congrArg String.toList h
  rw [join_chars, join_chars, List.flatMap_map, List.flatMap_map] at this
  exact this

/-- **C103**, the text and the sizes: two inputs with the same text on the console have the same length, and so have their files. -/
theorem C103_text_sizes {cap cap' : Caps} (hcap : ∀ i, repBufInit ≤ cap i) (hcap' : ∀ i, repBufInit ≤ cap' i)
    {input input' bytes bytes' : List UInt8} (h : bytesOf (zipBackEncode ringSize cap input) = .ok bytes)
    (h' : bytesOf (zipBackEncode ringSize cap' input') = .ok bytes')
    (ht : String.join ((zipBackNotes ringSize cap input).map Note.text) =
      String.join ((zipBackNotes ringSize cap' input').map Note.text)) :
    input.length = input'.length ∧ bytes.length = bytes'.length := by
  have e := (C103_text _ _).1 ht
  obtain ⟨h1, h2, -⟩ := C103_lengths cap hcap input bytes h
  obtain ⟨h3, h4, -⟩ := C103_lengths cap' hcap' input' bytes' h'
  rw [e] at h1 h2
  exact ⟨h1.symm.trans h3, h2.symm.trans h4⟩

/-! ## Examples -/

/-- Eight bytes three times: nothing is found at 0, 2 and 4 bytes, one place after 8; all 16 bytes that were read ahead are
not a repetition of the 8 bytes there are. -/
example : zipBackNotes 32 (fun _ => 16)
      [1, 2, 3, 4, 5, 6, 7, 8, 1, 2, 3, 4, 5, 6, 7, 8, 1, 2, 3, 4, 5, 6, 7, 8] =
    [.asked 0, .asked 0, .asked 0, .asked 1, .literal 8, .copy 8, .asked 2, .more 8 16, .copy 8] := by decide +kernel

/-- Its text. -/
example : String.join ([Note.asked 2, .more 8 16, .literal 5, .copy 8].map Note.text) =
    "?2 Buffered extra data from 8 to 16\n\n-5 +8 " := by decide +kernel

/-- Eight bytes twice, with the window of the program. -/
def twice : List UInt8 := [1, 2, 3, 4, 5, 6, 7, 8, 1, 2, 3, 4, 5, 6, 7, 8]

/-- A split as in `C103_places`. -/
theorem twice_notes : zipBackNotes ringSize (fun _ => 16) twice =
    [.asked 0, .asked 0, .asked 0] ++ .asked 1 :: [.more 8 16, .literal 8, .copy 8] := by decide +kernel

/-- The hypothesis of `C103_lengths` and `C103_places`. -/
theorem twice_ok : ∃ bytes, bytesOf (zipBackEncode ringSize (fun _ => 16) twice) = .ok bytes := by
  obtain ⟨bytes, h⟩ := C22_short_inputs (fun _ => 16) (fun _ => by decide) twice (by decide)
  exact ⟨bytes, h.bytesOf⟩

example : CopyNext 1 [.more 8 16, .literal 8, .copy 8] := by
  obtain ⟨bytes, h⟩ := twice_ok
  exact (C103_places _ (fun _ => by decide) _ _ h _ _ _ twice_notes).2.1 (by decide)

example : ∃ bytes, bytesOf (zipBackEncode ringSize (fun _ => 16) twice) = .ok bytes ∧ bytes.length = 14 := by
  obtain ⟨bytes, h⟩ := twice_ok
  refine ⟨bytes, h, ?_⟩
  rw [← (C103_lengths _ (fun _ => by decide) _ _ h).2.1, twice_notes]
  decide

/-- Other bytes, the same text. -/
example : ∃ bytes bytes', bytesOf (zipBackEncode ringSize (fun _ => 16) twice) = .ok bytes ∧
    bytesOf (zipBackEncode ringSize (fun _ => 16) (twice.map (· + 1))) = .ok bytes' ∧ bytes.length = bytes'.length := by
  obtain ⟨bytes, h⟩ := twice_ok
  obtain ⟨bytes', h'⟩ := C22_short_inputs (fun _ => 16) (fun _ => by decide) (twice.map (· + 1)) (by decide)
  refine ⟨bytes, bytes', h, h'.bytesOf, (C103_text_sizes (fun _ => by decide) (fun _ => by decide) h h'.bytesOf ?_).2⟩
  rw [C103_text]
  decide +kernel

/-- The hypothesis of `C103_panic`: many equal bytes. -/
example : ∃ pre n, zipBackNotes ringSize (fun _ => 16) (List.replicate 131072 7) = pre ++ [n] ∧ TooLong n := by
  obtain ⟨pre, n, h1, h2, -⟩ := C103_panic (fun _ => 16) (fun _ => by decide) (List.replicate 131072 7) (by
    intro bytes h
    rw [C22_fails_on_constant_inputs _ (fun _ => by decide) 7 _ (by decide)] at h
    cases h)
  exact ⟨pre, n, h1, h2⟩

end Cniic
