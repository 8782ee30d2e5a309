import Verif.Model.Huf

/-!
# Model of the calls of `new_iter` in `encode_all` (`src/huf.rs`)

`encodeAll` (`Model/Huf.lean`) is about a `new_iter` that returns the same items whenever it is called.  The type
`F: Fn() -> I` does not promise this.  Here call number `n` (from 0) returns the items `newIter n`, and calls are counted.  An
iterator is represented by the items that it is going to produce, as in `encodeAll`.
-/

namespace Cniic

/-- Steps that count calls and write to a device. -/
abbrev Caller (α : Type) := Proc IoErr (Nat × Sink) α

/-- `new_iter()` (huf.rs:30 and huf.rs:38). -/
def callIter {T : Type} (newIter : Nat → List T) : Caller (List T) := fun s => (.ok (newIter s.1), (s.1 + 1, s.2))

/-- A step that only uses the device. -/
def onDevice {α : Type} (m : W α) : Caller α := fun s => ((m s.2).1, (s.1, (m s.2).2))

/-- `encode_all` (huf.rs:22-43). -/
def encodeAllCalls {T : Type} [DecidableEq T] [Ser T] (M : MinHeap T)
    (hashOrder : List (T × Nat) → List (T × Nat)) (newIter : Nat → List T) : Caller Unit := do
  let items ← callIter newIter
  match build M (hashOrder (countFreqs items)) with
  | none => Proc.panic
  | some (enc, dec) => do
    onDevice dec.ser
    let items ← callIter newIter
    let w ← onDevice (encodeSymbols enc (BitWriter.new .msbFirst) items)
    let _ ← onDevice w.padAndFlush
    pure ()

end Cniic
