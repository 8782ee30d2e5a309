import Verif.Proofs.Consumed
import Verif.Props.Position

/-!
# The bytes that decoding consumes (C127)

C126 is about the files that the encoders write; these theorems are about any bytes at all.
-/

namespace Cniic
open Spec SerSpec

theorem hufmanFill_iff {n : Nat} {s s' : DecStream (Rgb UInt8)} {xs : List (Rgb UInt8)} :
    hufmanFill n s = (.ok xs, s') ↔ Tame.takeAll DecStream.next n s = (.ok xs, s') := by
  induction n generalizing s xs with
  | zero => exact Iff.rfl
  | succ n ih =>
    rw [hufmanFill]
    rcases h1 : DecStream.next s with ⟨x | _ | _, s1⟩
    · have e : Tame.takeAll DecStream.next (n + 1) s =
          (do let as ← Tame.takeAll DecStream.next n; pure (x :: as) : Rd (DecStream (Rgb UInt8)) _) s1 :=
        Proc.bind_ok h1
      rw [e]
      constructor
      · intro h
        rcases h2 : hufmanFill n s1 with ⟨ys | _ | _, s2⟩ <;> simp only [h2] at h <;> cases h
        exact Proc.bind_ok (ih.1 h2)
      · intro h
        obtain ⟨ys, s2, h2, h3⟩ := bind_ok_inv h
        cases h3
        simp only [ih.2 h2]
    · have e : Tame.takeAll DecStream.next (n + 1) s = (.err (), s1) := Proc.bind_err h1
      rw [e]
      simp only
      constructor <;> intro h
      · split at h <;> cases h
      · cases h
    · have e : Tame.takeAll DecStream.next (n + 1) s = (.panic, s1) := Proc.bind_panic h1
      rw [e]

theorem fill_settled (dec : BinTrie (Rgb UInt8)) (n : Nat) :
    Settled True (borrowing (fun reader => ({ dec := dec, bits := bitReader reader } : DecStream (Rgb UInt8)))
      (fun s => s.bits.bytes) (hufmanFill n)) := by
  have h : Settled True (borrowing (fun reader => ({ dec := dec, bits := bitReader reader } : DecStream (Rgb UInt8)))
      (fun s => s.bits.bytes) (Tame.takeAll DecStream.next n)) :=
    .borrow (.all decStream_tame _) (fun _ => rfl) (fun _ => rfl) (fun _ _ => rfl) fun _ _ => rfl
  have e : ∀ {l a r}, borrowing (fun reader => ({ dec := dec, bits := bitReader reader } : DecStream (Rgb UInt8)))
      (fun s => s.bits.bytes) (hufmanFill n) l = (.ok a, r) ↔
      borrowing (fun reader => ({ dec := dec, bits := bitReader reader } : DecStream (Rgb UInt8)))
      (fun s => s.bits.bytes) (Tame.takeAll DecStream.next n) l = (.ok a, r) := by
    intro l a r
    unfold borrowing
    constructor
    · intro h
      obtain ⟨h1, h2⟩ := Prod.mk.inj h
      have h3 := hufmanFill_iff.1 (show _ = (Ret.ok a, _) from Prod.ext h1 rfl)
      rw [h3, ← h2]
    · intro h
      obtain ⟨h1, h2⟩ := Prod.mk.inj h
      have h3 := hufmanFill_iff.2 (show _ = (Ret.ok a, _) from Prod.ext h1 rfl)
      rw [h3, ← h2]
  exact h.congr e

theorem hufman_settled : Settled True hufmanDecodeFrom :=
  .bind (.bind .de fun _ => .bind (.orPanic _) fun _ => .pure _) fun _ =>
    .bind .tree fun _ => .bind (fill_settled _ _) fun _ => .pure _

theorem Settled.mono {α : Type} {k k' : Prop} {m : Rd (List UInt8) α} (h : Settled k m) (hk : k' → k) : Settled k' m :=
  ⟨h.suffix, fun h1 h2 x => h.extend h1 (hk h2) x, h.cut, h.other⟩

theorem decodeFrom_settled (p : Setup) (c : AnyCodec) : Settled (c.paints = false) (c.decodeFrom p) := by
  cases c with
  | clusterColors n => exact hufman_settled.mono fun _ => trivial
  | voronoi n =>
    refine Settled.mono (k := True) ?_ fun _ => trivial
    exact .bind .de fun _ => .bind (.orPanic _) fun _ => .bind .de fun _ => .bind (.readN _) fun _ =>
      .bind (.orPanic _) fun _ => .pure _
  | delta =>
    refine Settled.mono (k := False) ?_ fun h => by cases h
    refine .bind (.bind .de fun _ => .bind (.orPanic _) fun _ => .pure _) fun di => ?_
    refine .bind (.unwrap .tree) fun dec => ?_
    exact .borrow (paint_tame (fromDiff_tame p.chk decStream_tame) _ _) (fun _ => rfl) (fun _ => rfl) (fun _ _ => rfl)
      fun _ _ => rfl
  | hilbert m =>
    refine Settled.mono (k := False) ?_ fun h => by cases h
    refine .bind .de fun d => ?_
    cases m with
    | rle e => exact .borrow (decodeAny_tame rle_tame _ _) (fun _ => rfl) (fun _ => rfl) (fun _ _ => rfl) fun _ _ => rfl
    | zip =>
      exact .borrow (decodeAny_tame (TameSer.de dict_tame) _ _) (fun _ => rfl) (fun _ => rfl) (fun _ _ => rfl)
        fun _ _ => rfl
  | hufman => exact hufman_settled.mono fun _ => trivial
  | zip z =>
    refine Settled.mono (k := True) ?_ fun _ => trivial
    cases z with
    | dict =>
      exact .borrow (rebuildImage_tame dict_tame) (fun _ => rfl) (fun _ => rfl) (fun _ _ => rfl) fun _ _ => rfl
    | back =>
      exact .borrow (rebuildImage_tame back_tame) (fun _ => rfl) (fun _ => rfl) (fun _ _ => rfl) fun _ _ => rfl

/-- **C127.** A decoder takes its bytes from the front of the reader, and the bytes that it takes are enough: alone, they
are decoded to the same picture. -/
theorem C127_enough (p : Setup) (c : AnyCodec) {l r : List UInt8} {img : RgbImage}
    (h : c.decodeFrom p l = (.ok img, r)) : ∃ u, l = u ++ r ∧ c.decodeFrom p u = (.ok img, []) := by
  obtain ⟨u, rfl⟩ := (decodeFrom_settled p c).suffix h
  obtain ⟨r', e, h1⟩ := (decodeFrom_settled p c).cut h (Nat.le_refl _)
  have : r' = [] := by simpa using e
  subst this
  exact ⟨u, rfl, h1⟩

/-- **C127**, what follows: bytes that a decoder did not take may be anything.  This holds for the codecs that paint what
the file has if the decoder left some bytes; if it took all of them, it may have wanted more. -/
theorem C127_ignored (p : Setup) (c : AnyCodec) {u r : List UInt8} {img : RgbImage}
    (h : c.decodeFrom p (u ++ r) = (.ok img, r)) (hc : c.paints = false ∨ r ≠ []) (x : List UInt8) :
    c.decodeFrom p (u ++ x) = (.ok img, x) := by
  by_cases hr : r = []
  · subst hr
    rw [List.append_nil] at h
    exact (decodeFrom_settled p c).extend h (hc.resolve_right (fun hn => hn rfl)) x
  · exact (decodeFrom_settled p c).other (r := []) h hr x

/-- **C127**, no proper beginning: of two byte strings that a codec which does not paint decodes and takes as a whole,
none begins with the other one. -/
theorem C127_prefix_free (p : Setup) (c : AnyCodec) (hc : c.paints = false) {u v : List UInt8} {img img' : RgbImage}
    (h : c.decodeFrom p u = (.ok img, [])) (h' : c.decodeFrom p (u ++ v) = (.ok img', [])) : v = [] := by
  have h1 := C127_ignored p c (u := u) (r := []) (by rwa [List.append_nil]) (.inl hc) v
  rw [h1] at h'
  exact (Prod.mk.inj h').2

theorem decodeFrom_of_decode {p : Setup} {c : AnyCodec} {l : List UInt8} {img : RgbImage} (h : c.decode p l = .ok img) :
    c.decodeFrom p l = (.ok img, (c.decodeFrom p l).2) := by
  rw [← C126_same] at h
  exact Prod.ext h rfl

/-- **C127**, the beginnings of a file: if a codec that does not paint decodes a file, then there is one place in the file
such that it decodes what comes before the place, followed by anything, to the same picture, and refuses (with an error or
a panic) every beginning of the file that stops before the place. -/
theorem C127_place (p : Setup) (c : AnyCodec) (hc : c.paints = false) {l : List UInt8} {img : RgbImage}
    (h : c.decode p l = .ok img) :
    ∃ n, n ≤ l.length ∧ (∀ k x, n ≤ k → c.decode p (l.take k ++ x) = .ok img) ∧
      ∀ k x, k < n → c.decode p (l.take k) ≠ .ok x := by
  obtain ⟨u, e, h1⟩ := C127_enough p c (decodeFrom_of_decode h)
  generalize (c.decodeFrom p l).2 = r at e
  subst e
  have h2 : ∀ x, c.decodeFrom p (u ++ x) = (.ok img, x) := fun x =>
    C127_ignored p c (r := []) (by rwa [List.append_nil]) (.inl hc) x
  refine ⟨u.length, by rw [List.length_append]; omega, fun k x hk => ?_, fun k x hk he => ?_⟩
  · rw [← C126_same, List.take_append, List.take_of_length_le hk, List.append_assoc, h2]
  · rw [List.take_append_of_le_length (by omega)] at he
    obtain ⟨w, e, h3⟩ := C127_enough p c (decodeFrom_of_decode he)
    have h4 : w <+: u := (List.prefix_iff_eq_append.2 (by rw [List.prefix_iff_eq_append.1 ⟨_, e.symm⟩])).trans
      (List.take_prefix k u)
    obtain ⟨v, rfl⟩ := h4
    have h5 := C127_prefix_free p c hc h3 h1
    subst h5
    have h6 := congrArg List.length e
    simp only [List.length_append, List.length_take, List.append_nil] at h6 hk
    omega

/-- **C127**, the codecs that paint: the same picture may come from a file that is cut anywhere, and further bytes after
the end of a file that is too short change the picture. -/
theorem C127_painted (d : F64) :
    hilbertDecodeFrom cells (.rle d) [1, 0, 0, 0, 1, 0, 0, 0] =
      (.ok { width := 1, height := 1, pixels := [⟨0, 0, 0⟩] }, []) ∧
    hilbertDecodeFrom cells (.rle d) [1, 0, 0, 0, 1, 0, 0, 0, 1, 3, 0, 0, 0, 0, 0, 0, 0, 7, 8, 9] =
      (.ok { width := 1, height := 1, pixels := [⟨7, 8, 9⟩] }, []) ∧
    (hilbertDecodeFrom cells (.rle d) [1, 0, 0, 0, 1, 0, 0, 0, 0]).1 = .panic :=
  ⟨rfl, rfl, rfl⟩

/-! ## Examples -/

namespace ConsumedExamples
open AnyCodecExamples

/-- A file that no encoder writes: two pixels of the only colour, and a picture with bytes to spare. -/
def odd : List UInt8 := [2, 0, 0, 0, 1, 0, 0, 0, 0, 3, 0, 0, 0, 0, 0, 0, 0, 1, 2, 3, 77]

example : AnyCodec.hufman.decodeFrom setup odd =
    (.ok { width := 2, height := 1, pixels := [⟨1, 2, 3⟩, ⟨1, 2, 3⟩] }, [77]) := rfl

example (x : List UInt8) : AnyCodec.hufman.decodeFrom setup (odd.take 20 ++ x) =
    (.ok { width := 2, height := 1, pixels := [⟨1, 2, 3⟩, ⟨1, 2, 3⟩] }, x) :=
  C127_ignored setup .hufman (u := odd.take 20) (r := [77]) rfl (.inl rfl) x

/-- The place in it. -/
example : ∃ n, n ≤ odd.length ∧ (∀ k x, n ≤ k → AnyCodec.hufman.decode setup (odd.take k ++ x) =
      .ok { width := 2, height := 1, pixels := [⟨1, 2, 3⟩, ⟨1, 2, 3⟩] }) ∧
    ∀ k x, k < n → AnyCodec.hufman.decode setup (odd.take k) ≠ .ok x :=
  C127_place setup .hufman rfl rfl

/-- A run that is longer than the picture: the codec paints, and leaves a byte. -/
example (x : List UInt8) : (AnyCodec.hilbert (.rle (.fin 0))).decodeFrom setup
    ([1, 0, 0, 0, 1, 0, 0, 0, 9, 3, 0, 0, 0, 0, 0, 0, 0, 7, 8, 9] ++ x) =
    (.ok { width := 1, height := 1, pixels := [⟨7, 8, 9⟩] }, x) :=
  C127_ignored setup _ (r := [5]) rfl (.inr (by decide)) x

end ConsumedExamples

end Cniic
