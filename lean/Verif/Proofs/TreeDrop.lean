import Verif.Model.TreeDrop
import Verif.Proofs.Depth

/-! # Proofs: freeing code trees -/

namespace Cniic
open Spec SerSpec

theorem dropDepth_iff {T : Type} (t : BinTrie T) (depth : Nat) : t.dropDepth depth = true ↔ height t < depth := by
  induction t generalizing depth with
  | leaf v => cases depth <;> simp [BinTrie.dropDepth, height]
  | branch l r ihl ihr =>
    cases depth with
    | zero => simp [BinTrie.dropDepth]
    | succ d =>
      simp only [BinTrie.dropDepth, Bool.and_eq_true, ihl, ihr, height]
      omega

theorem dropAfter_of_lt {T ε α : Type} {depth : Nat} {t : BinTrie T} (h : height t < depth) (r : Ret ε α) :
    t.dropAfter depth r = r := by
  rw [BinTrie.dropAfter, if_pos ((dropDepth_iff t depth).2 h)]

theorem dropAtEnd_of_lt {T σ ε α : Type} {depth : Nat} {t : BinTrie T} (h : height t < depth) (m : Proc ε σ α) :
    t.dropAtEnd depth m = m := by
  funext s
  rw [BinTrie.dropAtEnd, dropAfter_of_lt h]

theorem dropAtEnd_of_le {T σ ε α : Type} {depth : Nat} {t : BinTrie T} (h : depth ≤ height t) (m : Proc ε σ α) (s : σ) :
    (t.dropAtEnd depth m s).1 = .panic := by
  rw [BinTrie.dropAtEnd, BinTrie.dropAfter, if_neg]
  rw [dropDepth_iff]
  omega

theorem dropUnlessOk_of_lt {T σ ε α : Type} {depth : Nat} {t : BinTrie T} (h : height t < depth) (m : Proc ε σ α) :
    t.dropUnlessOk depth m = m := by
  funext s
  rw [BinTrie.dropUnlessOk]
  rcases m s with ⟨a | e | _, s'⟩ <;> simp only [dropAfter_of_lt h]

theorem bind_congr_ok {σ ε α β : Type} {m : Proc ε σ α} {f g : α → Proc ε σ β}
    (h : ∀ a s s', m s = (.ok a, s') → f a = g a) : m >>= f = m >>= g := by
  funext s
  rcases hm : m s with ⟨a | e | _, s'⟩
  · rw [Proc.bind_ok hm, Proc.bind_ok hm, h a s s' hm]
  · rw [Proc.bind_err hm, Proc.bind_err hm]
  · rw [Proc.bind_panic hm, Proc.bind_panic hm]

/-- A tree that was read is not too deep. -/
theorem deFuel_room {T σ : Type} [Ser T] (next : Rd σ UInt8) (depth : Nat) (s s' : σ) (t : BinTrie T)
    (h : BinTrie.deFuel next depth s = (.ok t, s')) : height t < depth := by
  induction depth generalizing s s' t with
  | zero => cases h
  | succ d ih =>
    obtain ⟨b, s1, -, h⟩ := bind_ok_inv h
    split at h
    · obtain ⟨v, s2, -, h⟩ := bind_ok_inv h
      cases h
      simp [height]
    · split at h
      · obtain ⟨l, s2, hl, h⟩ := bind_ok_inv h
        obtain ⟨r, s3, hr, h⟩ := bind_ok_inv h
        cases h
        have := ih _ _ _ hl
        have := ih _ _ _ hr
        simp only [height]
        omega
      · cases h

theorem deDrop_eq {T σ : Type} [Ser T] (next : Rd σ UInt8) (depth : Nat) :
    (BinTrie.deDrop next depth : Rd σ (BinTrie T)) = BinTrie.deFuel next depth := by
  induction depth with
  | zero => rfl
  | succ d ih =>
    rw [BinTrie.deDrop, BinTrie.deFuel, ih]
    refine bind_congr_ok fun b _ _ _ => ?_
    split
    · rfl
    · split
      · refine bind_congr_ok fun l s s' hl => ?_
        rw [dropUnlessOk_of_lt (deFuel_room next d s s' l hl)]
      · rfl

theorem decodeAllDrop_eq {T : Type} [Ser T] (depth : Nat) :
    (decodeAllDrop depth : Rd (List UInt8) (DecStream T)) = decodeAllDepth depth := by
  rw [decodeAllDrop, decodeAllDepth, deDrop_eq]

theorem decodeAllDepth_room {T : Type} [Ser T] {depth : Nat} {s s' : List UInt8} {d : DecStream T}
    (h : decodeAllDepth depth s = (.ok d, s')) : height d.dec < depth := by
  obtain ⟨t, s1, ht, h⟩ := bind_ok_inv h
  cases h
  exact deFuel_room _ _ _ _ _ ht

theorem unwrap_ok_inv {σ ε ε' α : Type} {m : Proc ε σ α} {s s' : σ} {a : α}
    (h : (Proc.unwrap m : Proc ε' σ α) s = (.ok a, s')) : m s = (.ok a, s') := by
  unfold Proc.unwrap at h
  rcases hm : m s with ⟨b | e | _, s1⟩ <;> rw [hm] at h <;> cases h
  rfl

theorem hufmanDecodeDrop_eq (depth : Nat) (bytes : List UInt8) : hufmanDecodeDrop depth bytes = hufmanDecodeDepth depth bytes := by
  rw [hufmanDecodeDrop, hufmanDecodeDepth, decodeAllDrop_eq]
  congr 2
  refine bind_congr_ok fun x _ _ _ => ?_
  refine bind_congr_ok fun d _ _ hd => ?_
  rw [dropAtEnd_of_lt (decodeAllDepth_room hd)]

theorem deltaDecodeDrop_eq (depth : Nat) (chk : Bool) (scan : Scan) (bytes : List UInt8) :
    deltaDecodeDrop depth chk scan bytes = deltaDecodeDepth depth chk scan bytes := by
  rw [deltaDecodeDrop, deltaDecodeDepth, decodeAllDrop_eq]
  congr 2
  refine bind_congr_ok fun x _ _ _ => ?_
  refine bind_congr_ok fun d _ _ hd => ?_
  rw [dropAtEnd_of_lt (decodeAllDepth_room (unwrap_ok_inv hd))]

end Cniic
