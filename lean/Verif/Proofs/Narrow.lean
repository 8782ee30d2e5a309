import Verif.Model.Narrow
import Verif.Proofs.Consumed
import Verif.Proofs.DictDepth

/-! # Proofs: decoding on targets where `usize` is narrower -/

namespace Cniic
open Spec SerSpec

/-! ## 64 bits -/

theorem vecDeOn_64 {σ : Type} (next : Rd σ UInt8) : vecDeOn 64 next = (de next : Rd σ (List UInt8)) := by
  funext s
  show (vecDeOn 64 next s) = ((do
    let len : Usize ← de next
    readN next len.val.toNat : Rd σ (List UInt8)) s)
  unfold vecDeOn usizeDeOn
  rcases h : (de next s : Ret Unit UInt64 × σ) with ⟨n | _ | _, s'⟩
  · have e1 : (do let n : UInt64 ← de next; pure (n.toNat % 2 ^ 64) : Rd σ Nat) s = (.ok n.toNat, s') := by
      rw [Proc.bind_ok h, Nat.mod_eq_of_lt n.toNat_lt]
      rfl
    have e2 : (de next : Rd σ Usize) s = (.ok ⟨n⟩, s') := Proc.bind_ok h
    rw [Proc.bind_ok e1, Proc.bind_ok e2]
  · have e1 : (do let n : UInt64 ← de next; pure (n.toNat % 2 ^ 64) : Rd σ Nat) s = (.err (), s') := Proc.bind_err h
    have e2 : (de next : Rd σ Usize) s = (.err (), s') := Proc.bind_err h
    rw [Proc.bind_err e1, Proc.bind_err e2]
  · have e1 : (do let n : UInt64 ← de next; pure (n.toNat % 2 ^ 64) : Rd σ Nat) s = (.panic, s') := Proc.bind_panic h
    have e2 : (de next : Rd σ Usize) s = (.panic, s') := Proc.bind_panic h
    rw [Proc.bind_panic e1, Proc.bind_panic e2]

theorem rgbDeOn_64 {σ : Type} (next : Rd σ UInt8) : rgbDeOn 64 next = (de next : Rd σ (Rgb UInt8)) := by
  unfold rgbDeOn
  rw [vecDeOn_64]
  funext s
  rcases h : (de next s : Ret Unit (List UInt8) × σ) with ⟨vec | _ | _, s'⟩
  · refine (Proc.bind_ok h).trans (Eq.trans ?_ (Proc.bind_ok h).symm)
    match vec with
    | [_, _, _] => rfl
    | [] => rfl
    | [_] => rfl
    | [_, _] => rfl
    | _ :: _ :: _ :: _ :: _ => rfl
  · exact (Proc.bind_err h).trans (Proc.bind_err h).symm
  · exact (Proc.bind_panic h).trans (Proc.bind_panic h).symm

theorem rgbSerOn_64 : rgbSerOn 64 = inferInstanceAs (Ser (Rgb UInt8)) := by
  unfold rgbSerOn
  have : (fun {σ : Type} (next : Rd σ UInt8) => rgbDeOn 64 next) = fun {σ} next => de next := by
    funext σ next
    exact rgbDeOn_64 next
  rw [show @rgbDeOn = fun {σ} w next => @rgbDeOn σ w next from rfl]
  simp only [this]
  rfl

theorem colorPosSerOn_64 : colorPosSerOn 64 = inferInstanceAs (Ser ColorPos) := by
  unfold colorPosSerOn
  simp only [rgbDeOn_64]
  rfl

theorem rleNextOn_64 : RleDecoder.nextOn 64 = RleDecoder.next := by
  funext d
  unfold RleDecoder.nextOn RleDecoder.next
  simp only [rgbDeOn_64]
  split
  · rcases (de listNext d.bytes : Ret Unit UInt8 × List UInt8) with ⟨n | _ | _, l⟩
    · simp only
      rcases (de listNext l : Ret Unit (Rgb UInt8) × List UInt8) with ⟨c | _ | _, l'⟩ <;> rfl
    · rfl
    · rfl
  · rfl

/-! ## Successes that stay -/

/-- Where the first reader succeeds, the second one does the same. -/
def Keeps {σ α : Type} (m m' : Rd σ α) : Prop := ∀ s a s', m s = (.ok a, s') → m' s = (.ok a, s')

namespace Keeps

variable {σ α β : Type}

theorem refl (m : Rd σ α) : Keeps m m := fun _ _ _ h => h

theorem bind {m m' : Rd σ α} {f f' : α → Rd σ β} (h : Keeps m m') (hf : ∀ a, Keeps (f a) (f' a)) :
    Keeps (m >>= f) (m' >>= f') := by
  intro s b s' hb
  obtain ⟨a, s1, h1, h2⟩ := bind_ok_inv hb
  exact (Proc.bind_ok (h _ _ _ h1)).trans (hf a _ _ _ h2)

theorem readN {i i' : Ser α} {next : Rd σ UInt8} (h : Keeps (i.de next) (i'.de next)) :
    ∀ n, Keeps (@Cniic.readN α σ i next n) (@Cniic.readN α σ i' next n)
  | 0 => refl _
  | n + 1 => bind h fun _ => bind (readN h n) fun _ => refl _

theorem tree {i i' : Ser α} {next : Rd σ UInt8} (h : Keeps (i.de next) (i'.de next)) :
    ∀ n, Keeps (@BinTrie.deFuel α σ i next n) (@BinTrie.deFuel α σ i' next n)
  | 0 => refl _
  | n + 1 => bind (refl _) fun d => by
    by_cases h0 : d = 0
    · simp only [if_pos h0]
      exact bind h fun _ => refl _
    · simp only [if_neg h0]
      by_cases h1 : d = 1
      · simp only [if_pos h1]
        exact bind (tree h n) fun _ => bind (tree h n) fun _ => refl _
      · simp only [if_neg h1]
        exact refl _

theorem borrowing {m m' : Rd σ α} (h : Keeps m m') (start : List UInt8 → σ) (left : σ → List UInt8) :
    Keeps (borrowing start left m) (borrowing start left m') := by
  intro l a r hb
  obtain ⟨h1, h2⟩ := Prod.mk.inj hb
  have h3 := h _ _ _ (show m (start l) = (.ok a, _) from Prod.ext h1 rfl)
  unfold Cniic.borrowing
  rw [h3, ← h2]

theorem of_panicOr {m m' : Rd σ α} (h : Proc.PanicOr m m') : Keeps m m' := by
  intro s a s' hm
  rcases h s with h | h
  · rw [hm] at h
    cases h
  · rw [← h, hm]

theorem reaches {m m' : Rd σ α} (h : Keeps m m') {e s : σ} {xs : List α} (hr : Reaches m e s xs) :
    Reaches m' e s xs := by
  induction xs generalizing s with
  | nil => exact hr
  | cons x xs ih =>
    obtain ⟨s', h1, h2⟩ := hr
    exact ⟨s', h _ _ _ h1, ih h2⟩

end Keeps

theorem readN_length {α σ : Type} [Ser α] {next : Rd σ UInt8} : ∀ {n : Nat} {s s' : σ} {xs : List α},
    readN next n s = (.ok xs, s') → xs.length = n
  | 0, _, _, _, h => by cases h; rfl
  | n + 1, _, _, _, h => by
    obtain ⟨a, s1, h1, h2⟩ := bind_ok_inv h
    obtain ⟨as, s2, h3, h4⟩ := bind_ok_inv h2
    cases h4
    rw [List.length_cons, readN_length h3]

theorem vecDeOn_keeps {σ : Type} {w : Nat} {next : Rd σ UInt8} {s s' : σ} {xs : List UInt8} (hx : xs.length < 2 ^ w)
    (h : (de next : Rd σ (List UInt8)) s = (.ok xs, s')) : vecDeOn w next s = (.ok xs, s') := by
  obtain ⟨len, s1, h1, h2⟩ := bind_ok_inv h
  obtain ⟨n, s2, h3, h4⟩ := bind_ok_inv h1
  cases h4
  have e := readN_length h2
  simp only at e h2
  unfold vecDeOn usizeDeOn
  have h5 : (do let n : UInt64 ← de next; pure (n.toNat % 2 ^ w) : Rd σ Nat) s = (.ok n.toNat, s1) := by
    rw [Proc.bind_ok h3, Nat.mod_eq_of_lt (by omega)]
    rfl
  exact (Proc.bind_ok h5).trans h2

theorem rgbDeOn_keeps {σ : Type} {w : Nat} (hw : 2 ≤ w) (next : Rd σ UInt8) :
    Keeps (de next : Rd σ (Rgb UInt8)) (rgbDeOn w next) := by
  intro s c s' h
  obtain ⟨vec, s1, h1, h2⟩ := bind_ok_inv h
  have : 2 ^ 2 ≤ 2 ^ w := Nat.pow_le_pow_right (by decide) hw
  unfold rgbDeOn
  match vec, h1, h2 with
  | [_, _, _], h1, h2 => exact (Proc.bind_ok (vecDeOn_keeps (by simp only [List.length_cons, List.length_nil]; omega) h1)).trans h2
  | [], _, h2 => cases h2
  | [_], _, h2 => cases h2
  | [_, _], _, h2 => cases h2
  | _ :: _ :: _ :: _ :: _, _, h2 => cases h2

theorem colorPosDeOn_keeps {σ : Type} {w : Nat} (hw : 2 ≤ w) (next : Rd σ UInt8) :
    Keeps (de next : Rd σ ColorPos) ((colorPosSerOn w).de next) :=
  Keeps.bind (Keeps.refl _) fun _ => Keeps.bind (Keeps.refl _) fun _ =>
    Keeps.bind (rgbDeOn_keeps hw next) fun _ => Keeps.refl _

theorem rleNextOn_or {w : Nat} (hw : 2 ≤ w) : Proc.PanicOr RleDecoder.next (RleDecoder.nextOn w) := by
  intro d
  unfold RleDecoder.next RleDecoder.nextOn
  split
  · rcases (de listNext d.bytes : Ret Unit UInt8 × List UInt8) with ⟨n | _ | _, l⟩
    · simp only
      split
      · rcases h : (de listNext l : Ret Unit (Rgb UInt8) × List UInt8) with ⟨c | _ | _, l'⟩
        · right
          rw [rgbDeOn_keeps hw listNext _ _ _ h]
        · exact .inl rfl
        · exact .inl rfl
      · exact .inl rfl
    · exact .inr rfl
    · exact .inl rfl
  · exact .inr rfl

end Cniic
