import Verif.Spec.Damage
import Verif.Proofs.Edit
import Verif.Proofs.WrongCodec

/-! # Proofs: damaged files -/

namespace Cniic
open Spec SerSpec

theorem along_painted {scan : Scan} {w h : UInt32} (hs : VisitsOnce scan w.toNat h.toNat) (cols : List (Rgb UInt8)) :
    along scan (painted scan w h cols) = (List.range (w.toNat * h.toNat)).map fun j => (cols[j]?).getD black := by
  have hlen : (scan w.toNat h.toNat).length = w.toNat * h.toNat := by rw [hs.length_eq, cells_length]
  have hnd : (scan w.toNat h.toNat).Nodup := hs.nodup_iff.2 (cells_nodup _ _)
  show (scan w.toNat h.toNat).map (fun c => ((painted scan w h cols).pixels[c.2 * w.toNat + c.1]?).getD black) = _
  apply List.ext_getElem (by simp [hlen])
  intro j h1 h2
  have hj : j < (scan w.toNat h.toNat).length := by simpa [hlen] using h2
  have hc := mem_cells'.1 (hs.mem_iff.1 (List.getElem_mem hj))
  rw [List.getElem_map, List.getElem_map, List.getElem_range]
  unfold painted
  dsimp only
  generalize hcd : (scan w.toNat h.toNat)[j] = c at hc
  obtain ⟨x, y⟩ := c
  obtain ⟨hx, hy⟩ := hc
  dsimp only at hx hy ⊢
  have hi : y * w.toNat + x < w.toNat * h.toNat := by
    have : (y + 1) * w.toNat ≤ h.toNat * w.toNat := Nat.mul_le_mul_right _ hy
    rw [Nat.add_mul, Nat.mul_comm h.toNat] at this
    omega
  have e1 : (y * w.toNat + x) % w.toNat = x := by
    rw [Nat.mul_comm, Nat.mul_add_mod, Nat.mod_eq_of_lt hx]
  have e2 : (y * w.toNat + x) / w.toNat = y := by
    rw [Nat.mul_comm, Nat.mul_add_div (by omega), Nat.div_eq_of_lt hx, Nat.add_zero]
  simp only [cells, List.getElem?_map, List.getElem?_range hi, Option.map_some, Option.getD_some, e1, e2]
  rw [← hcd, hnd.idxOf_getElem j hj]

theorem along_take {scan : Scan} {w h : UInt32} (hs : VisitsOnce scan w.toNat h.toNat) {cols cols' : List (Rgb UInt8)} {k : Nat}
    (hk : cols.take k = cols'.take k) :
    (along scan (painted scan w h cols)).take k = (along scan (painted scan w h cols')).take k := by
  rw [along_painted hs, along_painted hs, ← List.map_take, ← List.map_take]
  apply List.map_congr_left
  intro j hj
  have hj' : j < k := by
    rw [List.take_range, List.mem_range] at hj
    omega
  have : cols[j]? = cols'[j]? := by
    rw [← List.getElem?_take_of_lt hj', hk, List.getElem?_take_of_lt hj']
  rw [this]

/-! ## Codes -/

theorem firstSymbol_of {T : Type} {t : BinTrie T} {p : List Bool} {x : T} (hp : (p, x) ∈ leaves t) (rest : List Bool) :
    firstSymbol t (p ++ rest) = some (x, rest) := by
  cases hf : firstSymbol t (p ++ rest) with
  | none => exact absurd (List.prefix_append p rest) (firstSymbol_none hf _ hp)
  | some v =>
    obtain ⟨y, r⟩ := v
    obtain ⟨q, hq, he⟩ := firstSymbol_some hf
    have : p = q ∧ x = y := by
      rcases List.prefix_or_prefix_of_prefix (List.prefix_append p rest) (he ▸ List.prefix_append q r) with h | h
      · exact leaves_prefix hp hq h
      · obtain ⟨h1, h2⟩ := leaves_prefix hq hp h
        exact ⟨h1.symm, h2.symm⟩
    obtain ⟨rfl, rfl⟩ := this
    rw [List.append_cancel_left he]

theorem firstSymbol_more {T : Type} {t : BinTrie T} {bits rest : List Bool} {x : T}
    (h : firstSymbol t bits = some (x, rest)) (more : List Bool) :
    firstSymbol t (bits ++ more) = some (x, rest ++ more) := by
  obtain ⟨p, hp, rfl⟩ := firstSymbol_some h
  rw [List.append_assoc]
  exact firstSymbol_of hp _

theorem spelled_more {T : Type} (t : BinTrie T) (n : Nat) (bits more : List Bool) :
    spelled t n bits <+: spelled t n (bits ++ more) := by
  induction n generalizing bits with
  | zero => exact List.prefix_rfl
  | succ n ih =>
    rw [spelled, spelled]
    cases hf : firstSymbol t bits with
    | none => exact List.nil_prefix
    | some v =>
      obtain ⟨x, rest⟩ := v
      rw [firstSymbol_more hf]
      exact (List.prefix_cons_inj x).2 (ih _)

theorem addUp_prefix {ds ds' : List SignedColor} (h : ds <+: ds') (s : Int × Int × Int) :
    (addUp s ds).1 <+: (addUp s ds').1 := by
  obtain ⟨more, rfl⟩ := h
  induction ds generalizing s with
  | nil => exact List.nil_prefix
  | cons d ds ih =>
    obtain ⟨r, g, b⟩ := s
    rw [List.cons_append, addUp, addUp]
    dsimp only
    split
    · exact (List.prefix_cons_inj _).2 (ih _)
    · exact List.prefix_rfl

theorem addUp_le (s : Int × Int × Int) (ds : List SignedColor) : (addUp s ds).1.length ≤ ds.length := by
  cases h : (addUp s ds).2 with
  | true => exact Nat.le_of_eq (addUp_length s ds h)
  | false => exact Nat.le_of_lt (addUp_short s ds h)

theorem painted_prefix {known cols : List (Rgb UInt8)} (h : known <+: cols) {n : Nat} (hn : known.length ≤ n) :
    known <+: (List.range n).map fun j => (cols[j]?).getD black := by
  obtain ⟨rest, rfl⟩ := h
  rw [List.prefix_iff_eq_take]
  apply List.ext_getElem (by simp; omega)
  intro j h1 h2
  rw [List.getElem_take, List.getElem_map, List.getElem_range, List.getElem?_append_left h1, List.getElem?_eq_getElem h1]
  rfl

theorem addUp_front {s : Int × Int × Int} {ds ds' : List SignedColor} (h : (addUp s (ds ++ ds')).2 = true) :
    (addUp s ds).2 = true := by
  induction ds generalizing s with
  | nil => rfl
  | cons d ds ih =>
    obtain ⟨r, g, b⟩ := s
    rw [List.cons_append, addUp] at h
    rw [addUp]
    split at h
    · next hc => rw [if_pos hc]; exact ih h
    · cases h

theorem addUp_getElem {s : Int × Int × Int} {ds : List SignedColor} (h : (addUp s ds).2 = true) {j : Nat}
    (hj : j < (addUp s ds).1.length) :
    ((addUp s ds).1[j].r.toNat : Int) = s.1 + ((ds.take (j + 1)).map (·.r.toInt)).sum ∧
    ((addUp s ds).1[j].g.toNat : Int) = s.2.1 + ((ds.take (j + 1)).map (·.g.toInt)).sum ∧
    ((addUp s ds).1[j].b.toNat : Int) = s.2.2 + ((ds.take (j + 1)).map (·.b.toInt)).sum := by
  induction ds generalizing s j with
  | nil => exact absurd hj (by simp [addUp])
  | cons d ds ih =>
    obtain ⟨r, g, b⟩ := s
    have hc : (isChannel (r + d.r.toInt) && isChannel (g + d.g.toInt) && isChannel (b + d.b.toInt)) = true := by
      rw [addUp] at h
      split at h
      · next hc => exact hc
      · cases h
    have e : addUp (r, g, b) (d :: ds) = (⟨UInt8.ofNat (r + d.r.toInt).toNat, UInt8.ofNat (g + d.g.toInt).toNat,
        UInt8.ofNat (b + d.b.toInt).toNat⟩ :: (addUp (r + d.r.toInt, g + d.g.toInt, b + d.b.toInt) ds).1,
        (addUp (r + d.r.toInt, g + d.g.toInt, b + d.b.toInt) ds).2) := by
      rw [addUp]
      dsimp only
      rw [if_pos hc]
    have h' : (addUp (r + d.r.toInt, g + d.g.toInt, b + d.b.toInt) ds).2 = true := by rw [e] at h; exact h
    simp only [isChannel, Bool.and_eq_true, decide_eq_true_eq] at hc
    have ch : ∀ n : Int, 0 ≤ n → n ≤ 255 → ((UInt8.ofNat n.toNat).toNat : Int) = n := by
      intro n h0 h1
      rw [UInt8.toNat_ofNat_of_lt' (by show n.toNat < 2 ^ 8; omega)]
      omega
    cases j with
    | zero =>
      simp only [e, List.getElem_cons_zero, List.take_succ_cons, List.take_zero, List.map_cons, List.map_nil, List.sum_cons,
        List.sum_nil, Int.add_zero]
      exact ⟨ch _ hc.1.1.1 hc.1.1.2, ch _ hc.1.2.1 hc.1.2.2, ch _ hc.2.1 hc.2.2⟩
    | succ j =>
      have hj' : j < (addUp (r + d.r.toInt, g + d.g.toInt, b + d.b.toInt) ds).1.length := by rw [e] at hj; simpa using hj
      obtain ⟨i1, i2, i3⟩ := ih h' hj'
      simp only [e, List.getElem_cons_succ, List.take_succ_cons, List.map_cons, List.sum_cons]
      dsimp only at i1 i2 i3
      omega

theorem countP_interval (n a k : Nat) : (List.range n).countP (fun j => decide (a ≤ j ∧ j < a + k)) ≤ k := by
  have : ∀ n, (List.range n).countP (fun j => decide (a ≤ j ∧ j < a + k)) ≤ min k (n - a) := by
    intro n
    induction n with
    | zero => simp
    | succ n ih =>
      rw [List.range_succ, List.countP_append, List.countP_singleton]
      split
      · next h => simp only [decide_eq_true_eq] at h; omega
      · omega
  exact Nat.le_trans (this n) (Nat.min_le_left _ _)

/-! ## Records of 11 bytes -/

theorem recColors_take (e e' : Bool) (k : Nat) (l : List UInt8) :
    (recColors e l).1.take k = (recColors e' (l.take (11 * k))).1 := by
  induction k generalizing l with
  | zero => simp [recColors]
  | succ k ih =>
    unfold recColors
    split
    · next r g b rest =>
      rw [show 11 * (k + 1) = 11 * k + 11 by omega]
      simp only [List.take_succ_cons]
      rw [ih]
    · next hno =>
      have : ∀ r g b rest, l.take (11 * (k + 1)) ≠ 3 :: 0 :: 0 :: 0 :: 0 :: 0 :: 0 :: 0 :: r :: g :: b :: rest := by
        intro r g b rest he
        apply hno r g b (rest ++ l.drop (11 * (k + 1)))
        exact (List.take_append_drop (11 * (k + 1)) l).symm.trans (by rw [he]; rfl)
      split
      · next r g b rest he => exact absurd he (this r g b rest)
      · rfl

theorem prefix_take {T : Type} {a b c : List T} (hb : a <+: b) (hc : a <+: c) {k : Nat} (hk : k ≤ a.length) :
    b.take k = c.take k := by
  obtain ⟨b, rfl⟩ := hb
  obtain ⟨c, rfl⟩ := hc
  rw [List.take_append_of_le_length hk, List.take_append_of_le_length hk]

/-! ## Minima of lists that differ in one place -/

theorem firstMin_index {α : Type} {f : α → Nat} {l : List α} {best : α} (h : IsFirstMin f l best) :
    ∃ j : Nat, l[j]? = some best ∧ (∀ k a, k < j → l[k]? = some a → f best < f a) ∧ ∀ (k : Nat) a, l[k]? = some a → f best ≤ f a := by
  obtain ⟨l1, l2, rfl, h1, h2⟩ := h
  have hlt : ∀ k a, k < l1.length → (l1 ++ best :: l2)[k]? = some a → f best < f a := by
    intro k a hk ha
    rw [List.getElem?_append_left hk] at ha
    exact h1 a (List.mem_of_getElem? ha)
  refine ⟨l1.length, by simp, hlt, ?_⟩
  intro k a ha
  by_cases hk : k < l1.length
  · exact Nat.le_of_lt (hlt k a hk ha)
  · rw [List.getElem?_append_right (by omega)] at ha
    rcases List.mem_cons.1 (List.mem_of_getElem? ha) with rfl | h
    · exact Nat.le_refl _
    · exact h2 a h

theorem firstMin_replaced {α : Type} {f : α → Nat} {l1 l2 : List α} {c c' best best' : α}
    (h : IsFirstMin f (l1 ++ c :: l2) best) (h' : IsFirstMin f (l1 ++ c' :: l2) best') :
    best = best' ∨ best = c ∨ best' = c' := by
  obtain ⟨j, a1, a2, a3⟩ := firstMin_index h
  obtain ⟨j', b1, b2, b3⟩ := firstMin_index h'
  have same : ∀ k, k ≠ l1.length → (l1 ++ c :: l2)[k]? = (l1 ++ c' :: l2)[k]? := by
    intro k hk
    by_cases h : k < l1.length
    · rw [List.getElem?_append_left h, List.getElem?_append_left h]
    · rw [List.getElem?_append_right (by omega), List.getElem?_append_right (by omega)]
      obtain ⟨i, hi⟩ : ∃ i, k - l1.length = i + 1 := ⟨k - l1.length - 1, by omega⟩
      rw [hi]
      rfl
  by_cases hj : j = l1.length
  · right; left
    subst hj
    simpa using a1.symm
  by_cases hj' : j' = l1.length
  · right; right
    subst hj'
    simpa using b1.symm
  left
  rw [same j hj] at a1
  have b1' := b1
  rw [← same j' hj'] at b1'
  rcases Nat.lt_trichotomy j j' with hlt | rfl | hlt
  · have := b2 j best hlt a1
    have := a3 j' best' b1'
    omega
  · rw [a1] at b1
    exact Option.some.inj b1
  · have := a2 j' best' hlt b1'
    have := b3 j best a1
    omega

/-! ## Runs with one changed byte -/

theorem runBytes_mk (n r g b : UInt8) : runBytes (n, (⟨r, g, b⟩ : Rgb UInt8)) = [n, 3, 0, 0, 0, 0, 0, 0, 0, r, g, b] := rfl

theorem rleColors_length {run : UInt8 × Rgb UInt8} {k : Nat} {b : UInt8} (h1 : 1 ≤ k) (h8 : k ≤ 8)
    (hb : (runBytes run)[k]? ≠ some b) (rest : List UInt8) : rleColors ((runBytes run).set k b ++ rest) = ([], false) := by
  obtain ⟨n, r, g, c⟩ := run
  rw [runBytes_mk] at hb ⊢
  have : k = 1 ∨ k = 2 ∨ k = 3 ∨ k = 4 ∨ k = 5 ∨ k = 6 ∨ k = 7 ∨ k = 8 := by omega
  rcases this with rfl | rfl | rfl | rfl | rfl | rfl | rfl | rfl <;>
    simp only [List.getElem?_cons_succ, List.getElem?_cons_zero, ne_eq, Option.some.injEq] at hb <;>
    simp only [List.set_cons_succ, List.set_cons_zero, List.cons_append, List.nil_append] <;>
    rw [rleColors.eq_def] <;> split <;> first | rfl | simp_all

theorem set_count (run : UInt8 × Rgb UInt8) (b : UInt8) : (runBytes run).set 0 b = runBytes (b, run.2) := rfl

theorem set_color {run : UInt8 × Rgb UInt8} {k : Nat} (h9 : 9 ≤ k) (hk : k < 12) (b : UInt8) :
    (runBytes run).set k b = runBytes (run.1, setChannel run.2 (k - 9) b) := by
  obtain ⟨n, r, g, c⟩ := run
  have : k = 9 ∨ k = 10 ∨ k = 11 := by omega
  rcases this with rfl | rfl | rfl <;> rfl

end Cniic
