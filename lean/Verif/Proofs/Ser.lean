import Verif.Spec.Ser

/-!
# Every serializer is lawful
-/

namespace Cniic
open Spec SerSpec

/-! ## Little-endian integers -/

theorem toLe_eq_le (k n : Nat) : toLe k n = le k n := by
  induction k generalizing n with
  | zero => rfl
  | succ k ih =>
    rw [toLe, ih]
    unfold le
    rw [List.range_succ_eq_map, List.map_cons, List.map_map]
    congr 1
    · simp [byteAt]
    · apply List.map_congr_left
      intro i _
      simp [byteAt, Nat.div_div_eq_div_mul, Nat.pow_succ, Nat.mul_comm]

theorem toLe_length (k n : Nat) : (toLe k n).length = k := by
  induction k generalizing n with
  | zero => rfl
  | succ k ih => simp [toLe, ih]

theorem fromLe_toLe (k n : Nat) : fromLe (toLe k n) = n % 256 ^ k := by
  induction k generalizing n with
  | zero => simp [toLe, fromLe, Nat.mod_one]
  | succ k ih =>
    rw [toLe, fromLe, ih]
    rw [Nat.pow_succ, Nat.mul_comm (256 ^ k) 256, Nat.mod_mul]
    simp

theorem fromLe_lt (l : List UInt8) : fromLe l < 256 ^ l.length := by
  induction l with
  | nil => simp [fromLe]
  | cons b bs ih =>
    have := b.toNat_lt
    simp only [fromLe, List.length_cons, Nat.pow_succ]
    omega

theorem toLe_fromLe (l : List UInt8) : toLe l.length (fromLe l) = l := by
  induction l with
  | nil => rfl
  | cons b bs ih =>
    have hb := b.toNat_lt
    simp only [List.length_cons, toLe, fromLe]
    congr 1
    · apply UInt8.toNat_inj.1; simp
    · rw [show (b.toNat + 256 * fromLe bs) / 256 = fromLe bs by omega, ih]

theorem readBytes_append (xs rest : List UInt8) :
    readBytes listNext xs.length (xs ++ rest) = (.ok xs, rest) := by
  induction xs with
  | nil => rfl
  | cons x xs ih =>
    simp only [List.length_cons, readBytes, List.cons_append]
    rw [Proc.bind_ok (listNext_cons _ _), Proc.bind_ok ih]; rfl

theorem readBytes_ok {k : Nat} {l xs r : List UInt8} (h : readBytes listNext k l = (.ok xs, r)) :
    xs.length = k ∧ l = xs ++ r := by
  induction k generalizing l xs with
  | zero => cases h; simp
  | succ k ih =>
    cases l with
    | nil => simp [readBytes, Proc.bind_def] at h
    | cons b bs =>
      simp only [readBytes] at h
      rw [Proc.bind_ok (listNext_cons _ _)] at h
      rcases hr : readBytes listNext k bs with ⟨x | x | _, r'⟩
      · rw [Proc.bind_ok hr] at h; cases h
        obtain ⟨h1, h2⟩ := ih hr
        simp [h1, h2]
      · rw [Proc.bind_err hr] at h; cases h
      · rw [Proc.bind_panic hr] at h; cases h

theorem readBytes_no_panic (k : Nat) (l : List UInt8) : (readBytes listNext k l).1 ≠ .panic := by
  induction k generalizing l with
  | zero => simp [readBytes]
  | succ k ih =>
    cases l with
    | nil => simp [readBytes, Proc.bind_def]
    | cons b bs =>
      simp only [readBytes]
      rw [Proc.bind_ok (listNext_cons _ _)]
      have := ih bs
      rcases hr : readBytes listNext k bs with ⟨x | x | _, r'⟩
      · rw [Proc.bind_ok hr]; simp
      · rw [Proc.bind_err hr]; simp
      · simp [hr] at this

theorem readBytes_sim {σ τ : Type} {R : σ → τ → Prop} {Q : Bool → Bool → σ → τ → Prop}
    {next : Rd σ UInt8} {next' : Rd τ UInt8}
    (h : Sim R Q next next') (k : Nat) : Sim R Q (readBytes next k) (readBytes next' k) := by
  induction k with
  | zero => exact Sim.pure _
  | succ k ih => exact Sim.bind h fun b => Sim.bind ih fun bs => Sim.pure _

theorem bind_ok_inv {ε σ α β : Type} {m : Proc ε σ α} {f : α → Proc ε σ β} {s : σ} {b : β} {s' : σ}
    (h : (m >>= f) s = (.ok b, s')) : ∃ a s1, m s = (.ok a, s1) ∧ f a s1 = (.ok b, s') := by
  rw [Proc.bind_def] at h
  rcases hm : m s with ⟨x | x | _, s1⟩ <;> simp only [hm] at h
  · exact ⟨_, _, rfl, h⟩
  · cases h
  · cases h

theorem bind_no_panic {ε σ α β : Type} {m : Proc ε σ α} {f : α → Proc ε σ β} {s : σ}
    (h1 : (m s).1 ≠ .panic) (h2 : ∀ a s1, m s = (.ok a, s1) → (f a s1).1 ≠ .panic) :
    ((m >>= f) s).1 ≠ .panic := by
  rw [Proc.bind_def]
  rcases hm : m s with ⟨x | x | _, s1⟩
  · exact h2 _ _ hm
  · simp
  · simp [hm] at h1

/-- An integer type represented on `k` bytes. -/
theorem lawful_int {α : Type} [Ser α] [SerSpec α] (k : Nat) (toN : α → Nat) (ofN : Nat → α)
    (hlt : ∀ a, toN a < 256 ^ k) (hof : ∀ a, ofN (toN a) = a)
    (hto : ∀ n, n < 256 ^ k → toN (ofN n) = n)
    (hser : ∀ a : α, ser a = writeAll (toLe k (toN a)))
    (hde : ∀ {σ : Type} (next : Rd σ UInt8), (de next : Rd σ α) =
      (readBytes next k >>= fun bs => pure (ofN (fromLe bs))))
    (hvalid : ∀ a : α, valid a) (hbytes : ∀ a : α, bytes a = le k (toN a)) : LawfulSer α where
  emits a _ := by rw [hser, hbytes, ← toLe_eq_le]; exact Emits.writeAll _
  sim R Q next next' _ h := by
    rw [hde, hde]; exact Sim.bind (readBytes_sim h k) fun _ => Sim.pure _
  de_bytes a _ rest := by
    rw [hde, hbytes, ← toLe_eq_le]
    have := readBytes_append (toLe k (toN a)) rest
    rw [toLe_length] at this
    rw [Proc.bind_ok this, fromLe_toLe, Nat.mod_eq_of_lt (hlt a), hof]; rfl
  canon l a r h := by
    refine ⟨hvalid a, ?_⟩
    rw [hde] at h
    obtain ⟨xs, s1, h1, h2⟩ := bind_ok_inv h
    cases h2
    obtain ⟨hl, hx⟩ := readBytes_ok h1
    subst hl
    rw [hbytes, ← toLe_eq_le, hto _ (fromLe_lt xs), toLe_fromLe, hx]
  no_panic l := by
    rw [hde]; exact bind_no_panic (readBytes_no_panic _ _) fun _ _ _ => by simp

instance : LawfulSer UInt16 :=
  lawful_int 2 UInt16.toNat UInt16.ofNat (fun a => by have := a.toNat_lt; simpa using this)
    (fun a => by simp) (fun n h => by simp at h ⊢; omega) (fun _ => rfl) (fun _ => rfl)
    (fun _ => trivial) (fun _ => rfl)

theorem int16_rep (n : Int16) : (n.toInt % 65536).toNat = n.toUInt16.toNat := by
  show (n.toBitVec.toInt % 65536).toNat = n.toBitVec.toNat
  rw [BitVec.toInt_eq_toNat_bmod, Int.bmod_def]
  have := n.toBitVec.isLt
  omega

instance : LawfulSer Int16 :=
  lawful_int 2 (fun n => n.toUInt16.toNat) (fun n => (UInt16.ofNat n).toInt16)
    (fun a => by have := a.toUInt16.toNat_lt; simpa using this)
    (fun a => by simp) (fun n h => by simp at h ⊢; omega) (fun _ => rfl) (fun _ => rfl)
    (fun _ => trivial) (fun n => by show le 2 _ = _; rw [int16_rep])

instance : LawfulSer UInt32 :=
  lawful_int 4 UInt32.toNat UInt32.ofNat (fun a => by have := a.toNat_lt; simpa using this)
    (fun a => by simp) (fun n h => by simp at h ⊢; omega) (fun _ => rfl) (fun _ => rfl)
    (fun _ => trivial) (fun _ => rfl)

instance : LawfulSer UInt64 :=
  lawful_int 8 UInt64.toNat UInt64.ofNat (fun a => by have := a.toNat_lt; simpa using this)
    (fun a => by simp) (fun n h => by simp at h ⊢; omega) (fun _ => rfl) (fun _ => rfl)
    (fun _ => trivial) (fun _ => rfl)

instance : LawfulSer Usize :=
  lawful_int 8 (fun n => n.val.toNat) (fun n => ⟨UInt64.ofNat n⟩)
    (fun a => by have := a.val.toNat_lt; simpa using this)
    (fun a => by simp) (fun n h => by simp at h ⊢; omega) (fun _ => rfl)
    (fun next => by simp [de])
    (fun _ => trivial) (fun _ => rfl)

/-! ## Bytes and characters -/

instance : LawfulSer UInt8 where
  emits a _ := Emits.writeAll [a]
  sim _ _ _ _ _ h := h
  de_bytes _ _ _ := rfl
  canon l a r h := by
    refine ⟨trivial, ?_⟩
    cases l with
    | nil => cases h
    | cons b bs => cases h; rfl
  no_panic l := by cases l <;> simp [de]

theorem char_ofNat_toNat (c : Char) : Char.ofNat c.toNat = c := by simp

theorem char_toNat_ofNat {n : Nat} (h : n ≤ 255) : (Char.ofNat n).toNat = n := by
  have : n.isValidChar := by left; omega
  simp [Char.ofNat, this, Char.toNat, Char.ofNatAux]

instance : LawfulSer Char where
  emits c hc := by
    have hc : c.toNat ≤ 255 := hc
    show Emits _ (match u8TryFromChar c with
      | some b => ser b
      | none   => Proc.fail .io) _ _
    simp only [u8TryFromChar, hc, if_true]
    exact Emits.writeAll _
  sim _ _ _ _ _ h := Sim.bind h fun _ => Sim.pure _
  de_bytes c hc rest := by
    have hc : c.toNat ≤ 255 := hc
    show ((.ok (Char.ofNat (UInt8.ofNat c.toNat).toNat), rest) : Ret Unit Char × _) = _
    rw [UInt8.toNat_ofNat', Nat.mod_eq_of_lt (by omega), char_ofNat_toNat]
  canon l c r h := by
    cases l with
    | nil => cases h
    | cons b bs =>
      cases h
      have hb := b.toNat_lt
      have h1 : (Char.ofNat b.toNat).toNat = b.toNat := char_toNat_ofNat (by omega)
      refine ⟨by show (Char.ofNat b.toNat).toNat ≤ 255; omega, ?_⟩
      show b :: r = UInt8.ofNat (Char.ofNat b.toNat).toNat :: r
      rw [h1]; simp
  no_panic l := bind_no_panic (by cases l <;> simp [de]) fun _ _ _ => by simp

/-! ## Compound types -/

section
variable {α β : Type} [Ser α] [SerSpec α] [LawfulSer α] [Ser β] [SerSpec β] [LawfulSer β]

instance : LawfulSer (α × β) where
  emits p h := Emits.bind (LawfulSer.emits p.1 h.1) (LawfulSer.emits p.2 h.2)
  sim R Q n n' hq h := Sim.bind (LawfulSer.sim R Q n n' hq h) fun _ =>
    Sim.bind (LawfulSer.sim R Q n n' hq h) fun _ => Sim.pure _
  de_bytes p h rest := by
    show (de listNext >>= fun a => de listNext >>= fun b => pure (a, b))
      (bytes p.1 ++ bytes p.2 ++ rest) = _
    rw [List.append_assoc, Proc.bind_ok (LawfulSer.de_bytes p.1 h.1 _),
      Proc.bind_ok (LawfulSer.de_bytes p.2 h.2 _)]; rfl
  canon l p r h := by
    obtain ⟨a, s1, h1, h⟩ := bind_ok_inv h
    obtain ⟨b, s2, h2, h⟩ := bind_ok_inv h
    cases h
    obtain ⟨v1, e1⟩ := LawfulSer.canon _ _ _ h1
    obtain ⟨v2, e2⟩ := LawfulSer.canon _ _ _ h2
    exact ⟨⟨v1, v2⟩, by rw [e1, e2, ← List.append_assoc]; rfl⟩
  no_panic l := bind_no_panic (LawfulSer.no_panic l) fun _ _ _ =>
    bind_no_panic (LawfulSer.no_panic _) fun _ _ _ => by simp

theorem readN_sim {σ τ : Type} {R : σ → τ → Prop} {Q : Bool → Bool → σ → τ → Prop}
    {next : Rd σ UInt8} {next' : Rd τ UInt8}
    (hRQ : ∀ s t, R s t → Q false false s t) (h : Sim R Q next next') (k : Nat) :
    Sim R Q (readN next k : Rd σ (List α)) (readN next' k) := by
  induction k with
  | zero => exact Sim.pure _
  | succ k ih =>
    exact Sim.bind (LawfulSer.sim R Q _ _ hRQ h) fun b => Sim.bind ih fun bs => Sim.pure _

theorem readN_bytes (xs : List α) (h : ∀ x ∈ xs, valid x) (rest : List UInt8) :
    readN listNext xs.length (xs.flatMap bytes ++ rest) = (.ok xs, rest) := by
  induction xs with
  | nil => rfl
  | cons x xs ih =>
    simp only [List.length_cons, readN, List.flatMap_cons, List.append_assoc]
    rw [Proc.bind_ok (LawfulSer.de_bytes x (h x (by simp)) _),
      Proc.bind_ok (ih fun y hy => h y (by simp [hy]))]; rfl

theorem readN_canon {k : Nat} {l : List UInt8} {xs : List α} {r : List UInt8}
    (h : readN listNext k l = (.ok xs, r)) :
    xs.length = k ∧ (∀ x ∈ xs, valid x) ∧ l = xs.flatMap bytes ++ r := by
  induction k generalizing l xs with
  | zero => cases h; simp
  | succ k ih =>
    obtain ⟨a, s1, h1, h⟩ := bind_ok_inv h
    obtain ⟨as, s2, h2, h⟩ := bind_ok_inv h
    cases h
    obtain ⟨v1, e1⟩ := LawfulSer.canon _ _ _ h1
    obtain ⟨l2, v2, e2⟩ := ih h2
    refine ⟨by simp [l2], ?_, ?_⟩
    · intro x hx
      rcases List.mem_cons.1 hx with rfl | hx
      · exact v1
      · exact v2 x hx
    · rw [e1, e2, List.flatMap_cons, List.append_assoc]

theorem readN_no_panic (k : Nat) (l : List UInt8) :
    (readN listNext k l : Ret Unit (List α) × _).1 ≠ .panic := by
  induction k generalizing l with
  | zero => simp [readN]
  | succ k ih =>
    exact bind_no_panic (LawfulSer.no_panic l) fun _ _ _ =>
      bind_no_panic (ih _) fun _ _ _ => by simp

theorem usize_bytes (n : Nat) (h : n < 2 ^ 64) :
    bytes (Usize.mk (UInt64.ofNat n)) = le 8 n := by
  show le 8 (UInt64.ofNat n).toNat = _
  rw [UInt64.toNat_ofNat_of_lt' (by simpa using h)]

instance : LawfulSer (List α) where
  emits xs h := by
    have := LawfulSer.emits (Usize.mk (UInt64.ofNat xs.length)) trivial
    rw [usize_bytes _ h.1] at this
    exact Emits.bind this (Emits.forEach xs fun x hx => LawfulSer.emits x (h.2 x hx))
  sim R Q n n' hq h := Sim.bind (LawfulSer.sim R Q n n' hq h) fun _ => readN_sim hq h _
  de_bytes xs h rest := by
    show (de listNext >>= fun len : Usize => readN listNext len.val.toNat)
      (le 8 xs.length ++ xs.flatMap bytes ++ rest) = _
    rw [List.append_assoc, ← usize_bytes _ h.1, Proc.bind_ok (LawfulSer.de_bytes _ trivial _)]
    show readN listNext (UInt64.ofNat xs.length).toNat _ = _
    rw [UInt64.toNat_ofNat_of_lt' (by simpa using h.1)]
    exact readN_bytes xs h.2 rest
  canon l xs r h := by
    obtain ⟨n, s1, h1, h⟩ := bind_ok_inv h
    obtain ⟨_, e1⟩ := LawfulSer.canon _ _ _ h1
    obtain ⟨hl, hv, e2⟩ := readN_canon h
    have hlt := n.val.toNat_lt
    refine ⟨⟨by omega, hv⟩, ?_⟩
    show l = le 8 xs.length ++ xs.flatMap bytes ++ r
    rw [e1, e2, hl, ← List.append_assoc]; rfl
  no_panic l := bind_no_panic (LawfulSer.no_panic l) fun _ _ _ => readN_no_panic _ _

instance {n : Nat} : LawfulSer (Vector α n) where
  emits v h := Emits.forEach v.toList fun x hx => LawfulSer.emits x (h x hx)
  sim R Q nx nx' hq h := Sim.bind (readN_sim hq h _) fun xs => by
    split
    · exact Sim.pure _
    · exact Sim.none hq
  de_bytes v h rest := by
    have hl : v.toList.length = n := by simp
    have := readN_bytes v.toList h rest
    rw [hl] at this
    simp only [de, bytes]
    rw [Proc.bind_ok this]
    simp only [hl, dif_pos, Proc.pure_apply]
    congr 2
  canon l v r h := by
    obtain ⟨xs, s1, h1, h⟩ := bind_ok_inv h
    obtain ⟨hl, hv, e⟩ := readN_canon h1
    simp only [hl, dif_pos, Proc.pure_apply] at h
    cases h
    exact ⟨by simpa [SerSpec.valid] using hv, by simpa [SerSpec.bytes] using e⟩
  no_panic l := bind_no_panic (readN_no_panic _ _) fun xs _ _ => by
    split <;> simp

instance : LawfulSer (Rgb α) where
  emits c h := by
    have h : valid c.r ∧ valid c.g ∧ valid c.b := h
    have hv : valid [c.r, c.g, c.b] := ⟨by simp, by simpa using h⟩
    have := LawfulSer.emits [c.r, c.g, c.b] hv
    have e : bytes [c.r, c.g, c.b] = bytes c := by
      show le 8 3 ++ [c.r, c.g, c.b].flatMap bytes = _
      have h3 : le 8 3 = [3, 0, 0, 0, 0, 0, 0, 0] := by decide
      simp [h3, bytes]
    rw [e] at this; exact this
  sim R Q n n' hq h := Sim.bind (LawfulSer.sim R Q n n' hq h) fun xs => by
    match xs with
    | [_, _, _] => exact Sim.pure _
    | [] | [_] | [_, _] | _ :: _ :: _ :: _ :: _ => exact Sim.none hq
  de_bytes c h rest := by
    have h : valid c.r ∧ valid c.g ∧ valid c.b := h
    have hv : valid [c.r, c.g, c.b] := ⟨by simp, by simpa using h⟩
    have e : bytes [c.r, c.g, c.b] = bytes c := by
      show le 8 3 ++ [c.r, c.g, c.b].flatMap bytes = _
      have h3 : le 8 3 = [3, 0, 0, 0, 0, 0, 0, 0] := by decide
      simp [h3, bytes]
    have := LawfulSer.de_bytes _ hv rest
    rw [e] at this
    simp only [de] at this ⊢
    rw [Proc.bind_ok this]; rfl
  canon l c r h := by
    obtain ⟨xs, s1, h1, h⟩ := bind_ok_inv h
    obtain ⟨hv, e⟩ := LawfulSer.canon _ _ _ h1
    match xs, h with
    | [a, b, c], h =>
      cases h
      refine ⟨by have := hv.2; simpa [valid] using this, ?_⟩
      have h3 : le 8 3 = [3, 0, 0, 0, 0, 0, 0, 0] := by decide
      rw [e]
      show le 8 3 ++ [a, b, c].flatMap bytes ++ r = _
      simp [h3, bytes]
    | [], h | [_], h | [_, _], h | _ :: _ :: _ :: _ :: _, h => cases h
  no_panic l := bind_no_panic (LawfulSer.no_panic l) fun xs _ _ => by
    match xs with
    | [_, _, _] => simp
    | [] | [_] | [_, _] | _ :: _ :: _ :: _ :: _ => simp

/-! ## Consequences -/

theorem ser_unique_prefix {a b : α} (ha : valid a) (hb : valid b) {r s : List UInt8}
    (h : bytes a ++ r = bytes b ++ s) : a = b ∧ r = s := by
  have h1 := LawfulSer.de_bytes a ha r
  rw [h, LawfulSer.de_bytes b hb s] at h1
  cases h1; exact ⟨rfl, rfl⟩

theorem de_truncated {a : α} (ha : valid a) {p : List UInt8} (hp : p <+: bytes a)
    (hne : p ≠ bytes a) : (de listNext p : Ret Unit α × List UInt8).1 = .err () := by
  have hnp := LawfulSer.no_panic (α := α) p
  rcases hd : (de listNext p : Ret Unit α × List UInt8) with ⟨x | x | _, r⟩
  · obtain ⟨hv, e⟩ := LawfulSer.canon _ _ _ hd
    obtain ⟨t, ht⟩ := hp
    have := ser_unique_prefix (r := r ++ t) (s := []) hv ha (by
      rw [← List.append_assoc, ← e, ht, List.append_nil])
    simp only [List.append_eq_nil_iff] at this
    obtain ⟨_, _, rfl⟩ := this
    simp at ht; exact absurd ht hne
  · rfl
  · simp [hd] at hnp

/-- Reading never consumes anything but a prefix of the stream. -/
theorem de_suffix (l : List UInt8) : (de listNext l : Ret Unit α × List UInt8).2 <:+ l := by
  have hs : Sim (fun a b : List UInt8 => a = b ∧ a <:+ l)
      (Same fun a b : List UInt8 => a = b ∧ a <:+ l) listNext listNext := by
    apply Sim.of_rel
    rintro a _ ⟨rfl, h⟩
    refine ⟨rfl, rfl, ?_⟩
    cases a with
    | nil => exact h
    | cons x xs => exact (List.suffix_cons x xs).trans h
  exact ((LawfulSer.sim (α := α) _ _ _ _ (fun _ _ h => ⟨rfl, h⟩) hs).rel
    (s := l) (t := l) ⟨rfl, List.suffix_refl l⟩).2

/-- Reading a value from any iterator that is about to yield its bytes. -/
theorem de_yields {σ : Type} {next : Rd σ UInt8} {s : σ} {a : α} (ha : valid a)
    {rest : List UInt8} (h : Yields next s (bytes a ++ rest)) :
    ∃ s', (de next s : Ret Unit α × σ) = (.ok a, s') ∧ Yields next s' rest := by
  have hs := LawfulSer.sim (α := α) _ _ _ _ (fun _ _ h => ⟨rfl, h⟩) (Sim.of_yields next)
  have h1 := hs.eq h
  have h2 := hs.rel h
  rw [LawfulSer.de_bytes a ha rest] at h1 h2
  exact ⟨(de next s : Ret Unit α × σ).2, Prod.ext h1 rfl, h2⟩

end

/-! ## Streams -/

section
variable {T : Type} [Ser T] [SerSpec T] [LawfulSer T]

theorem yields_serStream (items : List T) (hv : ∀ x ∈ items, valid x) (extra : List UInt8) :
    Yields SerStream.next ⟨items, extra⟩ (extra ++ items.flatMap bytes) := by
  induction items generalizing extra with
  | nil =>
    rw [List.flatMap_nil, List.append_nil]
    induction extra with
    | nil =>
      refine ⟨fun t => t = ⟨[], []⟩, rfl, ?_⟩
      rintro t rfl; exact ⟨rfl, rfl⟩
    | cons b bs ih => exact ⟨_, rfl, ih⟩
  | cons x xs ih =>
    have hx := LawfulSer.emits x (hv x (by simp))
    have ihx := ih fun y hy => hv y (by simp [hy])
    induction extra with
    | cons b bs ihe => exact ⟨_, rfl, ihe⟩
    | nil =>
      obtain ⟨n, hn⟩ := hx.run_mem []
      rw [List.nil_append] at hn
      have hstep : SerStream.next ⟨x :: xs, []⟩ = SerStream.next ⟨xs, bytes x⟩ := by
        simp only [SerStream.next, SerStream.nextAux, hn]
        simp [Sink.mem]
      have h := ihx (bytes x)
      rw [List.nil_append, List.flatMap_cons]
      generalize hl : bytes x ++ List.flatMap bytes xs = l at *
      cases l with
      | nil =>
        obtain ⟨P, h0, hP⟩ := h
        refine ⟨fun t => P t ∨ t = ⟨x :: xs, []⟩, .inr rfl, ?_⟩
        rintro t (ht | rfl)
        · exact ⟨(hP t ht).1, .inl (hP t ht).2⟩
        · rw [hstep]; exact ⟨(hP _ h0).1, .inl (hP _ h0).2⟩
      | cons y ys =>
        obtain ⟨s', h1, h2⟩ := h
        exact ⟨s', by rw [hstep, h1], h2⟩

theorem yields_deserStream {σ : Type} {next : Rd σ UInt8} {s : σ} (items : List T)
    (hv : ∀ x ∈ items, valid x)
    (hnil : (de listNext [] : Ret Unit T × List UInt8).1 = .err ())
    (h : Yields next s (items.flatMap bytes)) :
    Yields (deserStream next : Rd σ T) s items := by
  induction items generalizing s with
  | nil =>
    rw [List.flatMap_nil] at h
    refine ⟨fun t => Yields next t [], h, ?_⟩
    intro t ht
    have hsim := LawfulSer.sim (α := T) _ _ _ _ (fun _ _ h => ⟨rfl, h⟩) (Sim.of_yields next)
    have h1 := hsim.eq ht
    have h2 := hsim.rel ht
    have hs := de_suffix (α := T) []
    rw [List.suffix_nil] at hs
    rw [hs] at h2
    exact ⟨h1.trans hnil, h2⟩
  | cons x xs ih =>
    rw [List.flatMap_cons] at h
    obtain ⟨s', h1, h2⟩ := de_yields (hv x (by simp)) h
    exact ⟨s', h1, ih (fun y hy => hv y (by simp [hy])) h2⟩

/-- A type whose serialized form is never empty does not read from an empty stream. -/
theorem de_nil (hne : ∀ a : T, bytes a ≠ []) :
    (de listNext [] : Ret Unit T × List UInt8).1 = .err () := by
  have hnp := LawfulSer.no_panic (α := T) []
  rcases hd : (de listNext [] : Ret Unit T × List UInt8) with ⟨x | x | _, r⟩
  · obtain ⟨_, e⟩ := LawfulSer.canon _ _ _ hd
    have := (List.append_eq_nil_iff.1 e.symm).1
    exact absurd this (hne x)
  · rfl
  · simp [hd] at hnp

end

end Cniic
