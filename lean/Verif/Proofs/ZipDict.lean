import Verif.Spec.ZipDict
import Verif.Proofs.Ser

/-! # Proofs about the dictionary coder -/

namespace Cniic
open Spec

/-! ## Node contents are finite maps -/

/-- Value of a key in two parallel lists. -/
def assoc {T : Type} : List UInt8 → List T → UInt8 → Option T
  | k :: ks, v :: vs, b => if k = b then some v else assoc ks vs b
  | _, _, _ => none

namespace Content
variable {T : Type}

/-- Consistency of a node content: parallel lists, no key twice. -/
def WF : Content T → Prop
  | .part ks vs => ks.length = vs.length ∧ ks.Nodup
  | .full _ => True

theorem get_part (ks : List UInt8) (vs : List T) (b : UInt8) :
    get (.part ks vs) b = assoc ks vs b := by
  simp only [get, find]
  induction ks generalizing vs with
  | nil => simp [assoc]
  | cons k ks ih =>
    rw [List.findIdx?_cons]
    by_cases h : k = b
    · subst h; cases vs <;> simp [assoc]
    · cases vs with
      | nil => simp [h, assoc]; cases List.findIdx? (· == b) ks <;> simp
      | cons v vs =>
        simp only [assoc, h, if_false, beq_iff_eq]
        rw [← ih vs]
        cases List.findIdx? (· == b) ks <;> simp

theorem find_none {ks : List UInt8} {b : UInt8} (h : find ks b = none) : b ∉ ks := by
  simp only [find, List.findIdx?_eq_none_iff] at h
  intro hb; simpa using h b hb

theorem assoc_not_mem {ks : List UInt8} {vs : List T} {b : UInt8} (h : b ∉ ks) :
    assoc ks vs b = none := by
  induction ks generalizing vs with
  | nil => simp [assoc]
  | cons k ks ih =>
    simp only [List.mem_cons, not_or] at h
    cases vs with
    | nil => rfl
    | cons v vs => simp only [assoc]; rw [if_neg (Ne.symm h.1)]; exact ih h.2

theorem assoc_set {ks : List UInt8} {vs : List T} {b : UInt8} {i : Nat} (v : T)
    (h : find ks b = some i) (hl : ks.length = vs.length) (x : UInt8) :
    vs[i]? = assoc ks vs b ∧ (vs[i]?).isSome ∧
    assoc ks (vs.set i v) x = if x = b then some v else assoc ks vs x := by
  induction ks generalizing vs i with
  | nil => simp [find] at h
  | cons k ks ih =>
    cases vs with
    | nil => simp at hl
    | cons w vs =>
      simp only [find, List.findIdx?_cons] at h
      by_cases hk : k = b
      · subst hk
        simp at h; subst h
        simp only [List.set_cons_zero, assoc, List.getElem?_cons_zero]
        refine ⟨by simp, by simp, ?_⟩
        by_cases hx : x = k
        · simp [hx]
        · simp [hx, Ne.symm hx]
      · simp [hk] at h
        obtain ⟨j, hj, rfl⟩ := h
        have := ih (vs := vs) (i := j) hj (by simpa using hl)
        simp only [List.set_cons_succ, assoc, List.getElem?_cons_succ, hk, if_false]
        refine ⟨this.1, this.2.1, ?_⟩
        rw [this.2.2]
        by_cases hx : x = b
        · subst hx; simp [hk]
        · simp [hx]

theorem assoc_snoc {ks : List UInt8} {vs : List T} {b : UInt8} (v : T) (hb : b ∉ ks)
    (hl : ks.length = vs.length) (x : UInt8) :
    assoc (ks ++ [b]) (vs ++ [v]) x = if x = b then some v else assoc ks vs x := by
  induction ks generalizing vs with
  | nil =>
    cases vs with
    | nil => simp [assoc, eq_comm]
    | cons w vs => simp at hl
  | cons k ks ih =>
    cases vs with
    | nil => simp at hl
    | cons w vs =>
      simp only [List.mem_cons, not_or] at hb
      simp only [List.cons_append, assoc]
      rw [ih hb.2 (by simpa using hl)]
      by_cases hk : k = x
      · subst hk; simp [Ne.symm hb.1]
      · simp [hk]

theorem toFull_eq {ks : List UInt8} {vs : List T} (hn : ks.Nodup) (hl : ks.length = vs.length)
    (x : UInt8) : toFull ks vs x = assoc ks vs x := by
  have : ∀ init : UInt8 → Option T,
      (ks.zip vs).foldl (fun data kv => setFull data kv.1 kv.2) init x =
        (assoc ks vs x).or (init x) := by
    induction ks generalizing vs with
    | nil => intro init; simp [assoc]
    | cons k ks ih =>
      cases vs with
      | nil => simp at hl
      | cons v vs =>
        intro init
        rw [List.nodup_cons] at hn
        simp only [List.zip_cons_cons, List.foldl_cons, assoc]
        rw [ih hn.2 (by simpa using hl)]
        by_cases hk : k = x
        · subst hk; simp [assoc_not_mem hn.1, setFull]
        · simp [hk, setFull, Ne.symm hk]
  rw [toFull, this]; simp

theorem upsert_spec {c : Content T} (hc : c.WF) (b : UInt8) (v : T) :
    ∃ c', c.upsert b v = some (c', c.get b) ∧ c'.WF ∧
      ∀ x, c'.get x = if x = b then some v else c.get x := by
  match c, hc with
  | .full d, _ => exact ⟨_, rfl, trivial, fun x => rfl⟩
  | .part ks vs, hc =>
    rw [get_part]
    cases hf : find ks b with
    | some i =>
      have h := assoc_set v hf hc.1 b
      obtain ⟨p, hp⟩ := Option.isSome_iff_exists.1 h.2.1
      refine ⟨.part ks (vs.set i v), ?_, ⟨by simpa using hc.1, hc.2⟩, fun x => ?_⟩
      · simp only [upsert, hf]; rw [← h.1, hp]
      · rw [get_part, get_part]; exact (assoc_set v hf hc.1 x).2.2
    | none =>
      have hb := find_none hf
      by_cases ht : ks.length < threshold
      · refine ⟨.part (ks ++ [b]) (vs ++ [v]), ?_, ⟨by simp [hc.1], ?_⟩, fun x => ?_⟩
        · simp [upsert, hf, ht, assoc_not_mem hb]
        · rw [List.nodup_append]
          refine ⟨hc.2, by simp, ?_⟩
          intro a ha c hc' e
          simp at hc'; subst hc' e; exact hb ha
        · rw [get_part, get_part]; exact assoc_snoc v hb hc.1 x
      · refine ⟨.full (setFull (toFull ks vs) b v), ?_, trivial, fun x => ?_⟩
        · simp only [upsert, hf, ht, if_false]; rw [toFull_eq hc.2 hc.1]
        · rw [get_part]
          simp only [get, setFull]; rw [toFull_eq hc.2 hc.1]

theorem put_spec {c : Content T} (hc : c.WF) {b : UInt8} {w : T} (h : c.get b = some w) (v : T) :
    (c.put b v).WF ∧ ∀ x, (c.put b v).get x = if x = b then some v else c.get x := by
  match c, hc with
  | .full d, _ =>
    refine ⟨trivial, fun x => ?_⟩
    simp only [put, get] at h ⊢
    by_cases hx : x = b
    · subst hx; simp [h]
    · simp [hx]
  | .part ks vs, hc =>
    cases hf : find ks b with
    | some i =>
      simp only [put, hf]
      refine ⟨⟨by simpa using hc.1, hc.2⟩, fun x => ?_⟩
      rw [get_part, get_part]; exact (assoc_set v hf hc.1 x).2.2
    | none => rw [get_part, assoc_not_mem (find_none hf)] at h; cases h

end Content

/-! ## The trie is a map -/

namespace Node
variable {T : Type}

theorem children_mk (c : Content (Node T)) (v) : (mk c v).children = c := rfl
theorem values_mk (c : Content (Node T)) (v) : (mk c v).values = v := rfl

/-- Consistency of a trie. -/
inductive WF : Node T → Prop
  | mk {n : Node T} : n.children.WF → n.values.WF → (∀ b c, n.children.get b = some c → WF c) → WF n

theorem wf_new : WF (new : Node T) :=
  ⟨⟨rfl, List.nodup_nil⟩, ⟨rfl, List.nodup_nil⟩, fun b c h => by simp [new, children, Content.new,
    Content.get_part, assoc] at h⟩

theorem descend_new (k : List UInt8) : descend (new : Node T) k = none := by
  match k with
  | [] => rfl
  | [b] => simp [descend, down, new, values, Content.new, Content.get_part, assoc]
  | b :: b' :: r => simp [descend, down, new, children, Content.new, Content.get_part, assoc]

theorem descend_cons (n : Node T) (b b' : UInt8) (r : List UInt8) :
    descend n (b :: b' :: r) = (n.children.get b).bind (descend · (b' :: r)) := by
  simp only [descend, down]; cases n.children.get b <;> rfl

theorem ensureChild_spec {n : Node T} (hn : n.WF) (b : UInt8) :
    ∃ n' c, n.ensureChild b = some n' ∧ n'.WF ∧ n'.children.get b = some c ∧
      ∀ k, descend n' k = descend n k := by
  obtain ⟨hc, hv, hch⟩ := hn
  cases h : n.children.get b with
  | some c => exact ⟨n, c, by simp [ensureChild, h], ⟨hc, hv, hch⟩, h, fun _ => rfl⟩
  | none =>
    obtain ⟨c', he, hc', hg⟩ := Content.upsert_spec hc b (new : Node T)
    refine ⟨.mk c' n.values, new, ?_, ⟨hc', hv, ?_⟩, ?_, ?_⟩
    · simp [ensureChild, h, he]
    · intro x c hx
      simp only [children_mk] at hx
      rw [hg] at hx
      split at hx
      · cases hx; exact wf_new
      · exact hch x c hx
    · simp [children, hg]
    · intro k
      match k with
      | [] => rfl
      | [x] => rfl
      | x :: y :: r =>
        rw [descend_cons, descend_cons]
        simp only [children_mk]
        rw [hg]
        split
        · next e => subst e; rw [show n.children.get x = none from h]; simp [descend_new]
        · rfl

theorem insert_spec {n : Node T} (hn : n.WF) {k : List UInt8} (hk : k ≠ []) (v : T) :
    ∃ n', n.insert k v = some (n', descend n k) ∧ n'.WF ∧
      ∀ k', descend n' k' = if k' = k then some v else descend n k' := by
  induction k generalizing n with
  | nil => exact absurd rfl hk
  | cons b k ih =>
    cases k with
    | nil =>
      obtain ⟨hc, hv, hch⟩ := hn
      obtain ⟨vs, he, hvs, hg⟩ := Content.upsert_spec hv b v
      refine ⟨.mk n.children vs, by simp [insert, he, descend, down], ⟨hc, hvs, hch⟩, ?_⟩
      intro k'
      match k' with
      | [] => simp [descend]
      | [x] => simp [descend, down, values, hg]
      | x :: y :: r => rw [descend_cons, descend_cons]; simp [children]
    | cons b' r =>
      obtain ⟨n1, c, he, hn1, hget, hsame⟩ := ensureChild_spec hn b
      obtain ⟨hc, hv, hch⟩ := hn1
      obtain ⟨c', hi, hc', hd⟩ := ih (hch b c hget) (by simp)
      obtain ⟨hp1, hp2⟩ := Content.put_spec hc hget c'
      refine ⟨.mk (n1.children.put b c') n1.values, ?_, ⟨hp1, hv, ?_⟩, ?_⟩
      · simp only [insert, he, hget, hi]
        rw [← hsame, descend_cons, hget]; rfl
      · intro x d hx
        simp only [children_mk] at hx
        rw [hp2] at hx
        split at hx
        · cases hx; exact hc'
        · exact hch x d hx
      · intro k'
        rw [← hsame]
        match k' with
        | [] => simp [descend]
        | [x] => simp [descend, down, values]
        | x :: y :: r' =>
          rw [descend_cons, descend_cons]
          simp only [children_mk]
          rw [hp2]
          by_cases hx : x = b
          · subst hx
            simp only [if_pos, hget, Option.bind_some, hd]
            simp
          · simp [hx]

end Node

/-! ## Finding the longest known sequence -/

/-- The bytes still to be encoded. -/
def Input.rest (i : Input) : List UInt8 := i.leftOver ++ i.input

theorem Input.next_rest (i : Input) :
    (i.rest = [] ∧ i.next = (.err (), i)) ∨
    ∃ b i', i.next = (.ok b, i') ∧ i.rest = b :: i'.rest := by
  obtain ⟨l, inp⟩ := i
  cases l with
  | cons b l => exact .inr ⟨b, _, rfl, rfl⟩
  | nil =>
    cases inp with
    | cons b l => exact .inr ⟨b, _, rfl, rfl⟩
    | nil => exact .inl ⟨rfl, rfl⟩

theorem Input.rest_save (i : Input) (u : List UInt8) : (i.saveUnused u).rest = u ++ i.rest := by
  simp [rest, saveUnused]

/-- What the loop of `find_symbol` computes, for a descent that has gone down `done = seq ++ extra`. -/
theorem findLoop_spec (n : Node Symbol) (inp : Input) (sym : Option Symbol)
    (seq extra : List UInt8) :
    ∃ s x inp', findLoop n inp sym seq extra = ((s, x), inp') ∧
      x ++ inp'.rest = seq ++ extra ++ inp.rest ∧
      ((s = sym ∧ x = seq ∧ ∀ y r, inp.rest = y ++ r → descend n y = none) ∨
       (∃ z r, x = seq ++ extra ++ z ∧ inp.rest = z ++ r ∧ s = descend n z ∧ s.isSome ∧
          ∀ y r, inp.rest = y ++ r → (descend n y).isSome → y.length ≤ z.length)) := by
  fun_induction findLoop n inp sym seq extra with
  | case1 n inp sym seq extra byte inp' hnext s d hdown ih =>
    obtain ⟨hr, _⟩ | ⟨b, i', he, hr⟩ := inp.next_rest
    · rw [hr] at *; simp_all
    rw [hnext] at he; cases he
    obtain ⟨s', x, inp'', h1, h2, h3⟩ := ih
    simp only [Node.down, Prod.mk.injEq] at hdown
    have key : ∀ y r, inp.rest = y ++ r → (descend n y).isSome →
        y = [byte] ∨ ∃ y', y = byte :: y' ∧ inp'.rest = y' ++ r ∧ (descend d y').isSome := by
      intro y r hy hs
      rw [hr] at hy
      match y with
      | [] => simp [descend] at hs
      | [c] => simp at hy; simp [hy.1]
      | c :: c' :: t =>
        simp at hy
        obtain ⟨rfl, hy⟩ := hy
        rw [Node.descend_cons, hdown.2] at hs
        exact .inr ⟨_, rfl, hy, hs⟩
    refine ⟨s', x, inp'', h1, ?_, .inr ?_⟩
    · rw [h2, hr]; simp
    · rcases h3 with ⟨rfl, rfl, h⟩ | ⟨z, r, hx, hz, hs, hs', hmax⟩
      · refine ⟨[byte], inp'.rest, rfl, hr, by simp [descend, Node.down, hdown.1], rfl, ?_⟩
        intro y r hy hs
        rcases key y r hy hs with rfl | ⟨y', rfl, hy', hs'⟩
        · simp
        · rw [h y' r hy'] at hs'; simp at hs'
      · have hzne : z ≠ [] := by rintro rfl; rw [hs] at hs'; simp [descend] at hs'
        refine ⟨byte :: z, r, by rw [hx]; simp, by rw [hr, hz]; rfl, ?_, hs', ?_⟩
        · rw [hs]
          obtain ⟨c, t, rfl⟩ := List.exists_cons_of_ne_nil hzne
          rw [Node.descend_cons, hdown.2]; rfl
        · intro y r hy hs
          rcases key y r hy hs with rfl | ⟨y', rfl, hy', hs'⟩
          · simp
          · simp only [List.length_cons]
            have := hmax y' r hy' hs'
            omega
  | case2 n inp sym seq extra byte inp' hnext d hdown ih =>
    obtain ⟨hr, _⟩ | ⟨b, i', he, hr⟩ := inp.next_rest
    · rw [hr] at *; simp_all
    rw [hnext] at he; cases he
    obtain ⟨s', x, inp'', h1, h2, h3⟩ := ih
    simp only [Node.down, Prod.mk.injEq] at hdown
    have key : ∀ y r, inp.rest = y ++ r → (descend n y).isSome →
        ∃ y', y = byte :: y' ∧ inp'.rest = y' ++ r ∧ (descend d y').isSome := by
      intro y r hy hs
      rw [hr] at hy
      match y with
      | [] => simp [descend] at hs
      | [c] =>
        simp at hy
        rw [← hy.1] at hs
        simp [descend, Node.down, hdown.1] at hs
      | c :: c' :: t =>
        simp at hy
        obtain ⟨rfl, hy⟩ := hy
        rw [Node.descend_cons, hdown.2] at hs
        exact ⟨_, rfl, hy, hs⟩
    refine ⟨s', x, inp'', h1, by rw [h2, hr]; simp, ?_⟩
    rcases h3 with ⟨hs1, hx1, h⟩ | ⟨z, r, hx, hz, hs, hs', hmax⟩
    · refine .inl ⟨hs1, hx1, ?_⟩
      intro y r hy
      apply Classical.byContradiction
      intro hcon
      obtain ⟨y', rfl, hy', hs'⟩ := key y r hy (Option.isSome_iff_ne_none.2 hcon)
      rw [h y' r hy'] at hs'; simp at hs'
    · have hzne : z ≠ [] := by rintro rfl; rw [hs] at hs'; simp [descend] at hs'
      refine .inr ⟨byte :: z, r, by rw [hx]; simp, by rw [hr, hz]; rfl, ?_, hs', ?_⟩
      · rw [hs]
        obtain ⟨c, t, rfl⟩ := List.exists_cons_of_ne_nil hzne
        rw [Node.descend_cons, hdown.2]; rfl
      · intro y r hy hs
        obtain ⟨y', rfl, hy', hs'⟩ := key y r hy hs
        simp only [List.length_cons]
        have := hmax y' r hy' hs'
        omega
  | case3 n inp sym seq extra byte inp' hnext s hdown =>
    obtain ⟨hr, _⟩ | ⟨b, i', he, hr⟩ := inp.next_rest
    · rw [hr] at *; simp_all
    rw [hnext] at he; cases he
    simp only [Node.down, Prod.mk.injEq] at hdown
    refine ⟨_, _, _, rfl, by rw [Input.rest_save, hr]; simp, .inr ?_⟩
    refine ⟨[byte], inp'.rest, rfl, hr, by simp [descend, Node.down, hdown.1], rfl, ?_⟩
    intro y r hy hs
    rw [hr] at hy
    match y with
    | [] => simp
    | [c] => simp
    | c :: c' :: t =>
      simp at hy
      obtain ⟨rfl, hy⟩ := hy
      rw [Node.descend_cons, hdown.2] at hs
      simp at hs
  | case4 n inp sym seq extra byte inp' hnext hdown =>
    obtain ⟨hr, _⟩ | ⟨b, i', he, hr⟩ := inp.next_rest
    · rw [hr] at *; simp_all
    rw [hnext] at he; cases he
    simp only [Node.down, Prod.mk.injEq] at hdown
    refine ⟨_, _, _, rfl, by rw [Input.rest_save, hr]; simp, .inl ⟨rfl, rfl, ?_⟩⟩
    intro y r hy
    rw [hr] at hy
    match y with
    | [] => rfl
    | [c] =>
      simp at hy
      rw [← hy.1]
      simp [descend, Node.down, hdown.1]
    | c :: c' :: t =>
      simp at hy
      obtain ⟨rfl, hy⟩ := hy
      rw [Node.descend_cons, hdown.2]; rfl
  | case5 n inp sym seq extra r inp' hnot hnext =>
    obtain ⟨hr, he⟩ | ⟨b, i', he, hr⟩ := inp.next_rest
    · rw [he] at hnext; cases hnext
      refine ⟨_, _, _, rfl, by rw [Input.rest_save]; simp, .inl ⟨rfl, rfl, ?_⟩⟩
      intro y r hy
      rw [hr] at hy
      obtain ⟨rfl, _⟩ := List.append_eq_nil_iff.1 hy.symm
      rfl
    · rw [he] at hnext; cases hnext; exact (hnot _ rfl).elim

/-! ## The encoder -/

theorem u16_toNat_ofNat {n : Nat} (h : n < 65536) : (UInt16.ofNat n).toNat = n := by
  rw [UInt16.toNat_ofNat']; exact Nat.mod_eq_of_lt h

/-- The encoder's trie and counter represent the dictionary `known`. -/
structure EncInv (e : DictEncoder) (known : List (List UInt8)) : Prop where
  wf : e.trie.WF
  look : ∀ k s, descend e.trie k = some s ↔ known[s.toNat]? = some k
  nodup : known.Nodup
  len : known.length = e.abbrev_.toNat
  nonempty : [] ∉ known

theorem EncInv.look' {e : DictEncoder} {known : List (List UInt8)} (h : EncInv e known)
    (k : List UInt8) : (descend e.trie k).isSome ↔ k ∈ known := by
  constructor
  · intro hs
    obtain ⟨s, hs⟩ := Option.isSome_iff_exists.1 hs
    exact List.mem_of_getElem? ((h.look k s).1 hs)
  · intro hk
    obtain ⟨i, hi, e'⟩ := List.getElem_of_mem hk
    have hlt : i < 65536 := by
      have := h.len
      have := e.abbrev_.toNat_lt
      omega
    have : descend e.trie k = some (UInt16.ofNat i) := by
      rw [h.look, u16_toNat_ofNat hlt, List.getElem?_eq_getElem hi, e']
    simp [this]

theorem EncInv.createSymbol {e : DictEncoder} {known : List (List UInt8)} (h : EncInv e known)
    {seq : List UInt8} (hne : seq ≠ []) (hnew : seq ∉ known) :
    ∃ e', e.createSymbol seq = some e' ∧ EncInv e' (learn known seq) ∧ e'.input = e.input := by
  have hab := e.abbrev_.toNat_lt
  unfold DictEncoder.createSymbol abbrevNext learn
  by_cases hc : e.abbrev_ = zipEof
  · rw [if_pos hc]
    have hl := h.len
    rw [hc] at hl
    rw [if_neg (by rw [hl]; decide)]
    exact ⟨_, rfl, ⟨h.wf, h.look, h.nodup, h.len, h.nonempty⟩, rfl⟩
  · rw [if_neg hc]
    obtain ⟨t, ht, hwf, hd⟩ := Node.insert_spec h.wf hne e.abbrev_
    have hlt : e.abbrev_.toNat < 65535 := by
      have h1 : e.abbrev_.toNat ≠ 65535 := fun h => hc (UInt16.toNat_inj.1 h)
      omega
    have hl := h.len
    rw [if_pos (by omega)]
    refine ⟨{ e with trie := t, abbrev_ := e.abbrev_ + 1 }, by simp only [ht], ⟨hwf, ?_, ?_, ?_, ?_⟩, rfl⟩
    · intro k s
      simp only
      rw [hd]
      by_cases hk : k = seq
      · subst hk
        rw [if_pos rfl]
        constructor
        · intro hs; cases hs
          rw [← hl]; simp
        · intro hs
          rw [List.getElem?_append] at hs
          split at hs
          · exact absurd (List.mem_of_getElem? hs) hnew
          · next hge =>
            rw [List.getElem?_singleton] at hs
            split at hs
            · congr 1; apply UInt16.toNat_inj.1; omega
            · cases hs
      · rw [if_neg hk, h.look, List.getElem?_append]
        split
        · rfl
        · next hge =>
          rw [List.getElem?_singleton, List.getElem?_eq_none (by omega)]
          split
          · simp [Ne.symm hk]
          · rfl
    · rw [List.nodup_append]
      refine ⟨h.nodup, by simp, ?_⟩
      intro a ha b hb e
      simp at hb; subst hb e; exact hnew ha
    · simp only [List.length_append, List.length_singleton]
      rw [UInt16.toNat_add]
      simp; omega
    · simp only [List.mem_append, List.mem_singleton]
      rintro (h' | h')
      · exact h.nonempty h'
      · exact hne h'.symm

theorem EncInv.createAll {bs : List UInt8} (hbs : bs.Nodup) {e : DictEncoder}
    {known : List (List UInt8)} (h : EncInv e known) (hnew : ∀ b ∈ bs, [b] ∉ known)
    (hlen : known.length + bs.length ≤ 65535) :
    ∃ e', e.createAll bs = some e' ∧ EncInv e' (known ++ bs.map ([·])) ∧ e'.input = e.input := by
  induction bs generalizing e known with
  | nil => exact ⟨e, rfl, by simpa using h, rfl⟩
  | cons b bs ih =>
    obtain ⟨e1, h1, h2, h3⟩ := h.createSymbol (seq := [b]) (by simp) (hnew b (by simp))
    simp only [List.length_cons] at hlen
    rw [learn, if_pos (by omega)] at h2
    rw [List.nodup_cons] at hbs
    obtain ⟨e2, h4, h5, h6⟩ := ih hbs.2 h2 (by
      intro c hc hmem
      simp only [List.mem_append, List.mem_singleton] at hmem
      rcases hmem with hmem | hmem
      · exact hnew c (by simp [hc]) hmem
      · simp at hmem; subst hmem; exact hbs.1 hc) (by simp; omega)
    refine ⟨e2, by simp only [DictEncoder.createAll, h1, h4], ?_, by rw [h6, h3]⟩
    rw [List.append_assoc] at h5
    exact h5

theorem allBytes_nodup : allBytes.Nodup := by decide +kernel

theorem mem_allBytes (b : UInt8) : b ∈ allBytes := by
  refine List.mem_map.2 ⟨b.toNat, List.mem_range.2 b.toNat_lt, by simp⟩

attribute [local irreducible] allBytes in
theorem encoder_new (input : List UInt8) :
    ∃ e, DictEncoder.new input = some e ∧ EncInv e oneByteSeqs ∧ e.input = ⟨[], input⟩ := by
  have h0 : EncInv { input := ⟨[], input⟩, trie := .new, abbrev_ := 0 } [] :=
    ⟨Node.wf_new, by simp [Node.descend_new], List.nodup_nil, rfl, by simp⟩
  obtain ⟨e, h1, h2, h3⟩ := h0.createAll allBytes_nodup (by simp)
    (by unfold allBytes; rw [List.length_map]; simp)
  have hk : ([] ++ allBytes.map ([·])) = oneByteSeqs := by
    unfold allBytes oneByteSeqs; rw [List.nil_append, List.map_map]; rfl
  rw [hk] at h2
  refine ⟨e, ?_, h2, h3⟩
  have hl := h2.len
  have : e.abbrev_ = 0x0100 := by
    apply UInt16.toNat_inj.1
    rw [← hl]; decide +kernel
  unfold DictEncoder.new
  rw [h1]
  exact if_pos this

/-- Every single byte is known. -/
def HasOnes (known : List (List UInt8)) : Prop := oneByteSeqs <+: known

theorem HasOnes.mem {known} (h : HasOnes known) (b : UInt8) : [b] ∈ known := by
  apply h.subset
  exact List.mem_map.2 ⟨b.toNat, List.mem_range.2 b.toNat_lt, by simp⟩

theorem hasOnes_refl : HasOnes oneByteSeqs := by unfold HasOnes; exact List.prefix_rfl

theorem HasOnes.learn {known} (h : HasOnes known) (seq) : HasOnes (learn known seq) := by
  unfold Spec.learn; split
  · exact h.trans (List.prefix_append _ _)
  · exact h

theorem findSymbol_spec {e : DictEncoder} {known : List (List UInt8)} (h : EncInv e known)
    (h1 : HasOnes known) :
    ∃ e', EncInv e' known ∧
      ((e.input.rest = [] ∧ e.findSymbol = ((none, []), e') ∧ e'.input.rest = []) ∨
       ∃ s x, e.findSymbol = ((some s, x), e') ∧ Longest known e.input.rest s x e'.input.rest) := by
  obtain ⟨s, x, inp', he, hsplit, hcase⟩ := findLoop_spec e.trie e.input none [] []
  refine ⟨{ e with input := inp' }, ⟨h.wf, h.look, h.nodup, h.len, h.nonempty⟩, ?_⟩
  simp only [List.nil_append] at hsplit hcase
  rcases hcase with ⟨rfl, rfl, hnone⟩ | ⟨z, r, rfl, hz, hs, hs', hmax⟩
  · left
    have : e.input.rest = [] := by
      cases hr : e.input.rest with
      | nil => rfl
      | cons b t =>
        have h2 := hnone [b] t hr
        have h3 := (h.look' [b]).2 (h1.mem b)
        rw [h2] at h3; cases h3
    refine ⟨this, by simp only [DictEncoder.findSymbol, he], ?_⟩
    rw [this] at hsplit
    simpa using hsplit
  · right
    obtain ⟨s, rfl⟩ := Option.isSome_iff_exists.1 hs'
    refine ⟨s, x, by simp only [DictEncoder.findSymbol, he], ⟨hsplit.symm, ?_, ?_, ?_⟩⟩
    · rintro rfl; simp [descend] at hs
    · exact (h.look x s).1 hs.symm
    · intro y hy hpre
      obtain ⟨t, ht⟩ := hpre
      exact hmax y t ht.symm ((h.look' y).2 hy)

theorem Input.isEmpty_of_rest {i : Input} (h : i.rest = []) : i.isEmpty = true := by
  obtain ⟨l, i⟩ := i
  obtain ⟨rfl, rfl⟩ := List.append_eq_nil_iff.1 h
  rfl

theorem nextPair_spec {e : DictEncoder} {known : List (List UInt8)} (h : EncInv e known)
    (h1 : HasOnes known) :
    (e.input.rest = [] ∧ ∃ e', e.nextPair = (.err (), e') ∧ EncInv e' known) ∨
    (∃ s x e', Longest known e.input.rest s x [] ∧ e.nextPair = (.ok (s, 65535), e') ∧
      EncInv e' known ∧ e'.input.rest = []) ∨
    (∃ s1 x1 i' s2 x2 e', Longest known e.input.rest s1 x1 i' ∧
      Longest known i' s2 x2 e'.input.rest ∧ e.nextPair = (.ok (s1, s2), e') ∧
      EncInv e' (learn known (x1 ++ x2))) := by
  obtain ⟨e1, hi1, ⟨hr, hf, hr'⟩ | ⟨s1, x1, hf, hl1⟩⟩ := findSymbol_spec h h1
  · left
    refine ⟨hr, e1, ?_, hi1⟩
    simp [DictEncoder.nextPair, hf, Input.isEmpty_of_rest hr']
  · right
    have hne1 : ¬ x1.length = 0 := by simpa using hl1.nonempty
    obtain ⟨e2, hi2, ⟨hr, hf2, hr'⟩ | ⟨s2, x2, hf2, hl2⟩⟩ := findSymbol_spec hi1 h1
    · left
      rw [hr] at hl1
      refine ⟨s1, x1, e2, hl1, ?_, hi2, hr'⟩
      simp [DictEncoder.nextPair, hf, hf2, Input.isEmpty_of_rest hr', zipEof, hl1.nonempty]
    · right
      have hne2 : ¬ x2.length = 0 := by simpa using hl2.nonempty
      obtain ⟨e3, hc, hi3, hin⟩ := hi2.createSymbol (seq := x1 ++ x2) (by simp [hl1.nonempty]) (by
        intro hmem
        have hlong := hl1.longest _ hmem (by
          rw [hl1.split, hl2.split, ← List.append_assoc]; exact List.prefix_append _ _)
        rw [List.length_append] at hlong
        omega)
      refine ⟨s1, x1, e1.input.rest, s2, x2, e3, hl1, by rw [hin]; exact hl2, ?_, hi3⟩
      simp [DictEncoder.nextPair, hf, hf2, hc, hl1.nonempty, hl2.nonempty]

theorem emits_symbol (s : Symbol) :
    Emits Emits.errOnly (ser s) [UInt8.ofNat s.toNat, UInt8.ofNat (s.toNat / 256)] () := by
  have h := LawfulSer.emits s trivial
  have e : SerSpec.bytes s = [UInt8.ofNat s.toNat, UInt8.ofNat (s.toNat / 256)] := by
    simp [SerSpec.bytes, le, byteAt, List.range_succ]
  rwa [e] at h

theorem zipDictLoop_spec (fuel : Nat) {e : DictEncoder} {known : List (List UInt8)}
    (h : EncInv e known) (h1 : HasOnes known) (hf : e.input.rest.length < fuel) :
    ∃ syms, Parse known e.input.rest syms ∧
      Emits Emits.errOnly (zipDictLoop fuel e) (symBytes syms) () := by
  induction fuel generalizing e known with
  | zero => omega
  | succ fuel ih =>
    rcases nextPair_spec h h1 with ⟨hr, e', hn, -⟩ | ⟨s, x, e', hl, hn, hi, hr⟩ |
      ⟨s1, x1, i', s2, x2, e', hl1, hl2, hn, hi⟩
    · refine ⟨[], by rw [hr]; exact .nil, ?_⟩
      simp only [zipDictLoop, hn]
      exact Emits.pure ()
    · refine ⟨[s, 65535], .one hl, ?_⟩
      simp only [zipDictLoop, hn]
      have hpos : 0 < fuel := by
        have h2 := hl.split
        have := List.length_pos_iff.2 hl.nonempty
        rw [h2] at hf
        simp at hf; omega
      obtain ⟨syms, hp, he⟩ := ih hi h1 (by rw [hr]; exact hpos)
      rw [hr] at hp
      have hs : syms = [] := by
        cases hp with
        | nil => rfl
        | one hl' =>
          have := hl'.split
          simp at this; exact absurd this hl'.nonempty
        | two hl' =>
          have := hl'.split
          simp at this; exact absurd this.1 hl'.nonempty
      subst hs
      exact (emits_symbol s).bind ((emits_symbol 65535).bind he)
    · have hlen : e'.input.rest.length < fuel := by
        have h2 := hl1.split
        have h3 := hl2.split
        have h4 := List.length_pos_iff.2 hl1.nonempty
        rw [h2, h3] at hf
        simp at hf; omega
      obtain ⟨syms, hp, he⟩ := ih hi (h1.learn _) hlen
      refine ⟨s1 :: s2 :: syms, .two hl1 hl2 hp, ?_⟩
      simp only [zipDictLoop, hn]
      exact (emits_symbol s1).bind ((emits_symbol s2).bind he)

attribute [local irreducible] DictEncoder.new in
theorem zipDictEncode_spec (input : List UInt8) :
    ∃ syms, Parse oneByteSeqs input syms ∧
      Emits Emits.errOnly (zipDictEncode input) (symBytes syms) () := by
  obtain ⟨e, he, hi, hin⟩ := encoder_new input
  have hr : e.input.rest = input := by simp [hin, Input.rest]
  obtain ⟨syms, hp, hs⟩ := zipDictLoop_spec (input.length + 1) hi hasOnes_refl
    (by rw [hr]; omega)
  rw [hr] at hp
  refine ⟨syms, hp, ?_⟩
  unfold zipDictEncode
  rw [he]
  exact hs

/-! ## The decoder -/

/-- The decoder's map and counter represent the dictionary `known`. -/
structure DecInv (d : DictDecoder) (known : List (List UInt8)) : Prop where
  map : ∀ s, d.mapping s = expand known s.toNat
  len : known.length = d.abbrev_.toNat

theorem nextSymbol_cons2 (a b : UInt8) (l : List UInt8) :
    nextSymbol (a :: b :: l) = (.ok (UInt16.ofNat (a.toNat + 256 * b.toNat)), l) := by
  show (Ret.ok (UInt16.ofNat (a.toNat + 256 * (b.toNat + 256 * 0))), l) = _
  simp

theorem sym_toNat (a b : UInt8) :
    (UInt16.ofNat (a.toNat + 256 * b.toNat)).toNat = a.toNat + 256 * b.toNat := by
  apply u16_toNat_ofNat
  have := a.toNat_lt
  have := b.toNat_lt
  omega

/-- The outcome of pulling everything: `xs` and then the end (`true`) or a panic (`false`). -/
def Outcome {σ α : Type} (next : Rd σ α) (s : σ) (xs : List α) (fine : Bool) : Prop :=
  if fine then Yields next s xs else PanicsAfter next s xs

theorem Outcome.of_next_eq {σ α : Type} {next : Rd σ α} {s t : σ} {xs : List α} {b : Bool}
    (e : next s = next t) (h : Outcome next t xs b) : Outcome next s xs b := by
  cases b
  · exact PanicsAfter.of_next_eq e h
  · exact Yields.of_next_eq e h

theorem Outcome.cons {σ α : Type} {next : Rd σ α} {s t : σ} {x : α} {xs : List α} {b : Bool}
    (e : next s = (.ok x, t)) (h : Outcome next t xs b) : Outcome next s (x :: xs) b := by
  cases b
  · exact ⟨t, e, h⟩
  · exact ⟨t, e, h⟩

theorem decoder_outcome (n : Nat) : ∀ (d : DictDecoder) (known : List (List UInt8)),
    d.encoded.length ≤ n → DecInv d known →
    Outcome DictDecoder.next d (d.prevDecoded ++ (meaning known d.encoded).1)
      (meaning known d.encoded).2 := by
  induction n using Nat.strongRecOn with
  | _ n ih =>
  rintro ⟨enc, prev, mp, ab⟩ known hn hd
  simp only at hn
  induction prev with
  | cons b prev ihp =>
    apply Outcome.cons (t := ⟨enc, prev, mp, ab⟩)
    · rw [DictDecoder.next]
    · exact ihp ⟨hd.map, hd.len⟩
  | nil =>
    simp only [List.nil_append]
    match enc with
    | [] =>
      refine ⟨fun t => t.encoded = [] ∧ t.prevDecoded = [], ⟨rfl, rfl⟩, ?_⟩
      rintro ⟨e, p, m, a⟩ ⟨rfl, rfl⟩
      rw [DictDecoder.next]
      exact ⟨rfl, rfl, rfl⟩
    | [a] =>
      refine ⟨fun t => (t.encoded = [] ∨ t.encoded = [a]) ∧ t.prevDecoded = [], ⟨.inr rfl, rfl⟩, ?_⟩
      rintro ⟨e, p, m, a⟩ ⟨h, rfl⟩
      simp only at h
      rcases h with rfl | rfl
      · rw [DictDecoder.next]
        exact ⟨rfl, .inl rfl, rfl⟩
      · rw [DictDecoder.next]
        exact ⟨rfl, .inl rfl, rfl⟩
    | [a, b] =>
      show (DictDecoder.next _).1 = .panic
      rw [DictDecoder.next]; rfl
    | [a, b, c] =>
      show (DictDecoder.next _).1 = .panic
      rw [DictDecoder.next]; rfl
    | a :: b :: c :: d :: rest =>
      simp only [List.length_cons] at hn
      have e1 := hd.map (UInt16.ofNat (a.toNat + 256 * (b.toNat + 256 * 0)))
      have e2 := hd.map (UInt16.ofNat (c.toNat + 256 * (d.toNat + 256 * 0)))
      have hlen := hd.len
      simp only at e1 e2 hlen
      have hnext : DictDecoder.next ⟨a :: b :: c :: d :: rest, [], mp, ab⟩ =
          match mp (UInt16.ofNat (a.toNat + 256 * (b.toNat + 256 * 0))),
            mp (UInt16.ofNat (c.toNat + 256 * (d.toNat + 256 * 0))) with
          | some seq1, some seq2 =>
            match abbrevNext ab with
            | (some code, counter) =>
              DictDecoder.next { encoded := rest, prevDecoded := seq1 ++ seq2,
                                 mapping := newMapping mp code (seq1 ++ seq2), abbrev_ := counter }
            | (none, counter) =>
              DictDecoder.next { encoded := rest, prevDecoded := seq1 ++ seq2,
                                 mapping := mp, abbrev_ := counter }
          | _, _ => (.panic, ⟨rest, [], mp, ab⟩) := by
        rw [DictDecoder.next]; rfl
      rw [e1, e2] at hnext
      simp only [Nat.mul_zero, Nat.add_zero, sym_toNat] at hnext
      cases hx : expand known (a.toNat + 256 * b.toNat) with
      | none =>
        simp only [hx] at hnext
        simp only [meaning, hx]
        show (DictDecoder.next _).1 = .panic
        rw [hnext]
      | some x =>
      cases hy : expand known (c.toNat + 256 * d.toNat) with
      | none =>
        simp only [hx, hy] at hnext
        simp only [meaning, hx, hy]
        show (DictDecoder.next _).1 = .panic
        rw [hnext]
      | some y =>
      simp only [hx, hy] at hnext
      simp only [meaning, hx, hy]
      by_cases hc : ab = zipEof
      · rw [abbrevNext, if_pos hc] at hnext
        have hl : learn known (x ++ y) = known := by
          rw [learn, if_neg]; rw [hlen, hc]; decide
        rw [hl]
        exact Outcome.of_next_eq hnext (ih rest.length (by omega)
          ⟨rest, x ++ y, mp, ab⟩ known (Nat.le_refl _) ⟨hd.map, hd.len⟩)
      · rw [abbrevNext, if_neg hc] at hnext
        have hlt : ab.toNat < 65535 := by
          have h1 : ab.toNat ≠ 65535 := fun h => hc (UInt16.toNat_inj.1 h)
          have := ab.toNat_lt
          omega
        have hl : learn known (x ++ y) = known ++ [x ++ y] := by
          rw [learn, if_pos (by omega)]
        rw [hl]
        refine Outcome.of_next_eq hnext (ih rest.length (by omega)
          ⟨rest, x ++ y, newMapping mp ab (x ++ y), ab + 1⟩ _ (Nat.le_refl _) ⟨?_, ?_⟩)
        · intro s
          have hs := hd.map s
          simp only at hs
          simp only [newMapping, expand] at hs ⊢
          rw [hs]
          by_cases h1 : s = ab
          · subst h1
            rw [if_pos rfl, if_neg (by omega), ← hlen]
            simp
          · rw [if_neg h1]
            have h2 : s.toNat ≠ ab.toNat := fun h => h1 (UInt16.toNat_inj.1 h)
            split
            · rfl
            · rw [List.getElem?_append]
              split
              · rfl
              · rw [List.getElem?_eq_none (by omega), List.getElem?_eq_none (by simp; omega)]
        · simp only [List.length_append, List.length_singleton]
          rw [UInt16.toNat_add]
          simp; omega

theorem foldl_newMapping (bs : List UInt8) (m : Symbol → Option (List UInt8)) (s : Symbol) :
    bs.foldl (fun m b => newMapping m b.toUInt16 [b]) m s =
      if s.toNat < 256 ∧ UInt8.ofNat s.toNat ∈ bs then some [UInt8.ofNat s.toNat] else m s := by
  induction bs generalizing m with
  | nil => simp
  | cons b bs ih =>
    rw [List.foldl_cons, ih]
    by_cases hs : s.toNat < 256
    · by_cases hb : UInt8.ofNat s.toNat ∈ bs
      · rw [if_pos ⟨hs, hb⟩, if_pos ⟨hs, List.mem_cons_of_mem _ hb⟩]
      · by_cases he : s = b.toUInt16
        · have : UInt8.ofNat s.toNat = b := by subst he; simp
          rw [if_neg (fun h => hb h.2), if_pos ⟨hs, by rw [this]; exact List.mem_cons_self⟩, this]
          exact if_pos he
        · have : UInt8.ofNat s.toNat ≠ b := by
            intro h; apply he; apply UInt16.toNat_inj.1
            rw [← h]; simp; omega
          rw [if_neg (fun h => hb h.2), if_neg (fun h => (List.mem_cons.1 h.2).elim this hb)]
          exact if_neg he
    · have he : s ≠ b.toUInt16 := by
        rintro rfl; apply hs; simpa using b.toNat_lt
      simp [hs, newMapping, he]

theorem decInv_new (encoded : List UInt8) : DecInv (zipDictDecode encoded) oneByteSeqs := by
  refine ⟨fun s => ?_, by simp [oneByteSeqs, zipDictDecode]⟩
  simp only [zipDictDecode]
  unfold newMapping
  by_cases h : s = zipEof
  · subst h; rfl
  · have h1 : s.toNat ≠ 65535 := fun h' => h (UInt16.toNat_inj.1 h')
    rw [if_neg h]
    have := foldl_newMapping allBytes (fun _ => none) s
    unfold newMapping at this
    rw [this, expand, if_neg h1]
    simp only [mem_allBytes, and_true]
    unfold oneByteSeqs
    rw [List.getElem?_map]
    split
    · next h => rw [List.getElem?_range h]; rfl
    · next h => rw [List.getElem?_eq_none (by simpa using h)]; rfl

theorem zipDictDecode_outcome (encoded : List UInt8) :
    Outcome DictDecoder.next (zipDictDecode encoded) (meaning oneByteSeqs encoded).1
      (meaning oneByteSeqs encoded).2 := by
  have := decoder_outcome encoded.length (zipDictDecode encoded) oneByteSeqs (Nat.le_refl _)
    (decInv_new encoded)
  exact this

/-! ## Round trip -/

theorem learn_le {known : List (List UInt8)} (h : known.length ≤ 65535) (seq) :
    (learn known seq).length ≤ 65535 := by
  unfold learn; split
  · simp; omega
  · exact h

theorem Spec.Longest.lt {known i s x r} (h : Longest known i s x r) (hl : known.length ≤ 65535) :
    s.toNat < 65535 := by
  have := (List.getElem?_eq_some_iff.1 h.isKnown).1
  omega

theorem Spec.Longest.expand {known i s x r} (h : Longest known i s x r) (hl : known.length ≤ 65535) :
    expand known s.toNat = some x := by
  have := h.lt hl
  rw [Spec.expand, if_neg (by omega)]; exact h.isKnown

theorem sym_split (s : UInt16) : (UInt8.ofNat s.toNat).toNat + 256 * (UInt8.ofNat (s.toNat / 256)).toNat
    = s.toNat := by
  have := s.toNat_lt
  simp; omega

theorem Spec.Parse.meaning {known i syms} (h : Parse known i syms) (hl : known.length ≤ 65535) :
    meaning known (symBytes syms) = (i, true) := by
  induction h with
  | nil => simp [symBytes, Spec.meaning]
  | @one known i s x h =>
    have e := h.expand hl
    simp only [symBytes, List.flatMap_cons, List.flatMap_nil, List.cons_append, List.nil_append,
      Spec.meaning]
    rw [sym_split, sym_split, e]
    have e2 : Spec.expand known (UInt16.toNat 65535) = some [] := rfl
    rw [e2]
    simp [Spec.meaning, h.split]
  | @two known i s1 x1 i' s2 x2 i'' syms h1 h2 _ ih =>
    have e1 := h1.expand hl
    have e2 := h2.expand hl
    have := ih (learn_le hl _)
    simp only [symBytes, List.flatMap_cons, List.cons_append, List.nil_append,
      Spec.meaning] at this ⊢
    rw [sym_split, sym_split, e1, e2]
    simp only
    rw [this, h1.split, h2.split]
    simp

/-! ## Dictionaries during a run -/

/-- What is true of every dictionary that arises. -/
structure GoodDict (known : List (List UInt8)) : Prop where
  nodup : known.Nodup
  ones : oneByteSeqs <+: known
  nonempty : [] ∉ known
  le : known.length ≤ 65535

theorem goodDict_start : GoodDict oneByteSeqs := by
  refine ⟨?_, hasOnes_refl, ?_, ?_⟩
  · decide +kernel
  · decide +kernel
  · decide +kernel

theorem GoodDict.learn {known i s1 x1 i' s2 x2 i''} (h : GoodDict known)
    (h1 : Longest known i s1 x1 i') (h2 : Longest known i' s2 x2 i'') :
    GoodDict (learn known (x1 ++ x2)) := by
  have hnew : x1 ++ x2 ∉ known := by
    intro hmem
    have hlong := h1.longest _ hmem (by
      rw [h1.split, h2.split, ← List.append_assoc]; exact List.prefix_append _ _)
    have := List.length_pos_iff.2 h2.nonempty
    rw [List.length_append] at hlong
    omega
  refine ⟨?_, HasOnes.learn h.ones _, ?_, learn_le h.le _⟩
  · unfold Spec.learn; split
    · rw [List.nodup_append]
      refine ⟨h.nodup, by simp, ?_⟩
      intro a ha b hb e
      simp at hb; subst hb e; exact hnew ha
    · exact h.nodup
  · unfold Spec.learn; split
    · simp only [List.mem_append, List.mem_singleton]
      rintro (h' | h')
      · exact h.nonempty h'
      · exact h1.nonempty (List.append_eq_nil_iff.1 h'.symm).1
    · exact h.nonempty

theorem GoodDict.one {known : List (List UInt8)} (h : GoodDict known) {s : UInt16} {b : UInt8}
    (hs : known[s.toNat]? = some [b]) : s.toNat = b.toNat := by
  obtain ⟨t, rfl⟩ := h.ones
  have hb : (oneByteSeqs ++ t)[b.toNat]? = some [b] := by
    have hl : b.toNat < oneByteSeqs.length := by
      unfold oneByteSeqs; rw [List.length_map, List.length_range]; exact b.toNat_lt
    rw [List.getElem?_append_left hl]
    unfold oneByteSeqs
    rw [List.getElem?_map, List.getElem?_range b.toNat_lt]
    simp
  obtain ⟨h1, e1⟩ := List.getElem?_eq_some_iff.1 hs
  obtain ⟨h2, e2⟩ := List.getElem?_eq_some_iff.1 hb
  have hp := List.pairwise_iff_getElem.1 h.nodup
  rcases Nat.lt_trichotomy s.toNat b.toNat with hlt | heq | hgt
  · exact absurd (e1.trans e2.symm) (hp _ _ h1 h2 hlt)
  · exact heq
  · exact absurd (e2.trans e1.symm) (hp _ _ h2 h1 hgt)

end Cniic
