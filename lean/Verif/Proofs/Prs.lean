import Verif.Model.Codec
import Verif.Spec.Prs

/-! # Proofs: parsing of calls and codec names -/

namespace Cniic
open Spec Prs

/-! ## Slices of ASCII text -/

theorem utf8Size_ascii {c : Char} (h : c.toNat < 128) : c.utf8Size = 1 := by
  have : c.val ≤ 127 := by
    rw [UInt32.le_iff_toNat_le]
    have : c.val.toNat < 128 := h
    show c.val.toNat ≤ 127
    omega
  simp [Char.utf8Size, this]

theorem byteLen_ascii {s : List Char} (h : Ascii s) : byteLen s = s.length := by
  induction s with
  | nil => rfl
  | cons c s ih =>
    rw [byteLen, utf8Size_ascii (h c (by simp)), ih fun d hd => h d (by simp [hd])]
    simp [Nat.add_comm]

theorem dropBytes_ascii {s t : List Char} (h : Ascii s) : dropBytes s.length (s ++ t) = some t := by
  induction s with
  | nil => cases t <;> rfl
  | cons c s ih =>
    simp only [List.length_cons, List.cons_append, dropBytes]
    rw [utf8Size_ascii (h c (by simp)), if_pos (by omega)]
    exact ih fun d hd => h d (by simp [hd])

theorem takeBytes_ascii {s t : List Char} (h : Ascii s) : takeBytes s.length (s ++ t) = some s := by
  induction s with
  | nil => cases t <;> rfl
  | cons c s ih =>
    simp only [List.length_cons, List.cons_append, takeBytes]
    rw [utf8Size_ascii (h c (by simp)), if_pos (by omega)]
    simp only [Nat.add_sub_cancel]
    rw [ih fun d hd => h d (by simp [hd])]
    rfl

theorem slice_ascii {a b c : List Char} (ha : Ascii a) (hb : Ascii b) :
    slice (a ++ (b ++ c)) a.length (a.length + b.length) = some b := by
  rw [slice, if_pos (by omega), dropBytes_ascii ha]
  simp only [Option.bind_some, Nat.add_sub_cancel_left]
  exact takeBytes_ascii hb

theorem one_le_utf8Size (c : Char) : 1 ≤ c.utf8Size := Char.utf8Size_pos c

theorem length_le_byteLen (s : List Char) : s.length ≤ byteLen s := by
  induction s with
  | nil => exact Nat.le_refl _
  | cons c s ih =>
    have := one_le_utf8Size c
    rw [byteLen, List.length_cons]; omega

theorem two_le_utf8Size {c : Char} (h : 128 ≤ c.toNat) : 2 ≤ c.utf8Size := by
  have : ¬ c.val ≤ 127 := by
    rw [UInt32.le_iff_toNat_le]
    have : 128 ≤ c.val.toNat := h
    show ¬ c.val.toNat ≤ 127
    omega
  have e : c.utf8Size = if c.val ≤ 127 then 1 else if c.val ≤ 2047 then 2 else if c.val ≤ 65535 then 3 else 4 := rfl
  rw [e, if_neg this]
  split <;> (try split) <;> omega

theorem length_lt_byteLen {s : List Char} (h : ¬ Ascii s) : s.length < byteLen s := by
  induction s with
  | nil => exact absurd (by intro c hc; simp at hc) h
  | cons c s ih =>
    rw [byteLen, List.length_cons]
    by_cases hc : c.toNat < 128
    · have := one_le_utf8Size c
      have := ih (fun hs => h (by
        intro d hd
        rcases List.mem_cons.1 hd with rfl | hd
        · exact hc
        · exact hs d hd))
      omega
    · have := two_le_utf8Size (by omega : 128 ≤ c.toNat)
      have := length_le_byteLen s
      omega

/-! ## The call parser on lists -/

/-- Reading the rest of a call: the arguments before, the text of the current one, the number of
parentheses open in it. -/
def parseArgs (args : List (List Char)) (cur : List Char) : Nat → List Char → Option (List (List Char))
  | _, [] => none
  | k, c :: r =>
    if c = '(' then parseArgs args (cur ++ [c]) (k + 1) r
    else if c = ')' then
      match k with
      | 0 =>
        if r ≠ [] then none
        else if cur = [] then (if args ≠ [] then none else some [])
        else some (args ++ [cur])
      | k + 1 => parseArgs args (cur ++ [c]) k r
    else if c = ',' then
      if k = 0 then (if cur = [] then none else parseArgs (args ++ [cur]) [] 0 r)
      else parseArgs args (cur ++ [c]) k r
    else parseArgs args (cur ++ [c]) k r

/-- Reading the name of a call. -/
def parseName (cur : List Char) : List Char → Option (List Char × List (List Char))
  | [] => none
  | c :: r =>
    if c = '(' then (if cur = [] then none else (parseArgs [] [] 0 r).map fun args => (cur, args))
    else if c = ')' ∨ c = ',' then none
    else parseName (cur ++ [c]) r

/-- What `fun_call` makes of the loop. -/
def finish : Ret Unit FunCall → Ret Unit (List Char × List (List Char))
  | .ok s =>
    if s.parenStack ≠ 0 then .err ()
    else
      match s.funName with
      | some n => .ok (n, s.params)
      | none => .err ()
  | .err e => .err e
  | .panic => .panic

/-- `Some` or `None` as a result. -/
def ofOption {α : Type} : Option α → Ret Unit α
  | some a => .ok a
  | none => .err ()

theorem Ascii.left {a b : List Char} (h : Ascii (a ++ b)) : Ascii a := fun c hc => h c (by simp [hc])
theorem Ascii.right {a b : List Char} (h : Ascii (a ++ b)) : Ascii b := fun c hc => h c (by simp [hc])

theorem ofNat_u16_ne {n m : Nat} (hn : n < 65536) (hm : m < 65536) (h : n ≠ m) :
    UInt16.ofNat n ≠ UInt16.ofNat m := by
  intro he
  have := congrArg UInt16.toNat he
  simp [UInt16.toNat_ofNat'] at this
  omega

/-- The loop inside of the parentheses. -/
theorem loop_args {chk : Bool} {s : List Char} (ha : Ascii s) (hsh : Shallow s) (name : List Char)
    (rest done cur : List Char) (args : List (List Char)) (k : Nat) (hs : s = done ++ (cur ++ rest))
    (hk : (done ++ cur).count '(' = (done ++ cur).count ')' + (k + 1)) :
    finish (funCallLoop chk s (done ++ cur).length rest
      { funName := some name, params := args, parenStack := UInt16.ofNat (k + 1), lastPos := done.length }) =
    ofOption ((parseArgs args cur k rest).map fun a => (name, a)) := by
  induction rest generalizing done cur args k with
  | nil =>
    have hb : k + 1 < 65536 := by
      have := hsh (done ++ cur) ⟨[], by rw [hs]; simp⟩
      omega
    simp only [funCallLoop, finish]
    have : UInt16.ofNat (k + 1) ≠ 0 := ofNat_u16_ne (m := 0) hb (by omega) (by omega)
    rw [if_pos this]
    rfl
  | cons c r ih =>
    have hb : k + 1 < 65536 := by
      have := hsh (done ++ cur) ⟨c :: r, by rw [hs]; simp⟩
      omega
    have hne0 : UInt16.ofNat (k + 1) ≠ 0 := ofNat_u16_ne (m := 0) hb (by omega) (by omega)
    have hs' : s = done ++ ((cur ++ [c]) ++ r) := by rw [hs]; simp
    have hpos : (done ++ (cur ++ [c])).length = (done ++ cur).length + 1 := by simp; omega
    have hcnt : ∀ d : Char, (done ++ (cur ++ [c])).count d = (done ++ cur).count d + if c = d then 1 else 0 := by
      intro d
      rw [← List.append_assoc, List.count_append, List.count_singleton]
      simp
    have hslice : slice s done.length (done ++ cur).length = some cur := by
      rw [hs, List.length_append]
      rw [hs] at ha
      exact slice_ascii (Ascii.left ha) (Ascii.left (Ascii.right ha))
    rw [funCallLoop, funCallStep, parseArgs.eq_def]
    simp only
    by_cases h1 : c = '('
    · subst h1
      have hb' : k + 2 < 65536 := by
        have := hsh (done ++ (cur ++ ['('])) ⟨r, by rw [hs']; simp⟩
        rw [hcnt, hcnt, if_pos rfl, if_neg (by decide)] at this
        omega
      simp only [if_true, if_neg hne0]
      have hmax : ¬ (UInt16.ofNat (k + 1) = 65535) := ofNat_u16_ne (m := 65535) hb (by omega) (by omega)
      have hadd : UInt16.ofNat (k + 1) + 1 = UInt16.ofNat (k + 1 + 1) := by
        apply UInt16.toNat.inj
        simp [UInt16.toNat_add, UInt16.toNat_ofNat']
      simp only [hmax, decide_false, Bool.and_false, hadd]
      rw [← hpos]
      refine ih done (cur ++ ['(']) args (k + 1) hs' ?_
      rw [hcnt, hcnt]
      simp
      simp at hk
      omega
    · rw [if_neg h1, if_neg h1]
      by_cases h2 : c = ')'
      · subst h2
        simp only [if_true, if_neg hne0]
        cases k with
        | zero =>
          have h11 : UInt16.ofNat (0 + 1) = 1 := rfl
          simp only [h11, if_true]
          have hlen : byteLen s = s.length := byteLen_ascii ha
          have hsl : s.length = (done ++ cur).length + 1 + r.length := by rw [hs]; simp; omega
          by_cases hr : r = []
          · subst hr
            rw [if_neg (by rw [hlen, hsl]; simp)]
            simp only [Option.isNone_some]
            by_cases hcur : cur = []
            · subst hcur
              simp only [List.append_nil, if_true]
              by_cases hargs : args = []
              · subst hargs
                simp [funCallLoop, finish, ofOption]
              · have : args.length > 0 := List.length_pos_iff.2 hargs
                simp [this, hargs, finish, ofOption]
            · have hcl := List.length_pos_iff.2 hcur
              have hne : ¬ (done ++ cur).length = done.length := by simp [hcur]
              simp only [hne, hslice, hcur]
              simp [funCallLoop, finish, ofOption]
          · have hrl := List.length_pos_iff.2 hr
            rw [if_pos (by rw [hlen, hsl]; omega), if_pos hr]
            rfl
        | succ k =>
          have h1' : ¬ UInt16.ofNat (k + 1 + 1) = 1 := ofNat_u16_ne (m := 1) hb (by omega) (by omega)
          simp only [h1']
          have hsub : UInt16.ofNat (k + 1 + 1) - 1 = UInt16.ofNat (k + 1) := by
            have : UInt16.ofNat (k + 1 + 1) = UInt16.ofNat (k + 1) + 1 := by
              apply UInt16.toNat.inj
              simp [UInt16.toNat_add, UInt16.toNat_ofNat']
            rw [this, UInt16.add_sub_cancel]
          simp only [hsub]
          rw [← hpos]
          refine ih done (cur ++ [')']) args k hs' ?_
          rw [hcnt, hcnt]
          simp
          simp at hk
          omega
      · rw [if_neg h2, if_neg h2]
        by_cases h3 : c = ','
        · subst h3
          simp only [if_true, if_neg hne0]
          cases k with
          | zero =>
            have h11 : UInt16.ofNat (0 + 1) = 1 := rfl
            simp only [h11, if_true, Option.isNone_some]
            by_cases hcur : cur = []
            · subst hcur
              simp [finish, ofOption]
            · have hne : ¬ done.length = (done ++ cur).length := by simp [hcur]
              simp only [hne, hslice, hcur]
              have := ih (done ++ (cur ++ [','])) [] (args ++ [cur]) 0 (by rw [hs']; simp) (by
                rw [List.append_nil, hcnt, hcnt]
                simp
                simp at hk
                omega)
              rw [List.append_nil, hpos] at this
              exact this
          | succ k =>
            have h1' : ¬ UInt16.ofNat (k + 1 + 1) = 1 := ofNat_u16_ne (m := 1) hb (by omega) (by omega)
            simp only [h1']
            rw [← hpos]
            refine ih done (cur ++ [',']) args (k + 1) hs' ?_
            rw [hcnt, hcnt]
            simp
            simp at hk
            omega
        · rw [if_neg h3, if_neg h3]
          simp only
          rw [← hpos]
          refine ih done (cur ++ [c]) args k hs' ?_
          rw [hcnt, hcnt, if_neg h1, if_neg h2]
          simpa using hk

theorem loop_name {chk : Bool} {s : List Char} (ha : Ascii s) (hsh : Shallow s)
    (rest cur : List Char) (hs : s = cur ++ rest) (hc : ∀ c ∈ cur, ¬ Special c) :
    finish (funCallLoop chk s cur.length rest
      { funName := none, params := [], parenStack := 0, lastPos := 0 }) =
    ofOption (parseName cur rest) := by
  induction rest generalizing cur with
  | nil => rfl
  | cons c r ih =>
    have hs' : s = (cur ++ [c]) ++ r := by rw [hs]; simp
    rw [funCallLoop, funCallStep, parseName]
    by_cases h1 : c = '('
    · subst h1
      simp only [if_true]
      by_cases hcur : cur = []
      · subst hcur; rfl
      · have hcl := List.length_pos_iff.2 hcur
        have hslice : slice s 0 cur.length = some cur := by
          have := slice_ascii (a := []) (b := cur) (c := '(' :: r) (by intro d hd; simp at hd)
            (by rw [hs] at ha; exact Ascii.left ha)
          simpa [hs] using this
        have hne : ¬ cur.length = 0 := by omega
        simp only [Option.isSome_none, Bool.false_or, List.length_nil, hne, hslice, hcur]
        have hcount : ∀ d, Special d → cur.count d = 0 := by
          intro d hd
          rw [List.count_eq_zero]
          intro hm
          exact hc d hm hd
        have := loop_args (chk := chk) ha hsh cur r (cur ++ ['(']) [] [] 0 (by rw [hs']; simp) (by
          rw [List.append_nil, List.count_append, List.count_append, hcount '(' (.inl rfl),
            hcount ')' (.inr (.inl rfl))]
          rfl)
        simp at this
        exact this
    · rw [if_neg h1, if_neg h1]
      by_cases h2 : c = ')'
      · subst h2; simp [finish, ofOption]
      · rw [if_neg h2]
        by_cases h3 : c = ','
        · subst h3; simp [finish, ofOption]
        · rw [if_neg h3, if_neg (by simp [h2, h3])]
          simp only
          have := ih (cur ++ [c]) hs' (by
            intro d hd
            rcases List.mem_append.1 hd with hd | hd
            · exact hc d hd
            · obtain rfl := List.mem_singleton.1 hd
              simp [Special, h1, h2, h3])
          rw [List.length_append] at this
          exact this

/-- The parser reads the list. -/
theorem funCall_eq {chk : Bool} {s : List Char} (ha : Ascii s) (hsh : Shallow s) :
    funCall chk s = ofOption (parseName [] s) :=
  loop_name (chk := chk) ha hsh s [] rfl (by simp)

/-! ## The list parser and the grammar -/

/-- The parentheses open after `s`; `none` at a closing one too much or a comma outside. -/
def argDepth : Nat → List Char → Option Nat
  | k, [] => some k
  | k, c :: r =>
    if c = '(' then argDepth (k + 1) r
    else if c = ')' then
      match k with
      | 0 => none
      | k + 1 => argDepth k r
    else if c = ',' ∧ k = 0 then none
    else argDepth k r

theorem argDepth_cons (k : Nat) (c : Char) (r : List Char) : argDepth k (c :: r) =
    if c = '(' then argDepth (k + 1) r
    else if c = ')' then (match k with | 0 => none | k + 1 => argDepth k r)
    else if c = ',' ∧ k = 0 then none else argDepth k r := by
  rw [argDepth.eq_def]

theorem argDepth_append (k : Nat) (s t : List Char) :
    argDepth k (s ++ t) = (argDepth k s).bind fun j => argDepth j t := by
  induction s generalizing k with
  | nil => rfl
  | cons c r ih =>
    rw [List.cons_append, argDepth_cons, argDepth_cons]
    split
    · exact ih _
    · split
      · cases k with
        | zero => rfl
        | succ k => exact ih _
      · split
        · rfl
        · exact ih _

theorem argText_of_depth (n : Nat) : ∀ (s : List Char), s.length ≤ n →
    (argDepth 0 s = some 0 → ArgText s) ∧
    (∀ k, argDepth (k + 1) s = some 0 → ∃ b t, s = b ++ ')' :: t ∧ Balanced b ∧ argDepth k t = some 0) := by
  induction n with
  | zero =>
    intro s hs
    have : s = [] := List.length_eq_zero_iff.1 (by omega)
    subst this
    refine ⟨fun _ => .nil, fun k h => ?_⟩
    simp [argDepth] at h
  | succ n ih =>
    intro s hs
    cases s with
    | nil =>
      refine ⟨fun _ => .nil, fun k h => ?_⟩
      simp [argDepth] at h
    | cons c r =>
      have hr : r.length ≤ n := by simpa using hs
      by_cases h1 : c = '('
      · subst h1
        constructor
        · intro h
          rw [argDepth_cons, if_pos rfl] at h
          obtain ⟨b, t, rfl, hb, ht⟩ := (ih r hr).2 0 h
          exact .paren hb ((ih t (by simp at hr; omega)).1 ht)
        · intro k h
          rw [argDepth_cons, if_pos rfl] at h
          obtain ⟨b, t, rfl, hb, ht⟩ := (ih r hr).2 (k + 1) h
          obtain ⟨b', t', rfl, hb', ht'⟩ := (ih t (by simp at hr; omega)).2 k ht
          exact ⟨'(' :: (b ++ ')' :: b'), t', by simp, .paren hb hb', ht'⟩
      · by_cases h2 : c = ')'
        · subst h2
          constructor
          · intro h
            simp [argDepth_cons] at h
          · intro k h
            refine ⟨[], r, rfl, .nil, ?_⟩
            simpa [argDepth_cons] using h
        · constructor
          · intro h
            by_cases h3 : c = ','
            · simp [argDepth_cons, h3] at h
            · rw [argDepth_cons, if_neg h1, if_neg h2, if_neg (by simp [h3])] at h
              exact .chr (by simp [Special, h1, h2, h3]) ((ih r hr).1 h)
          · intro k h
            rw [argDepth_cons, if_neg h1, if_neg h2, if_neg (by omega)] at h
            obtain ⟨b, t, rfl, hb, ht⟩ := (ih r hr).2 k h
            exact ⟨c :: b, t, rfl, .chr h1 h2 hb, ht⟩

theorem parseArgs_cons (args : List (List Char)) (cur : List Char) (k : Nat) (c : Char) (r : List Char) :
    parseArgs args cur k (c :: r) =
    if c = '(' then parseArgs args (cur ++ [c]) (k + 1) r
    else if c = ')' then
      match k with
      | 0 =>
        if r ≠ [] then none
        else if cur = [] then (if args ≠ [] then none else some [])
        else some (args ++ [cur])
      | k + 1 => parseArgs args (cur ++ [c]) k r
    else if c = ',' then
      if k = 0 then (if cur = [] then none else parseArgs (args ++ [cur]) [] 0 r)
      else parseArgs args (cur ++ [c]) k r
    else parseArgs args (cur ++ [c]) k r := by
  rw [parseArgs.eq_def]

theorem parseArgs_balanced {b : List Char} (hb : Balanced b) (args : List (List Char)) (cur : List Char)
    (k : Nat) (rest : List Char) :
    parseArgs args cur (k + 1) (b ++ rest) = parseArgs args (cur ++ b) (k + 1) rest := by
  induction hb generalizing cur k rest with
  | nil => simp
  | @chr c s h1 h2 _ ih =>
    rw [List.cons_append, parseArgs_cons, if_neg h1, if_neg h2]
    have := ih (cur ++ [c]) k rest
    simp only [List.append_assoc, List.singleton_append] at this
    simp [this]
  | @paren s t _ _ ih1 ih2 =>
    rw [List.cons_append, parseArgs_cons, if_pos rfl, List.append_assoc, ih1, List.cons_append,
      parseArgs_cons, if_neg (by decide), if_pos rfl]
    simp only
    rw [ih2]
    simp

theorem parseArgs_argText {a : List Char} (ha : ArgText a) (args : List (List Char)) (cur : List Char)
    (rest : List Char) : parseArgs args cur 0 (a ++ rest) = parseArgs args (cur ++ a) 0 rest := by
  induction ha generalizing cur rest with
  | nil => simp
  | @chr c s h _ ih =>
    simp only [Special, not_or] at h
    rw [List.cons_append, parseArgs_cons, if_neg h.1, if_neg h.2.1, if_neg h.2.2, ih]
    simp
  | @paren s t hb _ ih =>
    rw [List.cons_append, parseArgs_cons, if_pos rfl, List.append_assoc, parseArgs_balanced hb,
      List.cons_append, parseArgs_cons, if_neg (by decide), if_pos rfl]
    simp only
    rw [ih]
    simp

theorem parseArgs_complete (as : List (List Char)) (h : ∀ a ∈ as, a ≠ [] ∧ ArgText a)
    (args : List (List Char)) (hne : args = [] ∨ as ≠ []) :
    parseArgs args [] 0 (commas as ++ [')']) = some (args ++ as) := by
  induction as generalizing args with
  | nil =>
    rcases hne with rfl | h
    · rfl
    · exact absurd rfl h
  | cons a as ih =>
    cases as with
    | nil =>
      rw [commas, parseArgs_argText (h a (by simp)).2, parseArgs_cons]
      simp [(h a (by simp)).1]
    | cons b as =>
      rw [commas, List.append_assoc, parseArgs_argText (h a (by simp)).2, List.cons_append, parseArgs_cons]
      simp only [List.nil_append]
      rw [if_neg (by decide), if_neg (by decide), if_pos trivial, if_pos trivial, if_neg (h a (by simp)).1,
        ih (fun x hx => h x (by simp only [List.mem_cons] at hx ⊢; exact .inr hx)) _ (.inr (by simp))]
      simp

theorem parseArgs_sound (rest : List Char) (args : List (List Char)) (cur : List Char) (k : Nat)
    (res : List (List Char)) (hk : argDepth 0 cur = some k) (h : parseArgs args cur k rest = some res) :
    ∃ as, res = args ++ as ∧ (∀ a ∈ as, a ≠ [] ∧ ArgText a) ∧ (args = [] ∨ as ≠ []) ∧
      cur ++ rest = commas as ++ [')'] := by
  induction rest generalizing args cur k with
  | nil => cases k <;> simp [parseArgs] at h
  | cons c r ih =>
    have e : cur ++ c :: r = (cur ++ [c]) ++ r := by simp
    rw [parseArgs_cons] at h
    by_cases h1 : c = '('
    · rw [if_pos h1] at h
      rw [e]
      exact ih args _ _ (by rw [argDepth_append, hk]; simp [h1, argDepth]) h
    · rw [if_neg h1] at h
      by_cases h2 : c = ')'
      · rw [if_pos h2] at h
        cases k with
        | zero =>
          simp only at h
          split at h
          · exact absurd h (by simp)
          · rename_i hr
            have hr : r = [] := Decidable.not_not.1 hr
            subst hr h2
            split at h
            · rename_i hc
              subst hc
              split at h
              · exact absurd h (by simp)
              · rename_i ha
                have ha : args = [] := Decidable.not_not.1 ha
                subst ha
                refine ⟨[], by simpa using h.symm, by simp, .inl rfl, rfl⟩
            · rename_i hc
              refine ⟨[cur], by simpa using h.symm, ?_, .inr (by simp), rfl⟩
              intro a ha
              obtain rfl := List.mem_singleton.1 ha
              exact ⟨hc, (argText_of_depth _ _ (Nat.le_refl _)).1 hk⟩
        | succ k =>
          rw [e]
          exact ih args _ _ (by rw [argDepth_append, hk]; simp [h2, argDepth]) h
      · rw [if_neg h2] at h
        by_cases h3 : c = ','
        · rw [if_pos h3] at h
          by_cases hk0 : k = 0
          · subst hk0
            rw [if_pos rfl] at h
            split at h
            · exact absurd h (by simp)
            · rename_i hc
              obtain ⟨as, rfl, hok, hne, htext⟩ := ih (args ++ [cur]) [] 0 rfl h
              have hne : as ≠ [] := by
                rcases hne with hne | hne
                · simp at hne
                · exact hne
              refine ⟨cur :: as, by simp, ?_, .inr (by simp), ?_⟩
              · intro a ha
                rcases List.mem_cons.1 ha with rfl | ha
                · exact ⟨hc, (argText_of_depth _ _ (Nat.le_refl _)).1 hk⟩
                · exact hok a ha
              · obtain ⟨b, bs, rfl⟩ := List.exists_cons_of_ne_nil hne
                rw [commas, List.append_assoc, List.cons_append, ← htext, h3]
                rfl
          · rw [if_neg hk0] at h
            rw [e]
            exact ih args _ _ (by rw [argDepth_append, hk]; simp [h3, argDepth, hk0]) h
        · rw [if_neg h3] at h
          rw [e]
          exact ih args _ _ (by rw [argDepth_append, hk]; simp [h1, h2, h3, argDepth]) h

theorem parseName_complete (name : List Char) (hn : ∀ c ∈ name, ¬ Special c) (cur r : List Char)
    (hne : cur ++ name ≠ []) :
    parseName cur (name ++ '(' :: r) = (parseArgs [] [] 0 r).map fun args => (cur ++ name, args) := by
  induction name generalizing cur with
  | nil =>
    rw [List.append_nil] at hne
    simp [parseName, hne]
  | cons c name ih =>
    have h := hn c (by simp)
    simp only [Special, not_or] at h
    rw [List.cons_append, parseName, if_neg h.1, if_neg (by simp [h.2.1, h.2.2]),
      ih (fun d hd => hn d (by simp [hd])) _ (by simp)]
    simp

theorem parseName_sound (rest cur : List Char) (hc : ∀ c ∈ cur, ¬ Special c) (name : List Char)
    (args : List (List Char)) (h : parseName cur rest = some (name, args)) :
    IsCall (cur ++ rest) name args := by
  induction rest generalizing cur with
  | nil => simp [parseName] at h
  | cons c r ih =>
    rw [parseName] at h
    split at h
    · rename_i h1
      subst h1
      split at h
      · exact absurd h (by simp)
      · rename_i hcur
        cases hp : parseArgs [] [] 0 r with
        | none => rw [hp] at h; simp at h
        | some as =>
          rw [hp] at h
          simp only [Option.map_some, Option.some.injEq, Prod.mk.injEq] at h
          obtain ⟨rfl, rfl⟩ := h
          obtain ⟨as', he, hok, -, htext⟩ := parseArgs_sound r [] [] 0 as rfl hp
          simp only [List.nil_append] at he htext
          subst he
          exact ⟨by rw [htext], hcur, hc, hok⟩
    · rename_i h1
      split at h
      · exact absurd h (by simp)
      · rename_i h2
        have := ih (cur ++ [c]) (by
          intro d hd
          rcases List.mem_append.1 hd with hd | hd
          · exact hc d hd
          · obtain rfl := List.mem_singleton.1 hd
            simp only [not_or] at h2
            simp [Special, h1, h2]) h
        simpa using this

theorem parseName_iff (s name : List Char) (args : List (List Char)) :
    parseName [] s = some (name, args) ↔ IsCall s name args := by
  constructor
  · intro h
    exact parseName_sound s [] (by simp) name args h
  · rintro ⟨rfl, hne, hp, ha⟩
    rw [parseName_complete name hp [] _ (by simpa using hne), parseArgs_complete args ha [] (.inl rfl)]
    rfl

theorem funCall_iff {chk : Bool} {s : List Char} (ha : Ascii s) (hsh : Shallow s) (name : List Char)
    (args : List (List Char)) : funCall chk s = .ok (name, args) ↔ IsCall s name args := by
  rw [funCall_eq ha hsh, ← parseName_iff]
  cases parseName [] s with
  | none => simp [ofOption]
  | some x => simp [ofOption]

theorem funCall_err {chk : Bool} {s : List Char} (ha : Ascii s) (hsh : Shallow s)
    (h : ∀ name args, ¬ IsCall s name args) : funCall chk s = .err () := by
  rw [funCall_eq ha hsh]
  cases hp : parseName [] s with
  | none => rfl
  | some x => exact absurd ((parseName_iff s x.1 x.2).1 hp) (h _ _)

theorem funCall_no_panic {chk : Bool} {s : List Char} (ha : Ascii s) (hsh : Shallow s) :
    funCall chk s ≠ .panic := by
  rw [funCall_eq ha hsh]
  cases parseName [] s <;> simp [ofOption]

end Cniic
