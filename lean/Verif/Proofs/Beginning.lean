import Verif.Spec.Beginning
import Verif.Proofs.WrongCodec
import Verif.Proofs.Rle
import Verif.Proofs.BackEnc
import Verif.Proofs.Hilbertc
import Verif.Spec.Damage

/-! # Proofs: the beginning of compressed data -/

namespace Cniic
open Spec SerSpec

/-! ## zip-dict -/

theorem symBytes_take (syms : List UInt16) (m : Nat) : (symBytes syms).take (2 * m) = symBytes (syms.take m) := by
  induction m generalizing syms with
  | zero => simp [symBytes]
  | succ m ih =>
    cases syms with
    | nil => simp [symBytes]
    | cons s syms =>
      rw [symBytes_cons, show 2 * (m + 1) = 2 * m + 1 + 1 by omega, List.take_succ_cons, List.take_succ_cons, ih,
        List.take_succ_cons, symBytes_cons]

theorem learned_four (known : List (List UInt8)) (s1 s2 : UInt16) (rest : List UInt8)
    {x y : List UInt8} (h1 : expand known s1.toNat = some x) (h2 : expand known s2.toNat = some y) :
    learned known (UInt8.ofNat s1.toNat :: UInt8.ofNat (s1.toNat / 256) :: UInt8.ofNat s2.toNat ::
      UInt8.ofNat (s2.toNat / 256) :: rest) = learned (learn known (x ++ y)) rest := by
  simp only [learned]
  rw [sym_split, sym_split, h1, h2]

theorem learn_mono {known : List (List UInt8)} {s : List UInt8} (h : s ∈ known) (x : List UInt8) : s ∈ learn known x := by
  unfold learn
  split
  · exact List.mem_append_left _ h
  · exact h

theorem learned_mono {known : List (List UInt8)} {s : List UInt8} (l : List UInt8) (h : s ∈ known) : s ∈ learned known l := by
  fun_induction learned known l with
  | case1 known a b c d rest x y hx hy ih => exact ih (learn_mono h _)
  | case2 => exact h
  | case3 => exact h

/-- What is learned has been read. -/
theorem learned_length {known : List (List UInt8)} (l : List UInt8) {s : List UInt8} (h : s ∈ learned known l) :
    s ∈ known ∨ s.length ≤ (meaning known l).1.length := by
  fun_induction learned known l with
  | case1 known a b c d rest x y hx hy ih =>
    have e : (meaning known (a :: b :: c :: d :: rest)).1 = x ++ y ++ (meaning (learn known (x ++ y)) rest).1 := by
      simp only [meaning, hx, hy]
    rw [e]
    rcases ih h with h | h
    · unfold learn at h
      split at h
      · rcases List.mem_append.1 h with h | h
        · exact .inl h
        · rw [List.mem_singleton.1 h]
          exact .inr (by simp)
      · exact .inl h
    · right
      rw [List.length_append]
      omega
  | case2 => exact .inl h
  | case3 => exact .inl h

/-- The longest known sequence at the beginning does not depend on bytes farther away than the known sequences are long. -/
theorem Longest.elsewhere {known : List (List UInt8)} {D : Nat} (hD : ∀ s ∈ known, s.length ≤ D) {a y x r : List UInt8} {s : UInt16}
    (h : Longest known (a ++ y) s x r) (ha : D ≤ a.length) :
    ∃ b, a = x ++ b ∧ r = b ++ y ∧ ∀ y', Longest known (a ++ y') s x (b ++ y') := by
  have hx : x.length ≤ a.length := Nat.le_trans (hD x (List.mem_of_getElem? h.isKnown)) ha
  have hp : x <+: a := List.prefix_of_prefix_length_le ⟨r, h.split.symm⟩ (List.prefix_append a y) hx
  obtain ⟨b, rfl⟩ := hp
  have hr : r = b ++ y := by
    have := h.split
    rw [List.append_assoc] at this
    exact (List.append_cancel_left this).symm
  refine ⟨b, rfl, hr, fun y' => ⟨by rw [List.append_assoc], h.nonempty, h.isKnown, ?_⟩⟩
  intro z hz hp
  refine h.longest z hz ?_
  have : z <+: x ++ b := List.prefix_of_prefix_length_le hp (List.prefix_append _ y') (Nat.le_trans (hD z hz) ha)
  exact this.trans (List.prefix_append _ y)

theorem parse_beginning {D : Nat} (hD1 : 1 ≤ D) (m : Nat) {known : List (List UInt8)} (hg : GoodDict known) {a y y' : List UInt8}
    {syms syms' : List UInt16} (h : Parse known (a ++ y) syms) (h' : Parse known (a ++ y') syms')
    (hD : ∀ s ∈ learned known (symBytes (syms.take (2 * m))), s.length ≤ D)
    (hc : (meaning known (symBytes (syms.take (2 * m)))).1.length + D ≤ a.length) :
    syms.take (2 * m) = syms'.take (2 * m) := by
  induction m generalizing known a syms syms' with
  | zero => rfl
  | succ m ih =>
    have hk : ∀ s ∈ known, s.length ≤ D := fun s hs => hD s (learned_mono _ hs)
    generalize hi : a ++ y = i at h
    cases h with
    | nil =>
      have : a = [] := (List.append_eq_nil_iff.1 hi).1
      rw [this, List.length_nil] at hc
      omega
    | @one _ _ s x hx =>
      have hlen := hk x (List.mem_of_getElem? hx.isKnown)
      have e := congrArg List.length (hi.trans hx.split)
      have e2 : (meaning known (symBytes [s, 65535])).1.length = x.length := by
        have := meaning_four known s 65535 [] (hx.expand hg.le) (show expand known (65535 : UInt16).toNat = some [] by rfl)
        have e3 : symBytes [s, 65535] = UInt8.ofNat s.toNat :: UInt8.ofNat (s.toNat / 256) ::
          UInt8.ofNat (65535 : UInt16).toNat :: UInt8.ofNat ((65535 : UInt16).toNat / 256) :: [] := rfl
        rw [e3, this]
        simp [meaning]
      rw [show 2 * (m + 1) = 2 * m + 1 + 1 by omega, List.take_succ_cons, List.take_succ_cons, List.take_nil, e2] at hc
      simp at e
      omega
    | @two _ _ s1 x1 i' s2 x2 i'' rest h1 h2 h3 =>
      subst hi
      rw [show 2 * (m + 1) = 2 * m + 1 + 1 by omega, List.take_succ_cons, List.take_succ_cons] at hD hc ⊢
      rw [symBytes_cons, symBytes_cons] at hD hc
      rw [meaning_four known s1 s2 _ (h1.expand hg.le) (h2.expand hg.le)] at hc
      rw [learned_four known s1 s2 _ (h1.expand hg.le) (h2.expand hg.le)] at hD
      simp only [List.length_append] at hc
      obtain ⟨b, rfl, rfl, k1⟩ := Longest.elsewhere hk h1 (by omega)
      rw [List.length_append] at hc
      obtain ⟨c, rfl, rfl, k2⟩ := Longest.elsewhere hk h2 (by omega)
      rw [List.length_append] at hc
      obtain ⟨rest', rfl, h3'⟩ := Parse.first hg.nodup (k1 y') (k2 y') h'
      rw [List.take_succ_cons, List.take_succ_cons]
      rw [ih (hg.learn h1 h2) h3 h3' hD (by omega)]

/-! ## zip-back -/

theorem Occurs.elsewhere {N : Nat} {hist a y : List UInt8} {len back : Nat} (h : Occurs N hist (a ++ y) len back)
    (ha : min hist.length N ≤ a.length) (y' : List UInt8) : Occurs N hist (a ++ y') len back := by
  have h1 := h.inHist
  have h2 := h.inWindow
  have h3 := h.inside
  refine ⟨h1, h2, h3, by rw [List.length_append]; omega, ?_⟩
  intro i hi
  rw [h.same i hi, List.getElem?_append_left (by omega), List.getElem?_append_left (by omega)]

theorem LongestCopy.elsewhere {N : Nat} {hist a y : List UInt8} {len back : Nat} (h : LongestCopy N hist (a ++ y) len back)
    (ha : min hist.length N ≤ a.length) (y' : List UInt8) : LongestCopy N hist (a ++ y') len back :=
  ⟨Occurs.elsewhere h.occurs ha y', h.useful, fun l b ho => h.longest l b (Occurs.elsewhere ho ha y),
    fun b ho => h.farthest b (Occurs.elsewhere ho ha y)⟩

theorem NoCopy.elsewhere {N : Nat} {hist a y : List UInt8} (h : NoCopy N hist (a ++ y))
    (ha : min hist.length N ≤ a.length) (y' : List UInt8) : NoCopy N hist (a ++ y') :=
  fun l b ho => h l b (Occurs.elsewhere ho ha y)

theorem standFor_append (a b : List Back.Symbol) : standFor (a ++ b) = standFor a + standFor b := by
  simp [standFor]

theorem standFor_literal (run : List UInt8) : standFor (literal run) = run.length := by
  unfold literal
  split
  · next h => rw [h]; rfl
  · simp [standFor, symbolLength]

theorem factor_next {N : Nat} {hist run rest : List UInt8} {len back : Nat} {syms : List Back.Symbol}
    (hc : LongestCopy N hist rest len back) (h : Factor N hist run rest syms) :
    ∃ syms', syms = literal run ++ .lookBack len back :: syms' ∧ Factor N (hist ++ rest.take len) [] (rest.drop len) syms' := by
  cases h with
  | @copy _ _ _ len' back' syms' hc' h' =>
    have hl : len = len' := Nat.le_antisymm (hc'.longest _ _ hc.occurs) (hc.longest _ _ hc'.occurs)
    subst hl
    have hb : back = back' := Nat.le_antisymm (hc'.farthest _ hc.occurs) (hc.farthest _ hc'.occurs)
    subst hb
    exact ⟨syms', rfl, h'⟩
  | extend hn _ _ => have := hn _ _ hc.occurs; have := hc.useful; omega
  | last hn _ => have := hn _ _ hc.occurs; have := hc.useful; omega

theorem factor_later {N : Nat} {hist run rest : List UInt8} {syms : List Back.Symbol} (hn : NoCopy N hist rest)
    (hl : max run.length 2 ≤ rest.length) (h : Factor N hist run rest syms) :
    Factor N (hist ++ rest.take (max run.length 2)) (run ++ rest.take (max run.length 2)) (rest.drop (max run.length 2)) syms := by
  cases h with
  | copy hc _ => have := hn _ _ hc.occurs; have := hc.useful; omega
  | extend _ _ h' => exact h'
  | last _ hl' => omega

theorem standFor_total {N : Nat} {hist run rest : List UInt8} {syms : List Back.Symbol} (h : Factor N hist run rest syms) :
    standFor syms = run.length + rest.length := by
  induction h with
  | @copy hist run rest len back syms hc _ ih =>
    have := hc.occurs.avail
    rw [standFor_append, standFor_literal]
    have e : standFor (.lookBack len back :: syms) = len + standFor syms := by simp [standFor, symbolLength]
    rw [e, ih, List.length_drop, List.length_nil]
    omega
  | @extend hist run rest syms _ hl _ ih =>
    rw [ih, List.length_append, List.length_take, List.length_drop]
    omega
  | @last hist run rest _ _ => rw [standFor_literal, List.length_append]

/-- The pending literal run is part of the first symbol. -/
theorem standFor_run {N : Nat} {hist run rest : List UInt8} {syms pre post : List Back.Symbol}
    (h : Factor N hist run rest syms) (he : syms = pre ++ post) (hp : pre ≠ []) : run.length ≤ standFor pre := by
  have lit : ∀ (run : List UInt8) (more : List Back.Symbol), literal run ++ more = pre ++ post → run.length ≤ standFor pre := by
    intro run more he
    unfold literal at he
    split at he
    · next h0 => rw [h0]; simp
    · cases pre with
      | nil => exact absurd rfl hp
      | cons s pre =>
        obtain ⟨rfl, -⟩ := List.cons.inj he
        simp [standFor, symbolLength]
  induction h with
  | copy _ _ _ => exact lit _ _ he
  | extend _ _ _ ih =>
    have := ih he
    rw [List.length_append] at this
    omega
  | @last hist run rest _ _ =>
    have := lit (run ++ rest) [] (by rw [List.append_nil]; exact he)
    rw [List.length_append] at this
    omega

theorem factor_beginning {N : Nat} (hN : 0 < N) {hist run i : List UInt8} {syms : List Back.Symbol} (h : Factor N hist run i syms)
    {a y y' : List UInt8} (hi : i = a ++ y) {syms' : List Back.Symbol} (h' : Factor N hist run (a ++ y') syms')
    {pre post : List Back.Symbol} (he : syms = pre ++ post) (hh : run.length ≤ hist.length)
    (hc : standFor pre - run.length + min (hist.length + (standFor pre - run.length)) N ≤ a.length) : pre <+: syms' := by
  by_cases hp : pre = []
  · rw [hp]; exact List.nil_prefix
  have hrun := standFor_run h he hp
  induction h generalizing a syms' pre with
  | @copy hist run rest len back syms hcopy hf ih =>
    subst hi
    obtain ⟨syms'', rfl, hf'⟩ := factor_next (LongestCopy.elsewhere hcopy (by omega) y') h'
    -- the symbols before the copy, and the copy
    by_cases hle : pre.length ≤ (literal run).length
    · have := List.prefix_of_prefix_length_le (⟨post, he.symm⟩ : pre <+: literal run ++ .lookBack len back :: syms)
        (List.prefix_append (literal run) _) hle
      exact this.trans (List.prefix_append _ _)
    · have hpre : literal run ++ [.lookBack len back] <+: pre := by
        refine List.prefix_of_prefix_length_le (l₃ := pre ++ post) ?_ (List.prefix_append _ _) (by simp; omega)
        rw [← he]
        exact ⟨syms, by simp⟩
      obtain ⟨pre', rfl⟩ := hpre
      have hs : standFor (literal run ++ [.lookBack len back] ++ pre') = run.length + len + standFor pre' := by
        rw [standFor_append, standFor_append, standFor_literal]
        simp [standFor, symbolLength]
      rw [hs] at hc hrun
      have hlen : len ≤ a.length := by omega
      have e : syms = pre' ++ post := by simpa [List.append_assoc] using he
      have ht : ∀ z : List UInt8, (a ++ z).take len = a.take len := fun z => List.take_append_of_le_length hlen
      have hd : ∀ z : List UInt8, (a ++ z).drop len = a.drop len ++ z := fun z => List.drop_append_of_le_length hlen
      rw [ht, hd] at hf'
      have hq : literal run ++ [Back.Symbol.lookBack len back] ++ pre' <+: literal run ++ [Back.Symbol.lookBack len back] ++ syms'' := by
        by_cases hp' : pre' = []
        · rw [hp', List.append_nil]; exact List.prefix_append _ _
        refine (List.prefix_append_right_inj _).2 ?_
        refine ih (a := a.drop len) (hd y) (by rw [ht]; exact hf') e (Nat.zero_le _) ?_ hp' (Nat.zero_le _)
        have : ((a ++ y).take len).length = len := by rw [ht, List.length_take]; omega
        rw [List.length_append, this, List.length_drop, List.length_nil]
        omega
      simpa [List.append_assoc] using hq
  | @extend hist run rest syms hn hl hf ih =>
    subst hi
    have hrun2 := standFor_run hf he hp
    have htl : ((a ++ y).take (max run.length 2)).length = max run.length 2 := by
      rw [List.length_take]
      omega
    rw [List.length_append, htl] at hrun2
    have hla : max run.length 2 ≤ a.length := by omega
    have ht : ∀ z : List UInt8, (a ++ z).take (max run.length 2) = a.take (max run.length 2) :=
      fun z => List.take_append_of_le_length hla
    have hd : ∀ z : List UInt8, (a ++ z).drop (max run.length 2) = a.drop (max run.length 2) ++ z :=
      fun z => List.drop_append_of_le_length hla
    have hf' := factor_later (NoCopy.elsewhere hn (by omega) y') (by rw [List.length_append]; omega) h'
    rw [ht, hd] at hf'
    refine ih (a := a.drop (max run.length 2)) (hd y) (by rw [ht]; exact hf') he
      (by rw [List.length_append, List.length_append]; omega) ?_ hp
      (by rw [List.length_append, htl]; exact hrun2)
    rw [List.length_append, List.length_append, htl, List.length_drop]
    omega
  | @last hist run rest hn hl =>
    subst hi
    exfalso
    have : standFor pre = run.length + (a ++ y).length := by
      have hh : pre = literal (run ++ (a ++ y)) := by
        unfold literal at he ⊢
        split at he
        · exact absurd (List.append_eq_nil_iff.1 he.symm).1 hp
        · next h0 =>
          rw [if_neg h0]
          cases pre with
          | nil => exact absurd rfl hp
          | cons s pre =>
            obtain ⟨rfl, e⟩ := List.cons.inj he
            rw [(List.append_eq_nil_iff.1 e.symm).1]
      rw [hh, standFor_literal, List.length_append]
    rw [List.length_append] at this
    have hpos : run.length + (a.length + y.length) ≠ 0 := by
      intro h0
      apply hp
      have h1 : run = [] := List.length_eq_zero_iff.1 (by omega)
      have h2 : a = [] := List.length_eq_zero_iff.1 (by omega)
      have h3 : y = [] := List.length_eq_zero_iff.1 (by omega)
      rw [h1, h2, h3] at he
      exact (List.append_eq_nil_iff.1 (he.symm.trans rfl)).1
    omega

/-! ## Runs -/

theorem greedy_beginning {T : Type} {ok : List T → T → Prop} {xs : List T} {groups : List (List T)} (h : Greedy ok xs groups)
    {a y y' : List T} (hx : xs = a ++ y) {groups' : List (List T)} (h' : Greedy ok (a ++ y') groups')
    {pre post : List (List T)} (he : groups = pre ++ post) (hc : pre.flatten.length < a.length) : pre <+: groups' := by
  induction h generalizing a groups' pre with
  | nil =>
    rw [(List.append_eq_nil_iff.1 he.symm).1]
    exact List.nil_prefix
  | @group g rest groups h1 h2 h3 h4 _ ih =>
    cases pre with
    | nil => exact List.nil_prefix
    | cons g0 pre =>
      obtain ⟨rfl, rfl⟩ := List.cons.inj he
      rw [List.flatten_cons, List.length_append] at hc
      obtain ⟨b, rfl⟩ : g <+: a :=
        List.prefix_of_prefix_length_le ⟨rest, hx⟩ (List.prefix_append a y) (by omega)
      rw [List.length_append] at hc
      rw [List.append_assoc] at hx
      have hrest := List.append_cancel_left hx
      generalize hz : g ++ b ++ y' = z at h'
      cases h' with
      | nil =>
        rw [List.append_assoc] at hz
        exact absurd (List.append_eq_nil_iff.1 hz).1 h1
      | @group g' rest' groups' k1 k2 k3 k4 k5 =>
        rw [List.append_assoc] at hz
        obtain ⟨v, b', rfl⟩ : ∃ v b', b = v :: b' := by
          cases b with
          | nil => simp at hc
          | cons v b' => exact ⟨v, b', rfl⟩
        have key : ∀ {g g' rest rest' : List T}, g ++ rest = g' ++ rest' → g ≠ [] → g'.length ≤ 255 →
            (∀ p x q, g' = p ++ x :: q → p ≠ [] → ok p x) →
            (g.length = 255 ∨ ∀ x, rest.head? = some x → ¬ ok g x) → ¬ g.length < g'.length := by
          intro g g' rest rest' he hg hl hok hstop hlt
          obtain ⟨t, ht⟩ : g <+: g' := by
            rcases List.prefix_or_prefix_of_prefix (List.prefix_append g rest)
              (he ▸ List.prefix_append g' rest') with h | h
            · exact h
            · have := h.length_le; omega
          cases t with
          | nil => simp at ht; subst ht; omega
          | cons y t =>
            have := hok g y t ht.symm hg
            rcases hstop with h255 | hstop
            · omega
            · apply hstop y _ this
              rw [← ht, List.append_assoc] at he
              rw [List.append_cancel_left he]; rfl
        have hlen : g.length = g'.length := by
          have a1 := key hz h1 k2 k3 (by rw [hrest] at h4; exact h4)
          have a2 := key hz.symm k1 h2 h3 k4
          omega
        obtain ⟨rfl, rfl⟩ := List.append_inj hz hlen
        rw [List.prefix_cons_inj]
        exact ih (a := v :: b') hrest k5 rfl (by omega)

/-- The runs of the exact mode. -/
theorem hilbertEncode_groups {scan : Scan} {img : Img} (fl : FloatOps)
    (hs : VisitsOnce scan img.width.toNat img.height.toNat) {d : F64} (hd : d.isZero = true) :
    ∃ groups, Greedy sameAsFirst (colorsAlong scan img) groups ∧
      Emits Emits.errOnly (hilbertEncode scan fl (.rle d) img)
        (bytes (img.width, img.height) ++ (groups.map (runOf fun g => g.headD black)).flatMap runBytes) () := by
  obtain ⟨ps, h1, h2⟩ := linearize_eq hs
  obtain ⟨groups, hg, hy⟩ := rle_groups (exact_represents black) (colorsAlong scan img) none
  refine ⟨groups, hg, ?_⟩
  unfold hilbertEncode
  apply Emits.bind (emits_dims img)
  rw [h1]
  simp only [orPanic, pure_bind, hd, if_true, h2]
  exact forIter_yields hy (by
    rw [List.length_map]
    exact Nat.lt_succ_of_le hg.length_le) fun r _ => emits_run r

theorem along_toRgb (scan : Scan) (img : Img) : along scan img.toRgb = colorsAlong scan img := by
  unfold along colorsAlong
  apply List.map_congr_left
  intro c _
  simp [Img.toRgb, Img.rgbPixels, colorAt]

end Cniic
