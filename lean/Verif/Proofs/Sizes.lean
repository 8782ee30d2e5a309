import Verif.Spec.Sizes
import Verif.Spec.Image
import Verif.Spec.ZipBack
import Verif.Spec.ZipDict
import Verif.Proofs.Huf
import Verif.Proofs.Hilbertc

namespace Cniic
open Spec SerSpec

/-! ## Codes -/

theorem FewestBits.unique {T : Type} {items : List T} {B B' : Nat} (h : FewestBits items B) (h' : FewestBits items B') :
    B = B' := by
  obtain ⟨⟨c, hc, e⟩, hm⟩ := h
  obtain ⟨⟨c', hc', e'⟩, hm'⟩ := h'
  have := hm c' hc'
  have := hm' c hc
  omega

variable {T : Type} [DecidableEq T]

theorem encodeAll_size [Ser T] [SerSpec T] [LawfulSer T] (M : MinHeap T) {ho : List (T × Nat) → List (T × Nat)}
    (hho : IsOrder ho) {items : List T} (hne : items ≠ []) (hv : ∀ x ∈ items, SerSpec.valid x) {S : List T}
    (hS : Distinct S items) :
    ∃ out B, Emits Emits.anyWay (encodeAll M ho items) out () ∧ FewestBits items B ∧
      (∀ L, S.length ≤ 2 ^ L → B ≤ items.length * L) ∧
      out.length = (2 * S.length - 1) + (S.map fun x => (bytes x).length).sum + (B + 7) / 8 := by
  obtain ⟨enc, dec, payload, k, hb, hnd, hmem, hpc, htv, he, hk, hbits, hget, -, hopt⟩ :=
    encodeAll_spec M ho hho items hne hv
  have hnk := countFreqs_nodup items
  have hperm : S.Perm (symbols dec) :=
    (List.perm_ext_iff_of_nodup hS.1 hnd).2 fun x => by rw [hS.2, hmem]
  refine ⟨_, payloadBits (codeOf dec) items, he, ⟨⟨codeOf dec, ?_, rfl⟩, ?_⟩, ?_, ?_⟩
  · intro x hx y hy h
    exact codeOf_prefixFree dec x ((hmem x).2 hx) y ((hmem y).2 hy) h
  · intro code hpf
    apply hopt (fun x => (code x).length)
    have := Kraft.of_prefixFree hnk (code := code) (by
      intro x hx y hy h
      exact hpf x ((mem_countFreqs _ _).1 hx) y ((mem_countFreqs _ _).1 hy) h)
    rwa [List.map_map] at this
  · intro L hL
    have h1 := hopt (fun _ => L) (by
      apply Kraft.of_one (L := L)
      · intro l hl
        obtain ⟨_, _, rfl⟩ := List.mem_map.1 hl
        exact Nat.le_refl _
      · have : (countFreqs items).length = S.length := by
          have := hpc.length_eq
          rw [List.length_map] at this
          rw [← this, hperm.length_eq]
        unfold kraft
        rw [List.map_map]
        show (List.map (fun _ => 2 ^ (L - L)) (countFreqs items)).sum ≤ 2 ^ L
        rw [List.map_const', List.sum_replicate_nat]
        simp only [Nat.sub_self, Nat.pow_zero, Nat.mul_one]
        omega)
    rwa [List.map_const', List.sum_replicate_nat] at h1
  · have htree : ∀ t : BinTrie T, (treeBytes t).length + 1 =
        2 * (symbols t).length + ((symbols t).map fun x => (bytes x).length).sum := by
      intro t
      induction t with
      | leaf v => simp [treeBytes, symbols, leaves]; omega
      | branch l r ihl ihr =>
        simp only [treeBytes, symbols_branch, List.length_cons, List.length_append, List.map_append,
          List.sum_append]
        omega
    have hl : ∀ p : List UInt8, (bitsOf p).length = 8 * p.length := by
      intro p
      induction p with
      | nil => rfl
      | cons b bs ih => simp only [bitsOf, List.flatMap_cons, List.length_append, bitsMsb_length,
          List.length_cons] at *; omega
    have hpl := hl payload
    rw [hbits, List.length_append, List.length_replicate, List.length_flatMap] at hpl
    have h1 := htree dec
    rw [sum_perm (hperm.map _), hperm.length_eq]
    have hpos : 0 < (symbols dec).length := by
      have := leaves_ne_nil dec
      simp only [symbols, List.length_map]
      exact List.length_pos_iff.2 this
    rw [List.length_append]
    unfold payloadBits
    omega

/-! ## Runs -/

omit [DecidableEq T] in
/-- Maximal runs spelling a part of what other runs spell are not more. -/
theorem maximal_fewest (rs : List (UInt8 × T)) : ∀ (k : Nat) (ts : List (UInt8 × T)),
    (∀ t ∈ ts, 1 ≤ t.1.toNat) → Maximal ts → expandRuns ts = (expandRuns rs).drop k → ts.length ≤ rs.length := by
  induction rs with
  | nil =>
    intro k ts h1 hm he
    cases ts with
    | nil => simp
    | cons t ts =>
      exfalso
      have h := congrArg List.length he
      have := h1 t (by simp)
      simp [expandRuns] at h
      omega
  | cons r rs ih =>
    intro k ts h1 hm he
    cases ts with
    | nil => simp
    | cons t ts =>
      by_cases hk : r.1.toNat ≤ k
      · have := ih (k - r.1.toNat) (t :: ts) h1 hm (by
          rw [he]
          simp only [expandRuns, List.flatMap_cons]
          rw [List.drop_append, List.drop_eq_nil_of_le (by simpa using hk), List.length_replicate, List.nil_append])
        simp only [List.length_cons] at *
        omega
      · -- the rest starts with `r.1 - k` copies of `r.2`
        have hlt := r.1.toNat_lt
        have he' : expandRuns (t :: ts) = List.replicate (r.1.toNat - k) r.2 ++ expandRuns rs := by
          rw [he]
          simp only [expandRuns, List.flatMap_cons]
          rw [List.drop_append_of_le_length (by simp; omega), List.drop_replicate]
        have hex : expandRuns (t :: ts) = List.replicate t.1.toNat t.2 ++ expandRuns ts := by
          simp [expandRuns]
        rw [hex] at he'
        have ht1 := h1 t (by simp)
        have hv : t.2 = r.2 := by
          have := congrArg (fun l : List T => l[0]?) he'
          rw [List.getElem?_append_left (by simp; omega), List.getElem?_append_left (by simp; omega),
            List.getElem?_replicate_of_lt (by omega), List.getElem?_replicate_of_lt (by omega)] at this
          exact Option.some.inj this
        have hd : r.1.toNat - k ≤ t.1.toNat := by
          apply Classical.byContradiction
          intro hlt'
          have hat := congrArg (fun l : List T => l[t.1.toNat]?) he'
          rw [List.getElem?_append_right (by simp), List.length_replicate, Nat.sub_self,
            List.getElem?_append_left (by simp; omega), List.getElem?_replicate_of_lt (by omega)] at hat
          cases ts with
          | nil => simp [expandRuns] at hat
          | cons u us =>
            have hu := h1 u (by simp)
            simp only [expandRuns, List.flatMap_cons] at hat
            rw [List.getElem?_append_left (by simp; omega), List.getElem?_replicate_of_lt (by omega)] at hat
            have huv := Option.some.inj hat
            rcases hm.1 with h | h
            · exact h (hv.trans huv.symm)
            · rw [h] at hlt'
              simp at hlt'
              omega
        have := ih (t.1.toNat - (r.1.toNat - k)) ts (fun x hx => h1 x (by simp [hx]))
          (by cases ts with | nil => trivial | cons u us => exact hm.2) (by
            have := congrArg (List.drop t.1.toNat) he'
            rw [List.drop_append_of_le_length (by simp), List.drop_eq_nil_of_le (by simp), List.nil_append,
              List.drop_append, List.drop_eq_nil_of_le (by simp; omega), List.length_replicate, List.nil_append] at this
            exact this)
        simp only [List.length_cons]
        omega

/-! ## The formats with only one way to write -/

theorem LongestCopy.unique {N : Nat} {hist rest : List UInt8} {l b l' b' : Nat} (h : LongestCopy N hist rest l b)
    (h' : LongestCopy N hist rest l' b') : l = l' ∧ b = b' := by
  have h1 := h.longest _ _ h'.occurs
  have h2 := h'.longest _ _ h.occurs
  have e : l = l' := by omega
  subst e
  have := h.farthest _ h'.occurs
  have := h'.farthest _ h.occurs
  exact ⟨rfl, by omega⟩

theorem Factor.unique {N : Nat} {hist run rest : List UInt8} {a b : List Back.Symbol} (ha : Factor N hist run rest a)
    (hb : Factor N hist run rest b) : a = b := by
  induction ha generalizing b with
  | copy hc _ ih =>
    cases hb with
    | copy hc' h' =>
      obtain ⟨rfl, rfl⟩ := LongestCopy.unique hc hc'
      rw [ih h']
    | extend hn _ _ => exact absurd (hn _ _ hc.occurs) (by have := hc.useful; omega)
    | last hn _ => exact absurd (hn _ _ hc.occurs) (by have := hc.useful; omega)
  | extend hn hl _ ih =>
    cases hb with
    | copy hc' h' => exact absurd (hn _ _ hc'.occurs) (by have := hc'.useful; omega)
    | extend _ _ h' => exact ih h'
    | last _ h' => omega
  | last hn hl =>
    cases hb with
    | copy hc' h' => exact absurd (hn _ _ hc'.occurs) (by have := hc'.useful; omega)
    | extend _ h' _ => omega
    | last _ h' => rfl

theorem hilbertEncode_zip_eq {scan : Scan} {img : Img} (fl : FloatOps)
    (hs : VisitsOnce scan img.width.toNat img.height.toNat) :
    hilbertEncode scan fl .zip img = (do
      ser (img.width, img.height)
      zipDictEncode ((colorsAlong scan img).flatMap bytes)) := by
  obtain ⟨ps, h1, h2⟩ := linearize_eq hs
  unfold hilbertEncode
  rw [h1]
  simp only [orPanic, pure_bind, h2]
  rw [drain_rgbs]
  simp only [pure_bind]
  rfl

end Cniic
