import Verif.Props.Sizes

/-! # Proofs: file sizes under permuting and renaming -/

namespace Cniic
open Spec SerSpec

/-- Different members of `items` have different values. -/
def InjOn {T U : Type} (f : T → U) (items : List T) : Prop := ∀ x ∈ items, ∀ y ∈ items, f x = f y → x = y

theorem fewestBits_perm {T : Type} {xs ys : List T} {B : Nat} (h : FewestBits xs B) (hp : xs.Perm ys) : FewestBits ys B := by
  have hb : ∀ code, payloadBits code ys = payloadBits code xs := fun code => (hp.symm.map _).sum_nat
  have hf : ∀ code : T → List Bool, PrefixFree xs code ↔ PrefixFree ys code := fun code => by
    simp only [PrefixFree, hp.mem_iff]
  obtain ⟨⟨code, h1, h2⟩, h3⟩ := h
  exact ⟨⟨code, (hf code).1 h1, by rw [hb]; exact h2⟩, fun code hc => by rw [hb]; exact h3 code ((hf code).2 hc)⟩

theorem fewestBits_map {T U : Type} {xs : List T} {B : Nat} {f : T → U} (hf : InjOn f xs) (h : FewestBits xs B) :
    FewestBits (xs.map f) B := by
  obtain ⟨⟨code, h1, h2⟩, h3⟩ := h
  constructor
  · classical
    let code' : U → List Bool := fun u => if hu : ∃ x ∈ xs, f x = u then code hu.choose else []
    have hc : ∀ x ∈ xs, code' (f x) = code x := by
      intro x hx
      have hu : ∃ y ∈ xs, f y = f x := ⟨x, hx, rfl⟩
      show (if hu : ∃ y ∈ xs, f y = f x then code hu.choose else []) = code x
      rw [dif_pos hu, hf _ hu.choose_spec.1 x hx hu.choose_spec.2]
    refine ⟨code', ?_, ?_⟩
    · intro u hu v hv huv
      obtain ⟨x, hx, rfl⟩ := List.mem_map.1 hu
      obtain ⟨y, hy, rfl⟩ := List.mem_map.1 hv
      rw [hc x hx, hc y hy] at huv
      rw [h1 x hx y hy huv]
    · rw [← h2, payloadBits, payloadBits, List.map_map]
      congr 1
      exact List.map_congr_left fun x hx => by simp [hc x hx]
  · intro code' hc
    have := h3 (code' ∘ f) (by
      intro x hx y hy hxy
      exact hf x hx y hy (hc _ (List.mem_map_of_mem hx) _ (List.mem_map_of_mem hy) hxy))
    simpa [payloadBits, List.map_map, Function.comp_def] using this

theorem distinct_perm {T : Type} {S xs ys : List T} (h : Distinct S xs) (hp : xs.Perm ys) : Distinct S ys :=
  ⟨h.1, fun x => (h.2 x).trans hp.mem_iff⟩

theorem distinct_map {T U : Type} {S xs : List T} {f : T → U} (hf : InjOn f xs) (h : Distinct S xs) :
    Distinct (S.map f) (xs.map f) := by
  refine ⟨?_, fun u => ?_⟩
  · rw [List.nodup_map_iff_inj_on h.1]
    exact fun x hx y hy => hf x ((h.2 x).1 hx) y ((h.2 y).1 hy)
  · simp only [List.mem_map, h.2]

theorem expandRuns_map {T U : Type} (f : T → U) (runs : List (UInt8 × T)) :
    expandRuns (runs.map fun r => (r.1, f r.2)) = (expandRuns runs).map f := by
  induction runs with
  | nil => rfl
  | cons r runs ih => simp_all [expandRuns]

theorem colorsAlong_map {scan : Scan} {img img' : Img} {f : Rgb UInt8 → Rgb UInt8} (hw : img'.width = img.width)
    (hh : img'.height = img.height) (hs : VisitsOnce scan img.width.toNat img.height.toNat)
    (hf : img'.rgbPixels = img.rgbPixels.map f) : colorsAlong scan img' = (colorsAlong scan img).map f := by
  unfold colorsAlong
  rw [hw, hh, List.map_map]
  refine List.map_congr_left fun c hc => ?_
  have hin := mem_cells'.1 (hs.mem_iff.1 hc)
  have hlt : c.2 * img.width.toNat + c.1 < img.rgbPixels.length := by
    rw [Img.rgbPixels, List.length_map, img.size]
    calc c.2 * img.width.toNat + c.1 < c.2 * img.width.toNat + img.width.toNat := by omega
      _ = (c.2 + 1) * img.width.toNat := by rw [Nat.add_mul, Nat.one_mul]
      _ ≤ img.height.toNat * img.width.toNat := Nat.mul_le_mul_right _ (by omega)
      _ = _ := Nat.mul_comm _ _
  simp only [colorAt, hw, hf, List.getElem?_map, Function.comp_apply]
  rw [List.getElem?_eq_getElem hlt]
  rfl

theorem diffs_map {f : Rgb UInt8 → Rgb UInt8} {g : SignedColor → SignedColor}
    (h : ∀ a b, diffOf (f a) (f b) = g (diffOf a b)) (last : Rgb UInt8) (cs : List (Rgb UInt8)) :
    diffs (f last) (cs.map f) = (diffs last cs).map g := by
  induction cs generalizing last with
  | nil => rfl
  | cons c cs ih => simp only [List.map_cons, diffs, h, ih]

end Cniic
