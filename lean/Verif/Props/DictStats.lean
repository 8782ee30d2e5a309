import Verif.Proofs.DictRun
import Verif.Proofs.Sizes

/-! # Properties of the statistics that the dictionary coder prints (C86) -/

namespace Cniic
open Spec SerSpec

attribute [local irreducible] DictEncoder.new

/-- **C86.** After any history of insertions, with `nodes` sequences that need a node and `keys` different keys: in a debug
build counting panics exactly if there are 2^31 or more nodes; otherwise the counters are the number of nodes as an `i32`, one
child less than nodes, and the number of different keys. -/
theorem C86_counts {T : Type} (hist : List (List UInt8 × T)) (hk : ∀ e ∈ hist, e.1 ≠ []) :
    ∃ n nodes keys, insertHistory hist = some n ∧ Counts (Inner (hist.map Prod.fst)) nodes ∧
      Counts (fun k => k ∈ hist.map Prod.fst) keys ∧
      ∀ chk, (trieStats chk n = none ↔ chk = true ∧ 2 ^ 31 ≤ nodes) ∧
        ∀ st, trieStats chk n = some st → st.nodeCount = Int32.ofNat nodes ∧ st.usedChildren + 1 = nodes ∧
          st.usedValues = keys ∧ st.usedChildren ≤ st.totChildren ∧ st.usedValues ≤ st.totValues := by
  obtain ⟨n, h1, h2, h3, h4⟩ := insertHistory_spec hk
  have hlen : (dfs [n]).length = n.count := by rw [dfs_length]; simp
  refine ⟨n, n.count, _, h1, Counts.congr (h3.inner h4) (Node.count_paths h2),
    Counts.congr (Q := fun k => k ∈ hist.map Prod.fst) h4 (Node.count_values h2), fun chk => ?_⟩
  rw [trieStats_eq]
  constructor
  · split <;> simp_all
  · intro st hst
    split at hst
    · cases hst
    · cases hst
      have hwf : ∀ m ∈ dfs [n], m.WF := by
        obtain ⟨l, hl1, -, hl3⟩ := Node.paths h2
        intro m hm
        obtain ⟨x, hx, rfl⟩ := List.mem_map.1 (hl1.mem_iff.2 hm)
        exact Node.wf_reach h2 ((hl3 _ _).1 hx)
      have hslots : ∀ {S : Type} (c : Content S), c.entries.length ≤ c.slots := by
        intro S c
        cases c with
        | part ks vs => exact Nat.le_refl _
        | full d =>
          refine Nat.le_trans (List.length_filterMap_le _ _) ?_
          simp [allBytes, Content.slots]
      have hsum : ∀ (f g : Node T → Nat) (l : List (Node T)), (∀ m ∈ l, f m ≤ g m) → (l.map f).sum ≤ (l.map g).sum := by
        intro f g l h
        induction l with
        | nil => simp
        | cons a l ih =>
          have := h a (by simp)
          have := ih fun m hm => h m (by simp [hm])
          simp only [List.map_cons, List.sum_cons]
          omega
      refine ⟨?_, ?_, ?_, ?_, ?_⟩
      · simp only [statsOf, hlen, Nat.zero_add]
      · have := dfs_children [n]
        simp only [statsOf]
        rw [List.length_singleton] at this
        omega
      · simp only [statsOf, Nat.zero_add]
      · simp only [statsOf, Nat.zero_add]
        exact hsum _ _ _ fun m _ => hslots _
      · simp only [statsOf, Nat.zero_add]
        exact hsum _ _ _ fun m _ => hslots _

/-- Five insertions of four keys; the nodes are `[]`, `[1]`, `[1, 2]`, `[7]`. -/
theorem c86_example : (insertHistory [([1, 2, 3], 'a'), ([1, 2], 'b'), ([1, 2, 3], 'c'), ([7, 7], 'd'), ([9], 'e')]).bind
    (trieStats true) = some ⟨4, 3, 3, 4, 4⟩ := by decide +kernel

example : ∀ e ∈ [([1, 2, 3], 'a'), ([1, 2], 'b'), ([1, 2, 3], 'c'), ([7, 7], 'd'), ([9], 'e')], e.1 ≠ ([] : List UInt8) := by
  simp

/-- A node with more than 64 children has room for 256. -/
example : ((insertHistory ((List.range 65).map fun b => ([UInt8.ofNat b, 1], b))).bind (trieStats true)) =
    some ⟨66, 65, 256, 65, 65⟩ := by decide +kernel

/-- **C86.** The statistics come after the whole output: on every device the encoder does what it does without them, except
that in a debug build, when the dictionary at the end needs 2^31 or more nodes, success becomes a panic. -/
theorem C86_encode (chk : Bool) (input : List UInt8) :
    ∃ k nodes, After oneByteSeqs input k ∧ Counts (Inner k) nodes ∧
      (¬ (chk = true ∧ 2 ^ 31 ≤ nodes) → zipDictEncodeStats chk input = zipDictEncode input) ∧
      (chk = true ∧ 2 ^ 31 ≤ nodes → ∀ s, zipDictEncodeStats chk input s =
        match zipDictEncode input s with
        | (.ok _, s') => (.panic, s')
        | r => r) := zipDictEncodeStats_spec chk input

/-- The dictionary after `1 2 1 2 1 2`: `1 2` and `1 2 1 2` are learned. -/
example : ∃ k, After oneByteSeqs [1, 2, 1, 2, 1, 2] k ∧ k.drop 256 = [[1, 2], [1, 2, 1, 2]] :=
  ⟨learn (learn oneByteSeqs ([1] ++ [2])) ([1, 2] ++ [1, 2]),
    .two (x1 := [1]) (i' := [2, 1, 2, 1, 2]) (s1 := 1) (s2 := 2) (x2 := [2]) (i'' := [1, 2, 1, 2])
      ⟨rfl, by simp, by decide +kernel, by decide +kernel⟩
      ⟨rfl, by simp, by decide +kernel, by decide +kernel⟩
      (.two (x1 := [1, 2]) (i' := [1, 2]) (s1 := 256) (s2 := 256) (x2 := [1, 2]) (i'' := [])
        ⟨rfl, by simp, by decide +kernel, by decide +kernel⟩
        ⟨rfl, by simp, by decide +kernel, by decide +kernel⟩
        .nil), by decide +kernel⟩

/-- **C86.** In a release build, and in a debug build for less than 2^31 bytes of input, the statistics have no effect. -/
theorem C86_no_effect (chk : Bool) (input : List UInt8) (h : chk = false ∨ input.length < 2 ^ 31) :
    zipDictEncodeStats chk input = zipDictEncode input := by
  obtain ⟨k, nodes, ha, hc, h1, -⟩ := zipDictEncodeStats_spec chk input
  apply h1
  rintro ⟨rfl, hn⟩
  rcases h with h | h
  · cases h
  · have h2 := inner_le hc
    have h3 := ha.extras
    rw [extras_ones] at h3
    omega

example : [1, 2, 3].length < 2 ^ 31 := by decide

/-- **C86.** A byte repeated at least 2^32 - 2 times makes the debug build panic, with the output complete. -/
theorem C86_panics (b : UInt8) (n : Nat) (h : 2 ^ 32 ≤ n + 2) (s : Sink) :
    zipDictEncodeStats true (List.replicate n b) s =
      match zipDictEncode (List.replicate n b) s with
      | (.ok _, s') => (.panic, s')
      | r => r := by
  obtain ⟨k, nodes, ha, hc, -, h2⟩ := zipDictEncodeStats_spec true (List.replicate n b)
  refine h2 ⟨rfl, ?_⟩ s
  have hlen : oneByteSeqs.length = 256 := by simp [oneByteSeqs]
  refine nodes_of_key hc (ha.doubles 31 (j := 0) (Nat.zero_le _) ?_ ?_ ?_ (ones_max b))
  · simpa using h
  · omega
  · exact hasOnes_refl.mem b

/-- On a device without faults. -/
theorem C86_panics_written (b : UInt8) (n : Nat) (h : 2 ^ 32 ≤ n + 2) :
    ∃ bytes calls, bytesOf (zipDictEncode (List.replicate n b)) = .ok bytes ∧
      zipDictEncodeStats true (List.replicate n b) (Sink.mem []) = (.panic, { Sink.mem bytes with calls := calls }) := by
  obtain ⟨syms, -, he⟩ := zipDictEncode_spec (List.replicate n b)
  obtain ⟨calls, hc⟩ := he.run_mem []
  refine ⟨symBytes syms, calls, he.bytesOf, ?_⟩
  rw [C86_panics b n h, hc]
  rfl

example : 2 ^ 32 ≤ 2 ^ 32 - 2 + 2 := by decide

/-! ## The codecs -/

theorem zipEncodeStats_eq (chk : Bool) (img : Img) : zipEncodeStats chk img = zipDictEncodeStats chk (zipData img) := by
  simp [zipEncodeStats, zipInput_eq]

theorem hilbertZipEncodeStats_eq {scan : Scan} {img : Img} (chk : Bool)
    (hs : VisitsOnce scan img.width.toNat img.height.toNat) :
    hilbertZipEncodeStats chk scan img = (do
      ser (img.width, img.height)
      zipDictEncodeStats chk ((colorsAlong scan img).flatMap bytes)) := by
  obtain ⟨ps, h1, h2⟩ := linearize_eq hs
  unfold hilbertZipEncodeStats
  rw [h1]
  simp only [orPanic, pure_bind, h2]
  rw [drain_rgbs]
  simp only [pure_bind]
  rfl

/-- **C86.** In a release build, and for pictures with at most 195 225 785 pixels, `zip(dict)` and `hilbert(zip)` do the same
with the statistics as without; what is proved of the codecs without them holds. -/
theorem C86_codecs (chk : Bool) (cap : Back.Caps) (scan : Scan) (fl : FloatOps) (img : Img)
    (hs : VisitsOnce scan img.width.toNat img.height.toNat)
    (h : chk = false ∨ img.width.toNat * img.height.toNat ≤ 195225785) :
    zipEncodeStats chk img = zipEncode cap .dict img ∧
      hilbertZipEncodeStats chk scan img = hilbertEncode scan fl .zip img := by
  rw [zipEncodeStats_eq, zipEncode_dict, hilbertZipEncodeStats_eq chk hs, hilbertEncode_zip_eq fl hs]
  constructor
  · refine C86_no_effect chk _ (h.imp id fun h => ?_)
    rw [zipData, List.length_append, rgbs_bytes_length, dims_length, Img.rgbPixels, List.length_map, img.size]
    omega
  · rw [C86_no_effect chk _ (h.imp id fun h => ?_)]
    rw [rgbs_bytes_length, colorsAlong, List.length_map, hs.length_eq, cells_length]
    omega

end Cniic
