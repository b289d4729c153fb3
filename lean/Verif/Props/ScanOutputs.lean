import Verif.Model.ScanOutputs
import Mathlib.Data.List.Basic
import Mathlib.Data.List.GetD

/-! # C87: scans with outputs that are not random -/

namespace Verif.ScanOut
variable {V T : Type}

theorem randomOutputs_all {node : Node V T} (h : ∀ b ∈ node.measurable, b = true) : node.randomOutputs = List.range node.measurable.length ∧ node.otherOutputs = [] := by
  constructor
  · refine List.filter_eq_self.2 fun k hk => ?_
    have hk' : k < node.measurable.length := by simpa using hk
    rw [List.getD_eq_getElem _ _ hk']
    exact h _ (List.getElem_mem hk')
  · refine List.filter_eq_nil_iff.2 fun k hk => ?_
    have hk' : k < node.measurable.length := by simpa using hk
    rw [List.getD_eq_getElem _ _ hk', h _ (List.getElem_mem hk')]
    simp

/-- **C87** (all outputs random) A scan all of whose outputs are random, with a value for every output: every output gets its log-probability, computed with every output at
its own value.  Missing: scans with other outputs, for which it is false (`C87_other_output_raises`, `C87_other_output_wrong`). -/
theorem C87_all_random_partial {node : Node V T} (h : ∀ b ∈ node.measurable, b = true) (hne : node.measurable ≠ []) {values : List V} (hl : values.length = node.measurable.length) :
    ∃ terms, node.terms values = .ok terms ∧ terms.map Prod.fst = List.range values.length ∧
      ∃ vmap : List (ℕ × V), (∀ k v, (k, v) ∈ vmap ↔ values[k]? = some v) ∧ ∀ k t, (k, t) ∈ terms → t = node.logp k vmap := by
  obtain ⟨h1, h2⟩ := randomOutputs_all h
  have hne' : List.range node.measurable.length ≠ [] := by
    intro h3
    rw [List.range_eq_nil, List.length_eq_zero_iff] at h3
    exact hne h3
  have hmap : (List.zip (List.range node.measurable.length) values).map Prod.fst = List.range node.measurable.length := List.map_fst_zip (by simp [hl])
  refine ⟨List.zip (List.range node.measurable.length) ((List.range node.measurable.length).map fun k => node.logp k (List.zip (List.range node.measurable.length) values)), ?_, ?_,
    List.zip (List.range node.measurable.length) values, ?_, ?_⟩
  · simp only [Node.terms, Node.measurableOutputs, Node.logprob, h1, h2, hne', if_false, List.map_nil, List.nil_append, hmap, List.length_range, hl, lt_irrefl, ne_eq, not_true_eq_false]
  · rw [List.map_fst_zip (by simp), hl]
  · intro k v
    rw [List.mem_iff_getElem?]
    constructor
    · rintro ⟨i, hi⟩
      rw [List.getElem?_zip_eq_some] at hi
      obtain ⟨h3, h4⟩ := hi
      have h5 : i < values.length := (List.getElem?_eq_some_iff.1 h4).1
      rw [List.getElem?_range (by omega)] at h3
      have h6 : i = k := by simpa using h3
      exact h6 ▸ h4
    · intro hv
      refine ⟨k, ?_⟩
      rw [List.getElem?_zip_eq_some]
      have : k < values.length := (List.getElem?_eq_some_iff.1 hv).1
      exact ⟨by rw [List.getElem?_range (by omega)], hv⟩
  · intro k t ht
    obtain ⟨i, hi⟩ := List.mem_iff_getElem?.1 ht
    rw [List.getElem?_zip_eq_some, List.getElem?_map] at hi
    obtain ⟨h3, h4⟩ := hi
    rw [h3] at h4
    simpa using h4.symm

/-- **C87** (refuted part) Without a value for some output, random or not, the log-probability of a scan raises an `AssertionError`: a scan with an output that is not random
has no log-probability unless a value is given for that output as well. -/
theorem C87_other_output_raises {node : Node V T} {values : List V} (h : values.length < node.measurable.length) : node.terms values = .error .assertion := by
  have hne : List.range node.measurable.length ≠ [] := by
    intro h3
    rw [List.range_eq_nil] at h3
    omega
  simp only [Node.terms, Node.measurableOutputs, hne, if_false, List.length_range]
  rw [if_neg (by omega), if_pos (by omega)]

/-- **C87** (refuted part) A scan with a random output 0 and an output 1 that is not random, with a value for each: the term of the random output is the series of the other
output, and the term of the other output is the log-probability of the random one.  In the opposite order, the random output is evaluated at the value of the other one. -/
theorem C87_other_output_wrong (series logp : ℕ → List (ℕ × V) → T) (v₀ v₁ : V) :
    Node.terms ⟨[true, false], series, logp⟩ [v₀, v₁] = .ok [(0, series 1 [(0, v₀)]), (1, logp 0 [(0, v₀)])] ∧
      Node.terms ⟨[false, true], series, logp⟩ [v₀, v₁] = .ok [(0, series 0 [(1, v₀)]), (1, logp 1 [(1, v₀)])] := by
  constructor <;> rfl

/-- Two random outputs. -/
example : ∃ terms, Node.terms (V := ℕ) (T := ℕ) ⟨[true, true], fun _ _ => 0, fun k m => k + m.length⟩ [5, 6] = .ok terms ∧ terms.map Prod.fst = List.range 2 ∧
    ∃ vmap : List (ℕ × ℕ), (∀ k v, (k, v) ∈ vmap ↔ [5, 6][k]? = some v) ∧ ∀ k t, (k, t) ∈ terms → t = k + vmap.length :=
  C87_all_random_partial (node := ⟨[true, true], fun _ _ => 0, fun k m => k + m.length⟩) (by simp) (by simp) (values := [5, 6]) rfl

/-- One random output, and one that is not. -/
example : Node.terms (V := ℕ) (T := ℕ) ⟨[true, false], fun _ _ => 0, fun k m => k + m.length⟩ [5] = .error .assertion :=
  C87_other_output_raises (node := ⟨[true, false], fun _ _ => 0, fun k m => k + m.length⟩) (by simp)

end Verif.ScanOut
