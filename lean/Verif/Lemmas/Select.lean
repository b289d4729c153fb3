import Mathlib.MeasureTheory.Constructions.Pi
import Mathlib.Probability.ProductMeasure
import Mathlib.MeasureTheory.Measure.Typeclasses.NoAtoms
import Mathlib.MeasureTheory.Constructions.BorelSpace.Real
import Mathlib.MeasureTheory.Measure.Prod
import Mathlib.Tactic.LinearCombination

/-! # Selecting some of independent variables, possibly repeatedly -/

namespace Verif
open MeasureTheory Set

variable {α : Type*} [MeasurableSpace α]

/-- If a law only takes the values zero and one, sets are independent of themselves. -/
theorem zero_one_inter {μ : Measure α} [IsProbabilityMeasure μ] (h01 : ∀ A, MeasurableSet A → μ A = 0 ∨ μ A = 1) {κ : Type*} (F : Finset κ) {A : κ → Set α} (hA : ∀ j, MeasurableSet (A j)) :
    μ (⋂ j ∈ F, A j) = ∏ j ∈ F, μ (A j) := by
  by_cases h : ∀ j ∈ F, μ (A j) = 1
  · rw [Finset.prod_eq_one h]
    have : ∀ j ∈ F, ∀ᵐ x ∂μ, x ∈ A j := fun j hj => (mem_ae_iff_prob_eq_one (hA j)).2 (h j hj)
    have h2 : ∀ᵐ x ∂μ, x ∈ ⋂ j ∈ F, A j := by
      have := (Finset.eventually_all F).2 this
      filter_upwards [this] with x hx
      simpa using hx
    exact (mem_ae_iff_prob_eq_one (Finset.measurableSet_biInter F fun j _ => hA j)).1 h2
  · push Not at h
    obtain ⟨j, hj, hne⟩ := h
    have h0 := (h01 _ (hA j)).resolve_right hne
    rw [Finset.prod_eq_zero hj h0]
    exact measure_mono_null (biInter_subset_of_mem hj) h0

/-- A law that makes a set independent of itself gives it probability zero or one. -/
theorem zero_one_of_sq {a : ENNReal} (ha : a ≤ 1) (h : a = a * a) : a = 0 ∨ a = 1 := by
  by_cases h0 : a = 0
  · exact .inl h0
  · have hfin : a ≠ ⊤ := ne_top_of_le_ne_top ENNReal.one_ne_top ha
    refine .inr ?_
    have h1 : a * 1 = a * a := by rw [mul_one]; exact h
    exact ((ENNReal.mul_right_inj h0 hfin).1 h1).symm

theorem pi_two {κ : Type*} [Fintype κ] [DecidableEq κ] {ν : κ → Measure α} [∀ j, IsProbabilityMeasure (ν j)] {j j' : κ} (hj : j ≠ j') (A B : Set α) :
    Measure.pi ν {z | z j ∈ A ∧ z j' ∈ B} = ν j A * ν j' B := by
  have e : {z : κ → α | z j ∈ A ∧ z j' ∈ B} = univ.pi fun i => if i = j then A else if i = j' then B else univ := by
    ext z
    simp only [mem_setOf_eq, mem_univ_pi]
    constructor
    · rintro ⟨h1, h2⟩ i
      split_ifs with e1 e2
      · exact e1 ▸ h1
      · exact e2 ▸ h2
      · trivial
    · intro h
      have h1 := h j
      have h2 := h j'
      rw [if_pos rfl] at h1
      rw [if_neg hj.symm, if_pos rfl] at h2
      exact ⟨h1, h2⟩
  rw [e, Measure.pi_pi, ← Finset.mul_prod_erase _ _ (Finset.mem_univ j), ← Finset.mul_prod_erase _ _ (Finset.mem_erase.2 ⟨hj.symm, Finset.mem_univ j'⟩), if_pos rfl, if_neg hj.symm, if_pos rfl,
    Finset.prod_eq_one, mul_one]
  intro i hi
  simp only [Finset.mem_erase] at hi
  rw [if_neg hi.2.1, if_neg hi.1, measure_univ]

/-- The variables `x (e j)` are independent, with the laws of the variables they are, exactly if no variable that is not constant occurs twice. -/
theorem pi_select_iff {ι κ : Type*} [Fintype ι] [Fintype κ] {μ : ι → Measure α} [∀ i, IsProbabilityMeasure (μ i)] {e : κ → ι} :
    (Measure.pi μ).map (fun x j => x (e j)) = (Measure.pi fun j => μ (e j)) ↔
      ∀ j j', j ≠ j' → e j = e j' → ∀ A, MeasurableSet A → μ (e j) A = 0 ∨ μ (e j) A = 1 := by
  classical
  have hmeas : Measurable fun (x : ι → α) (j : κ) => x (e j) := measurable_pi_lambda _ fun j => measurable_pi_apply _
  constructor
  · intro h j j' hj hej A hA
    have hset : MeasurableSet {z : κ → α | z j ∈ A ∧ z j' ∈ A} := (measurable_pi_apply j hA).inter (measurable_pi_apply j' hA)
    have h1 : ((Measure.pi μ).map fun x j => x (e j)) {z : κ → α | z j ∈ A ∧ z j' ∈ A} = (Measure.pi fun j => μ (e j)) {z | z j ∈ A ∧ z j' ∈ A} := by rw [h]
    rw [Measure.map_apply hmeas hset, pi_two hj] at h1
    have h2 : (fun (x : ι → α) (j : κ) => x (e j)) ⁻¹' {z | z j ∈ A ∧ z j' ∈ A} = Function.eval (e j) ⁻¹' A := by
      ext x
      simp [hej]
    rw [h2, ← Measure.map_apply (measurable_pi_apply _) hA, (measurePreserving_eval μ (e j)).map_eq, ← hej] at h1
    exact zero_one_of_sq prob_le_one h1
  · intro h
    refine (Measure.pi_eq fun A hA => ?_).symm
    rw [Measure.map_apply hmeas (MeasurableSet.univ_pi hA)]
    have h2 : (fun (x : ι → α) (j : κ) => x (e j)) ⁻¹' (univ.pi A) = univ.pi fun i => ⋂ j ∈ Finset.univ.filter (fun j => e j = i), A j := by
      ext x
      simp only [mem_preimage, mem_univ_pi, mem_iInter, Finset.mem_filter, Finset.mem_univ, true_and]
      exact ⟨fun hx i j hj => hj ▸ hx j, fun hx j => hx _ j rfl⟩
    rw [h2, Measure.pi_pi, ← Finset.prod_fiberwise Finset.univ e]
    refine Finset.prod_congr rfl fun i _ => ?_
    set F := Finset.univ.filter fun j => e j = i with hF
    have e1 : ∏ j ∈ F, μ (e j) (A j) = ∏ j ∈ F, μ i (A j) := Finset.prod_congr rfl fun j hj => by rw [(Finset.mem_filter.1 hj).2]
    rw [e1]
    by_cases hone : F.card ≤ 1
    · by_cases hem : F = ∅
      · rw [hem]; simp
      · obtain ⟨j, hj⟩ := Finset.card_eq_one.1 (le_antisymm hone (Finset.card_pos.2 (Finset.nonempty_iff_ne_empty.2 hem)))
        rw [hj]; simp
    · push Not at hone
      obtain ⟨j, hj, j', hj', hne⟩ := Finset.one_lt_card.1 hone
      have hji : e j = i := (Finset.mem_filter.1 hj).2
      exact zero_one_inter (fun B hB => hji ▸ h j j' hne (hji.trans (Finset.mem_filter.1 hj').2.symm) B hB) F hA

/-- A law without atoms on the real line does not only take the values zero and one. -/
theorem not_zero_one {μ : Measure ℝ} [IsProbabilityMeasure μ] [NullSingletonClass μ] : ¬ ∀ A, MeasurableSet A → μ A = 0 ∨ μ A = 1 := by
  intro h
  -- the diagonal
  have h1 : (Measure.pi fun _ : Fin 1 => μ).map (fun x (_ : Fin 2) => x 0) = Measure.pi fun _ : Fin 2 => μ := pi_select_iff.2 fun _ _ _ _ A hA => h A hA
  have h2 : (Measure.pi fun _ : Fin 1 => μ).map (fun x => (x 0, x 0)) = μ.prod μ := by
    have h3 := congrArg (fun ν => ν.map fun z : Fin 2 → ℝ => (z 0, z 1)) h1
    rw [Measure.map_map (by fun_prop) (by fun_prop)] at h3
    rw [show (fun x : Fin 1 → ℝ => (x 0, x 0)) = (fun z : Fin 2 → ℝ => (z 0, z 1)) ∘ fun x (_ : Fin 2) => x 0 from rfl, h3]
    exact (measurePreserving_finTwoArrow μ).map_eq
  have hd : MeasurableSet {q : ℝ × ℝ | q.1 = q.2} := measurableSet_eq_fun measurable_fst measurable_snd
  have h4 := congrArg (fun ν => ν {q : ℝ × ℝ | q.1 = q.2}) h2
  rw [Measure.map_apply (by fun_prop) hd, Measure.prod_apply hd] at h4
  have h5 : ∀ x : ℝ, Prod.mk x ⁻¹' {q : ℝ × ℝ | q.1 = q.2} = {x} := fun x => by ext y; simp [eq_comm]
  simp_rw [h5, measure_singleton] at h4
  simp at h4

/-- Nested products of laws. -/
theorem pi_curry {ι : Type} [Fintype ι] {κ : ι → Type} [∀ i, Fintype (κ i)] {ν : ∀ i, κ i → Measure α} [∀ i j, IsProbabilityMeasure (ν i j)] :
    (Measure.pi fun q : Σ i, κ i => ν q.1 q.2).map (MeasurableEquiv.piCurry fun _ _ => α) = Measure.pi fun i => Measure.pi (ν i) := by
  have h := Measure.infinitePi_map_piCurry (X := fun _ _ => α) ν
  rw [Measure.infinitePi_eq_pi] at h
  rw [h]
  simp_rw [Measure.infinitePi_eq_pi]

end Verif
