import Verif.Lemmas.PiDensity
import Mathlib.Probability.Independence.Basic

/-! Laws with a product density belong to independent variables. -/

namespace Verif
open MeasureTheory ProbabilityTheory Set

theorem ne_of_prod_one {ι : Type*} [Fintype ι] {c : ι → ENNReal} (h : ∏ i, c i = 1) : ∀ i, c i ≠ 0 ∧ c i ≠ ⊤ := by
  classical
  have h0 : ∀ i, c i ≠ 0 := fun i hi => by
    rw [Finset.prod_eq_zero (Finset.mem_univ i) hi] at h
    exact zero_ne_one h
  refine fun i => ⟨h0 i, fun hi => ?_⟩
  rw [← Finset.mul_prod_erase _ _ (Finset.mem_univ i), hi, ENNReal.top_mul (Finset.prod_ne_zero_iff.2 fun j _ => h0 j)] at h
  exact ENNReal.top_ne_one h

/-- A law with a density that is a product belongs to independent variables. -/
theorem iIndepFun_of_prod_density {Ω : Type*} [MeasurableSpace Ω] {P : Measure Ω} [IsProbabilityMeasure P] {n : ℕ} {X : Fin n → Ω → ℝ} (hX : ∀ i, Measurable (X i))
    (ν : Fin n → Measure ℝ) [∀ i, SigmaFinite (ν i)] {f : Fin n → ℝ → ENNReal} (hf : ∀ i, Measurable (f i)) (h : P.map (fun ω i => X i ω) = (Measure.pi ν).withDensity fun z => ∏ i, f i (z i)) : iIndepFun X P := by
  have htot : ∏ i, ∫⁻ x, f i x ∂(ν i) = 1 := by
    rw [← lintegral_fin_prod ν hf]
    have h1 : P.map (fun ω i => X i ω) univ = 1 := by
      have := Measure.isProbabilityMeasure_map (μ := P) (measurable_pi_lambda (fun ω i => X i ω) hX).aemeasurable
      exact measure_univ
    rw [h, withDensity_apply _ MeasurableSet.univ, Measure.restrict_univ] at h1
    exact h1
  have hc := ne_of_prod_one htot
  set k : Fin n → ℝ → ENNReal := fun i x => (∫⁻ x, f i x ∂(ν i))⁻¹ * f i x with hk
  have hkm : ∀ i, Measurable (k i) := fun i => (hf i).const_mul _
  have hkp : ∀ i, IsProbabilityMeasure ((ν i).withDensity (k i)) := fun i => ⟨by
    rw [withDensity_apply _ MeasurableSet.univ, Measure.restrict_univ, lintegral_const_mul _ (hf i), ENNReal.inv_mul_cancel (hc i).1 (hc i).2]⟩
  have hprod : (fun z : Fin n → ℝ => ∏ i, f i (z i)) = fun z => ∏ i, k i (z i) := by
    funext z
    simp only [hk, Finset.prod_mul_distrib]
    have : ∏ i, (∫⁻ x, f i x ∂(ν i))⁻¹ = 1 := by
      have h2 : (∏ i, ∫⁻ x, f i x ∂(ν i)) * ∏ i, (∫⁻ x, f i x ∂(ν i))⁻¹ = 1 := by
        rw [← Finset.prod_mul_distrib]
        exact Finset.prod_eq_one fun i _ => ENNReal.mul_inv_cancel (hc i).1 (hc i).2
      rwa [htot, one_mul] at h2
    rw [this, one_mul]
  rw [hprod, ← pi_withDensity_of ν hkm] at h
  rw [iIndepFun_iff_map_fun_eq_pi_map fun i => (hX i).aemeasurable, h]
  congr 1
  funext i
  have hev := (measurePreserving_eval (fun i => (ν i).withDensity (k i)) i).map_eq
  rw [← h, Measure.map_map (measurable_pi_apply i) (measurable_pi_lambda _ hX)] at hev
  exact hev.symm

end Verif
