import Verif.Model.VecDists
import Verif.Lemmas.PiDensity
import Mathlib.Probability.Distributions.Gaussian.Multivariate
import Mathlib.LinearAlgebra.Matrix.Block
import Mathlib.LinearAlgebra.Matrix.PosDef
import Mathlib.MeasureTheory.Measure.Lebesgue.EqHaar

/-! Forward substitution, and the Gaussian law as an affine image. -/

namespace Verif
open MeasureTheory ProbabilityTheory Matrix WithLp
open scoped ENNReal

variable {n : ℕ}

theorem sum_below (i : Fin n) (f : Fin n → ℝ) (h : ∀ j, i < j → f j = 0) :
    ∑ j, f j = ∑ j : Fin i, f (Fin.castLE i.isLt.le j) + f i := by
  let g : ℕ → ℝ := fun k => if h : k < n then f ⟨k, h⟩ else 0
  have e1 : ∑ j, f j = ∑ k ∈ Finset.range n, g k := by
    rw [← Fin.sum_univ_eq_sum_range]
    exact Finset.sum_congr rfl fun j _ => by simp [g]
  have e2 : ∑ j : Fin i, f (Fin.castLE i.isLt.le j) = ∑ k ∈ Finset.range i, g k := by
    rw [← Fin.sum_univ_eq_sum_range]
    refine Finset.sum_congr rfl fun j _ => ?_
    have : (j : ℕ) < n := j.isLt.trans i.isLt
    simp [g, this, Fin.castLE]
  have e3 : f i = g i := by simp [g]
  rw [e1, e2, e3, ← Finset.sum_range_succ]
  refine (Finset.sum_subset ?_ fun k hk hk' => ?_).symm
  · intro k hk
    simp only [Finset.mem_range] at *
    omega
  · simp only [Finset.mem_range, not_lt] at hk hk'
    simp only [g, hk, dif_pos]
    exact h _ (by rw [Fin.lt_def]; exact hk')

/-- Forward substitution solves the lower-triangular system. -/
theorem solveLower_spec {L : Matrix (Fin n) (Fin n) ℝ} (hL : ∀ i j, i < j → L i j = 0) (hd : ∀ i, L i i ≠ 0) (r : Fin n → ℝ) :
    L *ᵥ solveLower L r = r := by
  funext i
  have hi : L i i * solveLower L r i = r i - ∑ j : Fin i, L i (Fin.castLE i.isLt.le j) * solveLower L r (Fin.castLE i.isLt.le j) := by
    conv_lhs => rw [solveLower]
    field_simp [hd i]
  simp only [mulVec, dotProduct]
  rw [sum_below i _ fun j hj => by rw [hL i j hj, zero_mul], hi]
  ring

/-- Gaussian law with covariance `L Lᵀ` as an affine image of the standard one. -/
theorem multivariateGaussian_eq_map (m : Fin n → ℝ) (L : Matrix (Fin n) (Fin n) ℝ) :
    (multivariateGaussian (toLp 2 m) (L * Lᵀ)).map ofLp =
      (Measure.pi fun _ : Fin n => gaussianReal 0 1).map (fun z => m + L *ᵥ z) := by
  have hS : (L * Lᵀ).PosSemidef := by
    have := Matrix.posSemidef_self_mul_conjTranspose L
    simpa using this
  have h1 : multivariateGaussian (toLp 2 m) (L * Lᵀ) =
      (stdGaussian (EuclideanSpace ℝ (Fin n))).map (fun x => toLp 2 m + toEuclideanCLM (𝕜 := ℝ) L x) := by
    have hcomp : (fun x : EuclideanSpace ℝ (Fin n) => toLp 2 m + (toEuclideanCLM (𝕜 := ℝ) L) x) =
      (fun x => toLp 2 m + x) ∘ (toEuclideanCLM (𝕜 := ℝ) L) := rfl
    have hG : IsGaussian ((stdGaussian (EuclideanSpace ℝ (Fin n))).map (fun x => toLp 2 m + toEuclideanCLM (𝕜 := ℝ) L x)) := by
      rw [hcomp, ← Measure.map_map (measurable_const_add _) (by fun_prop)]
      infer_instance
    apply IsGaussian.ext
    · simp only [id_eq, integral_id_multivariateGaussian]
      rw [integral_map (by fun_prop) (by fun_prop), integral_add (integrable_const _), integral_const]
      · simp [ContinuousLinearMap.integral_comp_comm _ IsGaussian.integrable_fun_id]
      · exact IsGaussian.integrable_id.comp_measurable (by fun_prop)
    · ext x y
      rw [covarianceBilin_multivariateGaussian hS, hcomp, ← Measure.map_map (measurable_const_add _) (by fun_prop),
        covarianceBilin_map_const_add, covarianceBilin_map IsGaussian.memLp_two_id, covarianceBilin_stdGaussian]
      have hadj : ContinuousLinearMap.adjoint (toEuclideanCLM (n := Fin n) (𝕜 := ℝ) L) = toEuclideanCLM (n := Fin n) (𝕜 := ℝ) Lᵀ := by
        have := map_star (toEuclideanCLM (n := Fin n) (𝕜 := ℝ)) L
        rw [ContinuousLinearMap.star_eq_adjoint, star_eq_conjTranspose] at this
        rw [← this]; simp
      rw [innerSL_apply_apply, ContinuousLinearMap.adjoint_inner_left, hadj, ← ContinuousLinearMap.comp_apply,
        ← ContinuousLinearMap.mul_def, ← map_mul, inner_toEuclideanCLM]
  rw [h1, ← map_pi_eq_stdGaussian, Measure.map_map (by fun_prop) (by fun_prop), Measure.map_map (by fun_prop) (by fun_prop)]
  rfl

end Verif
