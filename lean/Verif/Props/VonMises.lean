import Verif.Lemmas.Dist2
import Mathlib.Analysis.SpecialFunctions.Integrals.Basic
import Mathlib.MeasureTheory.Integral.DominatedConvergence

/-! # C24: von Mises distribution -/

namespace Verif
open FVal MeasureTheory ENNReal Set Filter Topology

theorem integral_cos_even (m : ℕ) :
    ∫ x in (-Real.pi)..Real.pi, Real.cos x ^ (2 * m) = 2 * Real.pi * ((2 * m).factorial / (4 ^ m * (m.factorial : ℝ) ^ 2)) := by
  induction m with
  | zero => simp; ring
  | succ m ih =>
    rw [show 2 * (m + 1) = 2 * m + 2 by ring, integral_cos_pow, ih]
    simp only [Real.cos_neg, Real.sin_neg, Real.sin_pi, mul_zero, neg_zero, sub_zero, zero_div, zero_add]
    rw [show (2 * m + 2).factorial = (2 * m + 2) * ((2 * m + 1) * (2 * m).factorial) from rfl,
      show (m + 1).factorial = (m + 1) * m.factorial from rfl]
    have : (m.factorial : ℝ) ≠ 0 := by positivity
    push_cast
    field_simp
    ring

theorem integral_cos_odd (m : ℕ) : ∫ x in (-Real.pi)..Real.pi, Real.cos x ^ (2 * m + 1) = 0 := by
  induction m with
  | zero => simp
  | succ m ih =>
    rw [show 2 * (m + 1) + 1 = (2 * m + 1) + 2 by ring, integral_cos_pow, ih]
    simp

theorem summable_i0 (k : ℝ) : HasSum (fun n : ℕ => ∫ x in (-Real.pi)..Real.pi, (k * Real.cos x) ^ n / n.factorial)
    (∫ x in (-Real.pi)..Real.pi, Real.exp (k * Real.cos x)) := by
  refine intervalIntegral.hasSum_integral_of_dominated_convergence (fun n _ => |k| ^ n / n.factorial) (fun n => ?_)
    (fun n => ?_) ?_ ?_ ?_
  · exact (by fun_prop : Continuous fun x => (k * Real.cos x) ^ n / n.factorial).aestronglyMeasurable
  · refine .of_forall fun x _ => ?_
    rw [norm_div, norm_pow, Real.norm_eq_abs, abs_mul, Real.norm_natCast]
    refine div_le_div_of_nonneg_right (pow_le_pow_left₀ (by positivity) ?_ n) (by positivity)
    exact mul_le_of_le_one_right (abs_nonneg _) (Real.abs_cos_le_one x)
  · exact .of_forall fun x _ => Real.summable_pow_div_factorial |k|
  · exact intervalIntegrable_const
  · refine .of_forall fun x _ => ?_
    rw [Real.exp_eq_exp_ℝ]
    exact NormedSpace.expSeries_div_hasSum_exp (k * Real.cos x)

/-- The normalising integral of the von Mises density. -/
theorem vonmises_integral (k : ℝ) :
    ∫ x in (-Real.pi)..Real.pi, Real.exp (k * Real.cos x) = 2 * Real.pi * i0Real k := by
  have h := summable_i0 k
  have hinj : Function.Injective fun m : ℕ => 2 * m := fun a b h => by simpa using h
  have hzero : ∀ n : ℕ, n ∉ range (fun m : ℕ => 2 * m) →
      ∫ x in (-Real.pi)..Real.pi, (k * Real.cos x) ^ n / n.factorial = 0 := by
    intro n hn
    obtain ⟨m, rfl⟩ : ∃ m, n = 2 * m + 1 := by
      rcases Nat.even_or_odd' n with ⟨m, rfl | rfl⟩
      · exact absurd ⟨m, rfl⟩ hn
      · exact ⟨m, rfl⟩
    simp only [mul_pow k, mul_div_right_comm]
    rw [intervalIntegral.integral_const_mul, integral_cos_odd, mul_zero]
  rw [← hinj.hasSum_iff hzero] at h
  have h2 : HasSum (fun m : ℕ => 2 * Real.pi * ((k / 2) ^ (2 * m) / ((m.factorial : ℝ) ^ 2)))
      (∫ x in (-Real.pi)..Real.pi, Real.exp (k * Real.cos x)) := by
    convert h using 1
    funext m
    simp only [Function.comp_apply, mul_pow k, mul_div_right_comm]
    rw [intervalIntegral.integral_const_mul, integral_cos_even, div_pow, pow_mul 2 2 m]
    have h1 : ((2 * m).factorial : ℝ) ≠ 0 := by positivity
    field_simp
    norm_num
  rw [i0Real, ← tsum_mul_left, h2.tsum_eq]

theorem i0Real_pos (k : ℝ) : 0 < i0Real k := by
  have h : 0 < ∫ x in (-Real.pi)..Real.pi, Real.exp (k * Real.cos x) :=
    intervalIntegral.intervalIntegral_pos_of_pos
      ((by fun_prop : Continuous fun x => Real.exp (k * Real.cos x)).intervalIntegrable _ _)
      (fun x => Real.exp_pos _) (by linarith [Real.pi_pos])
  rw [vonmises_integral] at h
  have := Real.pi_pos
  exact pos_of_mul_pos_right h (by positivity)

theorem vonMisesWeight_univ (μ κ : ℝ) : vonMisesWeight μ κ univ = ENNReal.ofReal (2 * Real.pi * i0Real κ) := by
  have hπ := Real.pi_pos
  have hc : Continuous fun x => Real.exp (κ * Real.cos (x - μ)) := by fun_prop
  have hper : Function.Periodic (fun x => Real.exp (κ * Real.cos x)) (2 * Real.pi) := fun x => by
    simp only [Real.cos_add_two_pi]
  have hshift : ∫ x in (-Real.pi)..Real.pi, Real.exp (κ * Real.cos (x - μ))
      = ∫ x in (-Real.pi)..Real.pi, Real.exp (κ * Real.cos x) := by
    rw [intervalIntegral.integral_comp_sub_right (fun x => Real.exp (κ * Real.cos x)) μ]
    have := hper.intervalIntegral_add_eq (-Real.pi - μ) (-Real.pi)
    rw [show -Real.pi - μ + 2 * Real.pi = Real.pi - μ by ring, show -Real.pi + 2 * Real.pi = Real.pi by ring] at this
    exact this
  rw [vonMisesWeight, withDensity_apply _ MeasurableSet.univ, Measure.restrict_univ, ← vonmises_integral, ← hshift,
    intervalIntegral.integral_of_le (by linarith), setLIntegral_congr Ioc_ae_eq_Icc.symm,
    ofReal_integral_eq_lintegral_ofReal]
  · exact (intervalIntegrable_iff_integrableOn_Ioc_of_le (by linarith)).1 (hc.intervalIntegrable _ _)
  · exact .of_forall fun x => (Real.exp_pos _).le

theorem vonmises_in {x κ : ℝ} (μ : ℝ) (hκ : 0 < κ) (h : x ∈ Icc (-Real.pi) Real.pi) :
    vonmisesLogprob (fin x) (fin μ) (fin κ) =
      .ok (fin (Real.log ((2 * Real.pi * i0Real κ)⁻¹ * Real.exp (κ * Real.cos (x - μ))))) := by
  have hi := i0Real_pos κ
  have h2π : (0 : ℝ) < 2 * Real.pi := by positivity
  rw [vonmisesLogprob, checkParam_ok (by simpa using hκ), Real.log_mul (by positivity) (by positivity), Real.log_inv,
    Real.log_mul h2π.ne' hi.ne', Real.log_exp]
  beta_reduce
  rw [switch_pos (by simpa [neg_fin] using h), i0]
  fv [log_fin_pos h2π, log_fin_pos hi]
  rw [← Real.cos_neg, neg_sub]
  ring

theorem vonmises_out {x κ : ℝ} (μ : ℝ) (hκ : 0 < κ) (h : x ∉ Icc (-Real.pi) Real.pi) :
    vonmisesLogprob (fin x) (fin μ) (fin κ) = .ok ninf := by
  rw [vonmisesLogprob, checkParam_ok (by simpa using hκ)]
  beta_reduce
  rw [switch_neg (by simpa [neg_fin] using h)]

/-- **C24** For `κ > 0`, `exp (von Mises logprob)` is the density of the von Mises law: the weight `exp(κ cos(x-μ))` on `[-π, π]`
normalised to total mass one (this includes that the code's `2π I₀(κ)`, `I₀` by its power series, is the normalising constant).
Never NaN, and `-inf` exactly outside `[-π, π]`. -/
theorem C24_vonmises (μ : ℝ) {κ : ℝ} (hκ : 0 < κ) :
    IsLogDensity (fun x => vonmisesLogprob (fin x) (fin μ) (fin κ)) (vonMisesMeasure μ κ) ∧
    vonMisesMeasure μ κ univ = 1 ∧
    ∀ x, IsNegInf (vonmisesLogprob (fin x) (fin μ) (fin κ)) ↔ x ∉ Icc (-Real.pi) Real.pi := by
  have hi := i0Real_pos κ
  have hN : 0 < 2 * Real.pi * i0Real κ := by positivity
  refine ⟨?_, ?_, fun x => ?_⟩
  · rw [vonMisesMeasure, vonMisesWeight_univ, vonMisesWeight, ← withDensity_indicator measurableSet_Icc,
      ← withDensity_smul' _ _ (by simp [hN])]
    refine IsLogDensity.of_withDensity (fun x => ?_) (.of_forall fun x => ?_)
    · by_cases h : x ∈ Icc (-Real.pi) Real.pi
      · rw [vonmises_in μ hκ h]; exact clean_fin _
      · rw [vonmises_out μ hκ h]; exact clean_ninf
    · by_cases h : x ∈ Icc (-Real.pi) Real.pi
      · rw [vonmises_in μ hκ h, dens_log (by positivity), Pi.smul_apply, indicator_of_mem h, smul_eq_mul,
          ENNReal.ofReal_mul (by positivity), ENNReal.ofReal_inv_of_pos hN]
      · rw [vonmises_out μ hκ h, Pi.smul_apply, indicator_of_notMem h]; simp
  · rw [vonMisesMeasure, Measure.smul_apply, smul_eq_mul, vonMisesWeight_univ]
    exact ENNReal.inv_mul_cancel (by simpa using hN) (by simp)
  · by_cases h : x ∈ Icc (-Real.pi) Real.pi
    · rw [vonmises_in μ hκ h]; simp only [IsNegInf, h, not_true]; simp
    · rw [vonmises_out μ hκ h]; simp only [IsNegInf, h, not_false_iff]

example := C24_vonmises 1 (κ := 2) (by norm_num)

end Verif
