import Mathlib.Probability.Distributions.Gaussian.Real
import Mathlib.Probability.CDF
import Mathlib.MeasureTheory.Integral.IntervalIntegral.FundThmCalculus
import Mathlib.MeasureTheory.Integral.IntegralEqImproper

/-! The standard normal distribution function. -/

namespace Verif
open MeasureTheory ProbabilityTheory Set Filter Topology

/-- Standard normal distribution function. -/
noncomputable def Phi (t : ℝ) : ℝ := cdf (gaussianReal 0 1) t

theorem Phi_eq_integral (t : ℝ) : Phi t = ∫ x in Iic t, gaussianPDFReal 0 1 x := by
  rw [Phi, cdf_eq_real, gaussianReal_of_var_ne_zero _ one_ne_zero, measureReal_def,
    withDensity_apply _ measurableSet_Iic]
  refine (integral_eq_lintegral_of_nonneg_ae (.of_forall fun x => gaussianPDFReal_nonneg _ _ _) ?_).symm
  exact (measurable_gaussianPDFReal 0 1).aestronglyMeasurable

theorem continuous_gaussianPDFReal (μ : ℝ) (v : NNReal) : Continuous (gaussianPDFReal μ v) := by
  rw [gaussianPDFReal_def]
  fun_prop

theorem hasDerivAt_Phi (t : ℝ) : HasDerivAt Phi (gaussianPDFReal 0 1 t) t := by
  have hi : Integrable (gaussianPDFReal 0 1) := integrable_gaussianPDFReal 0 1
  have h : Phi = fun t => Phi 0 + ∫ x in (0 : ℝ)..t, gaussianPDFReal 0 1 x := by
    funext t
    rw [Phi_eq_integral, Phi_eq_integral,
      ← intervalIntegral.integral_Iic_sub_Iic hi.integrableOn hi.integrableOn]
    ring
  rw [h]
  refine HasDerivAt.const_add _ ?_
  exact intervalIntegral.integral_hasDerivAt_right hi.intervalIntegrable
    ((continuous_gaussianPDFReal 0 1).stronglyMeasurableAtFilter _ _)
    (continuous_gaussianPDFReal 0 1).continuousAt

theorem tendsto_Phi_atTop : Tendsto Phi atTop (𝓝 1) := tendsto_cdf_atTop _
theorem tendsto_Phi_atBot : Tendsto Phi atBot (𝓝 0) := tendsto_cdf_atBot _

theorem Phi_strictMono : StrictMono Phi :=
  strictMono_of_deriv_pos fun t => by
    rw [(hasDerivAt_Phi t).deriv]; exact gaussianPDFReal_pos _ _ _ one_ne_zero

end Verif
