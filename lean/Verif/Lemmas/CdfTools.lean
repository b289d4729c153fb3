import Mathlib.MeasureTheory.Integral.IntegralEqImproper
import Mathlib.MeasureTheory.Integral.IntervalIntegral.FundThmCalculus

/-! Lebesgue integrals of non-negative derivatives. -/

namespace Verif
open MeasureTheory ENNReal Set Filter Topology

theorem lintegral_Ioc_of_deriv {F f : ℝ → ℝ} {a b : ℝ} (hab : a ≤ b) (hc : ContinuousOn F (Icc a b))
    (hd : ∀ x ∈ Ioo a b, HasDerivAt F (f x) x) (hf : ∀ x ∈ Ioo a b, 0 ≤ f x) :
    ∫⁻ x in Ioc a b, ENNReal.ofReal (f x) = ENNReal.ofReal (F b - F a) := by
  have hint : IntegrableOn f (Ioc a b) :=
    intervalIntegral.integrableOn_deriv_of_nonneg hc hd hf
  have hftc : ∫ y in a..b, f y = F b - F a :=
    intervalIntegral.integral_eq_sub_of_hasDerivAt_of_le hab hc hd
      ((intervalIntegrable_iff_integrableOn_Ioc_of_le hab).2 hint)
  rw [← hftc, intervalIntegral.integral_of_le hab, ofReal_integral_eq_lintegral_ofReal hint]
  rw [EventuallyLE, ae_restrict_iff' measurableSet_Ioc]
  have hne : ∀ᵐ x : ℝ, x ≠ b := by rw [ae_iff]; simp
  filter_upwards [hne] with x hx h
  exact hf x ⟨h.1, lt_of_le_of_ne h.2 hx⟩

theorem lintegral_Ioi_of_deriv {F f : ℝ → ℝ} {a l : ℝ} (hc : ContinuousWithinAt F (Ici a) a)
    (hd : ∀ x ∈ Ioi a, HasDerivAt F (f x) x) (hf : ∀ x ∈ Ioi a, 0 ≤ f x) (hl : Tendsto F atTop (𝓝 l)) :
    ∫⁻ x in Ioi a, ENNReal.ofReal (f x) = ENNReal.ofReal (l - F a) := by
  have hint : IntegrableOn f (Ioi a) := integrableOn_Ioi_deriv_of_nonneg hc hd hf hl
  rw [← integral_Ioi_of_hasDerivAt_of_nonneg hc hd hf hl, ofReal_integral_eq_lintegral_ofReal hint]
  rw [EventuallyLE, ae_restrict_iff' measurableSet_Ioi]
  exact .of_forall hf

end Verif
