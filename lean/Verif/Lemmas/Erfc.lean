import Verif.Model.Dists
import Verif.Lemmas.Phi
import Mathlib.MeasureTheory.Integral.IntegralEqImproper

/-! The complementary error function in terms of the normal distribution function. -/

namespace Verif
open MeasureTheory ProbabilityTheory Set Filter Topology

theorem gaussianPDF_std (x : ℝ) : gaussianPDFReal 0 1 x = (Real.sqrt (2 * Real.pi))⁻¹ * Real.exp (-(x ^ 2) / 2) := by
  simp [gaussianPDFReal]

theorem Phi_compl (z : ℝ) : ∫ x in Ioi z, gaussianPDFReal 0 1 x = 1 - Phi z := by
  have h := intervalIntegral.integral_Iic_add_Ioi (b := z) (f := gaussianPDFReal 0 1) (μ := volume)
    (integrable_gaussianPDFReal 0 1).integrableOn (integrable_gaussianPDFReal 0 1).integrableOn
  rw [integral_gaussianPDFReal_eq_one 0 one_ne_zero, ← Phi_eq_integral] at h
  linarith

theorem Phi_neg (z : ℝ) : Phi (-z) = 1 - Phi z := by
  rw [← Phi_compl, Phi_eq_integral, ← integral_comp_neg_Ioi]
  refine setIntegral_congr_fun measurableSet_Ioi fun x _ => ?_
  simp [gaussianPDF_std]

theorem erfcReal_half (z : ℝ) : erfcReal (z / Real.sqrt 2) / 2 = 1 - Phi z := by
  have h2 : (0 : ℝ) < Real.sqrt 2 := by positivity
  have hpi : (0 : ℝ) < Real.sqrt Real.pi := Real.sqrt_pos.2 Real.pi_pos
  rw [← Phi_compl, erfcReal]
  have h := integral_comp_mul_left_Ioi (fun t => Real.exp (-t ^ 2)) z (inv_pos.2 h2)
  rw [show (Real.sqrt 2)⁻¹ * z = z / Real.sqrt 2 by ring] at h
  have e : ∀ x : ℝ, Real.exp (-((Real.sqrt 2)⁻¹ * x) ^ 2) = Real.sqrt (2 * Real.pi) * gaussianPDFReal 0 1 x := by
    intro x
    rw [gaussianPDF_std, mul_inv_cancel_left₀ (by positivity)]
    congr 1
    rw [mul_pow, inv_pow, Real.sq_sqrt (by norm_num)]; ring
  simp_rw [e] at h
  rw [integral_const_mul, inv_inv, smul_eq_mul, Real.sqrt_mul (by norm_num)] at h
  have h' : ∫ x in Ioi (z / Real.sqrt 2), Real.exp (-x ^ 2) = Real.sqrt Real.pi * ∫ x in Ioi z, gaussianPDFReal 0 1 x := by
    have := mul_left_cancel₀ h2.ne' (by rw [← h]; ring : Real.sqrt 2 * _ = Real.sqrt 2 * (Real.sqrt Real.pi * ∫ x in Ioi z, gaussianPDFReal 0 1 x))
    exact this
  rw [h']
  field_simp

theorem Phi_pos (z : ℝ) : 0 < Phi z := by
  have : 0 ≤ Phi (z - 1) := cdf_nonneg _ _
  exact this.trans_lt (Phi_strictMono (by linarith))

theorem Phi_lt_one (z : ℝ) : Phi z < 1 := by
  have := Phi_pos (-z)
  rw [Phi_neg] at this; linarith

theorem Phi_surj {q : ℝ} (h0 : 0 < q) (h1 : q < 1) : ∃ z, Phi z = q := by
  have hc : Continuous Phi := continuous_iff_continuousAt.2 fun t => (hasDerivAt_Phi t).continuousAt
  obtain ⟨a, ha⟩ := (tendsto_Phi_atBot.eventually_lt_const h0).exists
  obtain ⟨b, hb⟩ := (tendsto_Phi_atTop.eventually_const_lt h1).exists
  exact mem_range_of_exists_le_of_exists_ge hc ⟨a, ha.le⟩ ⟨b, hb.le⟩

/-- The CDF of `N(μ, σ²)` by standardisation. -/
theorem gaussianReal_Iic (μ : ℝ) {σ : ℝ} (hσ : 0 < σ) (v : ℝ) :
    gaussianReal μ (σ ^ 2).toNNReal (Iic v) = ENNReal.ofReal (Phi ((v - μ) / σ)) := by
  have h1 : gaussianReal μ (σ ^ 2).toNNReal = (gaussianReal 0 1).map (fun z => μ + σ * z) := by
    have h2 := gaussianReal_map_const_mul (μ := 0) (v := 1) σ
    have h3 := gaussianReal_map_const_add (μ := σ * 0) (v := NNReal.mk (σ ^ 2) (sq_nonneg _) * 1) μ
    rw [← h2, Measure.map_map (by fun_prop) (by fun_prop)] at h3
    rw [show (fun z => μ + σ * z) = (fun x => μ + x) ∘ (fun x => σ * x) from rfl, h3]
    congr 1
    · ring
    · rw [mul_one]; exact NNReal.eq (by simp [sq_nonneg])
  rw [h1, Measure.map_apply (by fun_prop) measurableSet_Iic, Phi, cdf_eq_real, ofReal_measureReal]
  congr 1
  ext z
  simp only [mem_preimage, mem_Iic, le_div_iff₀ hσ]
  constructor <;> intro h <;> linarith

end Verif
