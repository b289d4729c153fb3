import Verif.Model.Dists
import Verif.Lemmas.Density
import Verif.Lemmas.ChangeVar
import Mathlib.Probability.Distributions.Gaussian.Real
import Mathlib.Probability.Distributions.Exponential
import Mathlib.Probability.Distributions.Pareto
import Mathlib.Probability.Distributions.Cauchy
import Mathlib.Probability.Distributions.Beta
import Mathlib.Probability.ConditionalProbability

/-! Pointwise evaluation of the continuous scalar log-densities (helper lemmas). -/

namespace Verif
open FVal MeasureTheory ProbabilityTheory ENNReal

theorem xlogy0_pos (m : ℝ) {x : ℝ} (hx : 0 < x) : xlogy0 (fin m) (fin x) = fin (m * Real.log x) := by
  simp [xlogy0, switch, hx.ne', log_fin_pos hx]

theorem toNNReal_sq_ne {σ : ℝ} (hσ : 0 < σ) : (σ ^ 2).toNNReal ≠ 0 := by
  simpa using hσ.ne'
theorem toNNReal_ne {σ : ℝ} (hσ : 0 < σ) : σ.toNNReal ≠ 0 := by
  simpa using hσ

theorem normal_eval (x μ : ℝ) {σ : ℝ} (hσ : 0 < σ) :
    normalLogprob (fin x) (fin μ) (fin σ) =
      .ok (fin (Real.log (gaussianPDFReal μ (σ ^ 2).toNNReal x))) := by
  have h2π : (0 : ℝ) < 2 * Real.pi := by positivity
  have hs : 0 < Real.sqrt (2 * Real.pi) := Real.sqrt_pos.2 h2π
  have hsq : √(2 * Real.pi * σ ^ 2) = √(2 * Real.pi) * σ := by
    rw [Real.sqrt_mul h2π.le, Real.sqrt_sq hσ.le]
  have : Real.log (gaussianPDFReal μ (σ ^ 2).toNNReal x) =
      -(1/2) * ((x - μ) / σ) ^ 2 - Real.log (√(2 * Real.pi)) - Real.log σ := by
    rw [gaussianPDFReal_def]
    beta_reduce
    simp only [Real.coe_toNNReal _ (sq_nonneg σ)]
    rw [Real.log_mul (by positivity) (by positivity), Real.log_exp, Real.log_inv, hsq,
      Real.log_mul hs.ne' hσ.ne']
    field_simp
    ring
  rw [normalLogprob, checkParam_ok (by simpa using hσ), this]
  simp only [half, ofNat_eq, zero_eq, mul_fin, sub_fin, div_fin _ hσ.ne', sqrt_fin h2π.le, log_fin_pos hs,
    log_fin_pos hσ, neg_fin, sq_fin]

theorem exponential_eval_nonneg {x μ : ℝ} (hμ : 0 < μ) (hx : 0 ≤ x) :
    exponentialLogprob (fin x) (fin μ) = .ok (fin (Real.log (μ⁻¹ * Real.exp (-(μ⁻¹ * x))))) := by
  rw [exponentialLogprob, checkParam_ok (by simpa using hμ), Real.log_mul (by positivity) (by positivity),
    Real.log_exp, Real.log_inv]
  simp [switch, hx, log_fin_pos hμ, div_fin _ hμ.ne']
  ring

theorem exponential_eval_neg {x μ : ℝ} (hμ : 0 < μ) (hx : x < 0) :
    exponentialLogprob (fin x) (fin μ) = .ok ninf := by
  rw [exponentialLogprob, checkParam_ok (by simpa using hμ)]
  simp [switch, hx]

theorem uniform_eval_in {x a b : ℝ} (hab : a < b) (h1 : a ≤ x) (h2 : x ≤ b) :
    uniformLogprob (fin x) (fin a) (fin b) = .ok (fin (Real.log (b - a)⁻¹)) := by
  simp [uniformLogprob, switch, h1, h2, log_fin_pos (sub_pos.2 hab), Real.log_inv]

theorem uniform_eval_out {x a b : ℝ} (h : ¬ (a ≤ x ∧ x ≤ b)) :
    uniformLogprob (fin x) (fin a) (fin b) = .ok ninf := by
  simp only [uniformLogprob]
  rw [switch_neg (by simpa using h)]

theorem halfnormal_eval_ge {x l σ : ℝ} (hσ : 0 < σ) (hx : l ≤ x) :
    halfnormalLogprob (fin x) (fin l) (fin σ) =
      .ok (fin (Real.log (2 * gaussianPDFReal l (σ ^ 2).toNNReal x))) := by
  have hn := normal_eval x l hσ
  have hg : 0 < gaussianPDFReal l (σ ^ 2).toNNReal x :=
    gaussianPDFReal_pos _ _ _ (toNNReal_sq_ne hσ)
  have h2π : (0 : ℝ) < 2 * Real.pi := by positivity
  have hs : 0 < Real.sqrt (2 * Real.pi) := Real.sqrt_pos.2 h2π
  have h2 : (0 : ℝ) < 2 / Real.pi := by positivity
  have hs2 : 0 < Real.sqrt (2 / Real.pi) := Real.sqrt_pos.2 h2
  have key : Real.log (√(2 / Real.pi)) = Real.log 2 - Real.log (√(2 * Real.pi)) := by
    rw [← Real.log_div (by norm_num) hs.ne']
    congr 1
    rw [eq_div_iff hs.ne', ← Real.sqrt_mul h2.le]
    rw [show 2 / Real.pi * (2 * Real.pi) = 2 ^ 2 by field_simp, Real.sqrt_sq (by norm_num)]
  rw [normalLogprob, checkParam_ok (by simpa using hσ)] at hn
  simp only [half, ofNat_eq, zero_eq, mul_fin, sub_fin, div_fin _ hσ.ne', sqrt_fin h2π.le, log_fin_pos hs,
    log_fin_pos hσ, neg_fin, sq_fin, Except.ok.injEq, fin_inj] at hn
  rw [halfnormalLogprob, checkParam_ok (by simpa using hσ), Real.log_mul (by norm_num) hg.ne', ← hn]
  fv [half, switch, hx, div_fin _ hσ.ne', div_fin _ Real.pi_ne_zero, sqrt_fin h2.le, log_fin_pos hs2,
    log_fin_pos hσ, key, if_true]
  ring

theorem halfnormal_eval_lt {x l σ : ℝ} (hσ : 0 < σ) (hx : x < l) :
    halfnormalLogprob (fin x) (fin l) (fin σ) = .ok ninf := by
  rw [halfnormalLogprob, checkParam_ok (by simpa using hσ)]
  simp [switch, hx]

theorem laplace_eval (x μ : ℝ) {b : ℝ} (hb : 0 < b) :
    laplaceLogprob (fin x) (fin μ) (fin b) =
      .ok (fin (Real.log ((2 * b)⁻¹ * Real.exp (-|x - μ| / b)))) := by
  have h2b : 0 < 2 * b := by positivity
  rw [laplaceLogprob, checkParam_ok (by simpa using hb), Real.log_mul (by positivity) (by positivity),
    Real.log_exp, Real.log_inv]
  simp [log_fin_pos h2b, div_fin _ hb.ne']
  ring

theorem lognormal_eval_pos {x : ℝ} (μ : ℝ) {σ : ℝ} (hσ : 0 < σ) (hx : 0 < x) :
    lognormalLogprob (fin x) (fin μ) (fin σ) =
      .ok (fin (Real.log (x⁻¹ * gaussianPDFReal μ (σ ^ 2).toNNReal (Real.log x)))) := by
  have h2π : (0 : ℝ) < 2 * Real.pi := by positivity
  have hs : 0 < Real.sqrt (2 * Real.pi) := Real.sqrt_pos.2 h2π
  have hn := normal_eval (Real.log x) μ hσ
  have hg : 0 < gaussianPDFReal μ (σ ^ 2).toNNReal (Real.log x) :=
    gaussianPDFReal_pos _ _ _ (toNNReal_sq_ne hσ)
  rw [normalLogprob, checkParam_ok (by simpa using hσ)] at hn
  simp only [half, ofNat_eq, zero_eq, mul_fin, sub_fin, div_fin _ hσ.ne', sqrt_fin h2π.le, log_fin_pos hs,
    log_fin_pos hσ, neg_fin, sq_fin, Except.ok.injEq, fin_inj] at hn
  rw [lognormalLogprob, checkParam_ok (by simpa using hσ), Real.log_mul (by positivity) hg.ne', ← hn, Real.log_inv]
  rw [Real.log_sqrt h2π.le]
  fv [half, switch, hx, log_fin_pos hx, div_fin _ hσ.ne', log_fin_pos hσ, log_fin_pos h2π, if_true]
  ring

theorem lognormal_eval_nonpos {x : ℝ} (μ : ℝ) {σ : ℝ} (hσ : 0 < σ) (hx : x ≤ 0) :
    lognormalLogprob (fin x) (fin μ) (fin σ) = .ok ninf := by
  rw [lognormalLogprob, checkParam_ok (by simpa using hσ)]
  simp [switch, hx.not_gt]

theorem pareto_eval_ge {x a m : ℝ} (ha : 0 < a) (hm : 0 < m) (hx : m ≤ x) :
    paretoLogprob (fin x) (fin a) (fin m) = .ok (fin (Real.log (paretoPDFReal m a x))) := by
  have hx0 : 0 < x := hm.trans_le hx
  rw [paretoLogprob, checkParam_ok (by simp [ha, hm])]
  have : Real.log (paretoPDFReal m a x) = Real.log a + a * Real.log m - (a + 1) * Real.log x := by
    rw [paretoPDFReal, if_pos hx, Real.log_mul (by positivity) (by positivity),
      Real.log_mul (by positivity) (by positivity), Real.log_rpow hm, Real.log_rpow hx0]
    ring
  simp [switch, hx, xlogy0_pos _ hm, xlogy0_pos _ hx0, log_fin_pos ha, this]

theorem pareto_eval_lt {x a m : ℝ} (ha : 0 < a) (hm : 0 < m) (hx : x < m) :
    paretoLogprob (fin x) (fin a) (fin m) = .ok ninf := by
  rw [paretoLogprob, checkParam_ok (by simp [ha, hm])]
  simp [switch, hx]

theorem cauchy_eval (x a : ℝ) {b : ℝ} (hb : 0 < b) :
    cauchyLogprob (fin x) (fin a) (fin b) = .ok (fin (Real.log (cauchyPDFReal a b.toNNReal x))) := by
  have h1 : 0 < 1 + ((x - a) / b) ^ 2 := by positivity
  rw [cauchyLogprob, checkParam_ok (by simpa using hb)]
  have : Real.log (cauchyPDFReal a b.toNNReal x) =
      -Real.log Real.pi - Real.log b - Real.log (1 + ((x - a) / b) ^ 2) := by
    rw [cauchyPDFReal_def']
    simp only [Real.coe_toNNReal _ hb.le, NNReal.coe_inv]
    rw [Real.log_mul (by positivity) (by positivity), Real.log_mul (by positivity) (by positivity),
      Real.log_inv, Real.log_inv, Real.log_inv]
    ring
  simp [log_fin_pos Real.pi_pos, div_fin _ hb.ne', log_fin_pos hb, log1p_fin_pos h1, this]

theorem halfcauchy_eval_ge {x l b : ℝ} (hb : 0 < b) (hx : l ≤ x) :
    halfcauchyLogprob (fin x) (fin l) (fin b) = .ok (fin (Real.log (2 * cauchyPDFReal l b.toNNReal x))) := by
  have hc : 0 < cauchyPDFReal l b.toNNReal x :=
    cauchyPDF_pos _ (toNNReal_ne hb) _
  rw [halfcauchyLogprob, cauchy_eval _ _ hb]
  rw [Real.log_mul (by norm_num) hc.ne']
  simp [bind, Except.bind, pure, Except.pure, switch, hx, log_fin_pos (show (0 : ℝ) < 2 by norm_num)]

theorem halfcauchy_eval_lt {x l b : ℝ} (hb : 0 < b) (hx : x < l) :
    halfcauchyLogprob (fin x) (fin l) (fin b) = .ok ninf := by
  rw [halfcauchyLogprob, cauchy_eval _ _ hb]
  simp [bind, Except.bind, pure, Except.pure, switch, hx]

end Verif
