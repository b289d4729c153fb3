import Verif.Lemmas.Dist1
import Mathlib.Probability.Distributions.Gamma
import Verif.Spec.Laws

/-! Pointwise evaluation of more continuous log-densities (helper lemmas). -/

namespace Verif
open FVal MeasureTheory ProbabilityTheory ENNReal

/-! ### Beta -/

theorem beta_eval_in {x α β : ℝ} (hα : 0 < α) (hβ : 0 < β) (h0 : 0 < x) (h1 : x < 1) :
    betaLogprob (fin x) (fin α) (fin β) = .ok (fin (Real.log (betaPDFReal α β x))) := by
  have hx1 : 0 < 1 - x := by linarith
  have hx1' : 0 < 1 + -x := by linarith
  have hab : 0 < α + β := by linarith
  have key : Real.log (betaPDFReal α β x) = (α - 1) * Real.log x + (β - 1) * Real.log (1 + -x)
      - (Real.log (Real.Gamma α) + Real.log (Real.Gamma β) - Real.log (Real.Gamma (α + β))) := by
    have ga := Real.Gamma_pos_of_pos hα
    have gb := Real.Gamma_pos_of_pos hβ
    have gab := Real.Gamma_pos_of_pos hab
    rw [betaPDFReal, if_pos ⟨h0, h1⟩, beta, Real.log_mul (by positivity) (by positivity),
      Real.log_mul (by positivity) (by positivity), Real.log_rpow h0, Real.log_rpow hx1, one_div, Real.log_inv,
      Real.log_div (by positivity) (by positivity), Real.log_mul ga.ne' gb.ne', sub_eq_add_neg 1 x]
    ring
  have e1 : switch (eq (fin α) (1 : FVal)) (0 : FVal) ((fin α - 1) * log (fin x)) = fin ((α - 1) * Real.log x) := by
    by_cases h : α = 1
    · simp [switch, h]
    · simp [switch, h, log_fin_pos h0]
  have e2 : switch (eq (fin β) (1 : FVal)) (0 : FVal) ((fin β - 1) * log1p (-fin x))
      = fin ((β - 1) * Real.log (1 + -x)) := by
    by_cases h : β = 1
    · simp [switch, h]
    · simp [switch, h, log1p_fin_pos hx1']
  rw [betaLogprob, checkParam_ok (by simp [hα, hβ]), key]
  beta_reduce
  rw [switch_pos (by simp [h0.le, h1.le]), e1, e2]
  fv [gammaln_fin_pos hα, gammaln_fin_pos hβ, gammaln_fin_pos hab]

theorem beta_eval_out {x α β : ℝ} (hα : 0 < α) (hβ : 0 < β) (h : ¬ (0 ≤ x ∧ x ≤ 1)) :
    betaLogprob (fin x) (fin α) (fin β) = .ok ninf := by
  rw [betaLogprob, checkParam_ok (by simp [hα, hβ])]
  beta_reduce
  rw [switch_neg (by simpa using h)]

theorem beta_clean_boundary {x α β : ℝ} (hα : 0 < α) (hβ : 0 < β) (h : x = 0 ∨ x = 1) :
    Clean (betaLogprob (fin x) (fin α) (fin β)) := by
  have hab : 0 < α + β := by linarith
  refine ⟨_, checkParam_ok (by simp [hα, hβ]), ?_⟩
  beta_reduce
  rcases h with rfl | rfl
  · rw [switch_pos (by simp)]
    have e2 : switch (eq (fin β) (1 : FVal)) (0 : FVal) ((fin β - 1) * log1p (-fin 0)) = fin 0 := by
      by_cases h : β = 1
      · simp [switch, h]
      · have : log1p (fin (-0)) = fin 0 := by rw [log1p_fin_pos (by norm_num)]; simp
        simp only [neg_fin, this]
        simp [switch, h]
    rw [e2]
    fv [gammaln_fin_pos hα, gammaln_fin_pos hβ, gammaln_fin_pos hab]
    rcases lt_trichotomy α 1 with h | h | h
    · simp [switch, h.ne, infMul_pos (sub_pos.2 h)]
    · simp [switch, h]
    · simp [switch, h.ne', infMul_neg (sub_neg.2 h)]
  · rw [switch_pos (by simp)]
    have e2 : switch (eq (fin α) (1 : FVal)) (0 : FVal) ((fin α - 1) * log (fin 1)) = fin 0 := by
      by_cases h : α = 1
      · simp [switch, h]
      · simp [switch, h, log_fin_pos one_pos]
    have e3 : log1p (fin (-1)) = ninf := by simp [log1p]
    rw [e2]
    fv [gammaln_fin_pos hα, gammaln_fin_pos hβ, gammaln_fin_pos hab, e3]
    rcases lt_trichotomy β 1 with h | h | h
    · simp [switch, h.ne, infMul_pos (sub_pos.2 h)]
    · simp [switch, h]
    · simp [switch, h.ne', infMul_neg (sub_neg.2 h)]

/-! ### Gamma family -/

theorem xlogy0_zero_zero : xlogy0 (fin 0) (fin 0) = fin 0 := by simp [xlogy0, switch]
theorem xlogy0_zero_ne {m : ℝ} (h : m ≠ 0) : xlogy0 (fin m) (fin 0) = ninf := by simp [xlogy0, switch, h]

theorem log_gammaPDF {x α r : ℝ} (hα : 0 < α) (hr : 0 < r) (hx : 0 < x) :
    Real.log (gammaPDFReal α r x) =
      -Real.log (Real.Gamma α) + α * Real.log r - r * x + (α - 1) * Real.log x := by
  have ga := Real.Gamma_pos_of_pos hα
  rw [gammaPDFReal, if_pos hx.le, Real.log_mul (by positivity) (by positivity),
    Real.log_mul (by positivity) (by positivity), Real.log_div (by positivity) ga.ne', Real.log_rpow hr,
    Real.log_rpow hx, Real.log_exp]
  ring

theorem gamma_eval_pos {x α θ : ℝ} (hα : 0 < α) (hθ : 0 < θ) (hx : 0 < x) :
    gammaLogprob (fin x) (fin α) (fin θ) = .ok (fin (Real.log (gammaPDFReal α (1 / θ) x))) := by
  have hr : 0 < 1 / θ := by positivity
  rw [gammaLogprob, reciprocal_fin hθ.ne', checkParam_ok (by simp [hα, hθ]), log_gammaPDF hα hr hx]
  beta_reduce
  rw [switch_pos (by simp [hx.le]), xlogy0_pos _ hr]
  fv [xlogy0_pos _ hx, gammaln_fin_pos hα]

theorem gamma_eval_neg {x α θ : ℝ} (hα : 0 < α) (hθ : 0 < θ) (hx : x < 0) :
    gammaLogprob (fin x) (fin α) (fin θ) = .ok ninf := by
  rw [gammaLogprob, reciprocal_fin hθ.ne', checkParam_ok (by simp [hα, hθ])]
  beta_reduce
  rw [switch_neg (by simp [hx])]

theorem gamma_clean_zero {α θ : ℝ} (hα : 0 < α) (hθ : 0 < θ) :
    Clean (gammaLogprob (fin 0) (fin α) (fin θ)) := by
  have hr : 0 < 1 / θ := by positivity
  refine ⟨_, by rw [gammaLogprob, reciprocal_fin hθ.ne', checkParam_ok (by simp [hα, hθ])], ?_⟩
  beta_reduce
  rw [switch_pos (by simp), xlogy0_pos _ hr]
  fv [gammaln_fin_pos hα]
  by_cases h : α = 1
  · subst h; simp [xlogy0_zero_zero]
  · rw [xlogy0_zero_ne (sub_ne_zero.2 h)]; simp

theorem invgamma_eval_pos {x α β : ℝ} (hα : 0 < α) (hβ : 0 < β) (hx : 0 < x) :
    invgammaLogprob (fin x) (fin α) (fin β) = .ok (fin (Real.log ((x ^ 2)⁻¹ * gammaPDFReal α β x⁻¹))) := by
  rw [invgammaLogprob, checkParam_ok (by simp [hα, hβ]),
    Real.log_mul (by positivity) (gammaPDFReal_pos hα hβ (by positivity)).ne',
    log_gammaPDF hα hβ (by positivity)]
  beta_reduce
  rw [switch_pos (by simp [hx.le]), xlogy0_pos _ hβ]
  fv [xlogy0_pos _ hx, gammaln_fin_pos hα, div_fin _ hx.ne']
  rw [Real.log_inv, Real.log_inv, Real.log_pow]
  push_cast
  rw [div_eq_mul_inv]
  ring

theorem invgamma_eval_nonpos {x α β : ℝ} (hα : 0 < α) (hβ : 0 < β) (hx : x ≤ 0) :
    invgammaLogprob (fin x) (fin α) (fin β) = .ok ninf := by
  rw [invgammaLogprob, checkParam_ok (by simp [hα, hβ])]
  beta_reduce
  rcases hx.lt_or_eq with h | rfl
  · rw [switch_neg (by simp [h])]
  · rw [switch_pos (by simp), xlogy0_pos _ hβ, div_fin_zero, infMul_pos hβ]
    fv [gammaln_fin_pos hα]
    rw [xlogy0_zero_ne (by linarith)]
    simp

/-! ### Wald -/

theorem wald_eval_pos {x μ l : ℝ} (hμ : 0 < μ) (hl : 0 < l) (hx : 0 < x) :
    waldLogprob (fin x) (fin μ) (fin l) = .ok (fin (Real.log (waldPDF μ l x))) := by
  have h2π : (0 : ℝ) < 2 * Real.pi := by positivity
  have hq : 0 < l / (2 * Real.pi) := by positivity
  rw [waldLogprob, checkParam_ok (by simp [hμ, hl])]
  beta_reduce
  rw [switch_pos (by simp [hx])]
  fv [half, div_fin _ h2π.ne', div_fin _ hx.ne', div_fin _ hμ.ne', log_fin_pos hq, log_fin_pos hx]
  rw [waldPDF, Real.log_mul (by positivity) (by positivity), Real.log_exp, Real.log_sqrt (by positivity),
    Real.log_div hl.ne' (by positivity), Real.log_div hl.ne' (by positivity), Real.log_mul (x := 2 * Real.pi) (by positivity) (by positivity),
    Real.log_pow]
  push_cast
  field_simp
  ring

theorem wald_eval_nonpos {x μ l : ℝ} (hμ : 0 < μ) (hl : 0 < l) (hx : x ≤ 0) :
    waldLogprob (fin x) (fin μ) (fin l) = .ok ninf := by
  rw [waldLogprob, checkParam_ok (by simp [hμ, hl])]
  beta_reduce
  rw [switch_neg (by simpa using hx)]

/-! ### Weibull -/

theorem powr_fin_pos {x : ℝ} (c : ℝ) (hx : 0 < x) : powr (fin x) (fin c) = fin (x ^ c) := by
  simp [powr, hx.not_gt, hx.ne']

theorem weibull_eval_pos {x c : ℝ} (hc : 0 < c) (hx : 0 < x) :
    weibullLogprob (fin x) (fin c) = .ok (fin (Real.log (c * x ^ (c - 1) * Real.exp (-(x ^ c))))) := by
  rw [weibullLogprob, checkParam_ok (by simp [hc])]
  beta_reduce
  rw [switch_pos (by simp [hx.le])]
  fv [log_fin_pos hc, log_fin_pos hx, powr_fin_pos _ hx]
  rw [Real.log_mul (by positivity) (by positivity), Real.log_mul (by positivity) (by positivity), Real.log_exp,
    Real.log_rpow hx]
  ring

theorem weibull_eval_neg {x c : ℝ} (hc : 0 < c) (hx : x < 0) :
    weibullLogprob (fin x) (fin c) = .ok ninf := by
  rw [weibullLogprob, checkParam_ok (by simp [hc])]
  beta_reduce
  rw [switch_neg (by simpa using hx)]

theorem weibull_zero {c : ℝ} (hc : 0 < c) :
    weibullLogprob (fin 0) (fin c) = .ok (if c < 1 then pinf else if c = 1 then nan else ninf) := by
  have h0 : powr (fin 0) (fin c) = fin 0 := by simp [powr, hc.not_gt, Real.zero_rpow hc.ne']
  rw [weibullLogprob, checkParam_ok (by simp [hc])]
  beta_reduce
  rw [switch_pos (by simp), h0]
  fv [log_fin_pos hc, log_zero, fin_mul_ninf]
  rcases lt_trichotomy c 1 with h | h | h
  · rw [infMul_pos (by linarith)]; simp [h]
  · subst h; simp
  · rw [infMul_neg (by linarith)]; simp [h.ne', h.not_gt]

/-! ### Gumbel, logistic -/

theorem gumbel_eval (x μ : ℝ) {β : ℝ} (hβ : 0 < β) :
    gumbelLogprob (fin x) (fin μ) (fin β) =
      .ok (fin (Real.log (β⁻¹ * Real.exp (-((x - μ) / β)) * Real.exp (-(Real.exp (-((x - μ) / β))))))) := by
  rw [gumbelLogprob, checkParam_ok (by simpa using hβ)]
  fv [div_fin _ hβ.ne', log_fin_pos hβ]
  rw [Real.log_mul (by positivity) (by positivity), Real.log_mul (by positivity) (by positivity), Real.log_exp,
    Real.log_exp, Real.log_inv]
  ring

theorem logistic_eval (x μ : ℝ) {s : ℝ} (hs : 0 < s) :
    logisticLogprob (fin x) (fin μ) (fin s) =
      .ok (fin (Real.log (s⁻¹ * (Real.exp (-((x - μ) / s)) / (1 + Real.exp (-((x - μ) / s))) ^ 2)))) := by
  have hp : 0 < 1 + Real.exp (-((x - μ) / s)) := by positivity
  rw [logisticLogprob, checkParam_ok (by simpa using hs)]
  fv [div_fin _ hs.ne', log_fin_pos hs, log1p_fin_pos hp]
  rw [Real.log_mul (by positivity) (by positivity), Real.log_div (by positivity) (by positivity), Real.log_exp,
    Real.log_inv, Real.log_pow]
  push_cast
  ring

end Verif
