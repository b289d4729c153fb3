import Verif.Spec.NonFinite
import Verif.Lemmas.FVal

/-! # C110: log-densities at values that are not finite numbers -/

namespace Verif
open FVal

namespace NonFinite

theorem half_eq : half = fin (1 / 2) := rfl
theorem sq_pinf : sq pinf = pinf := rfl
theorem sq_ninf : sq ninf = pinf := rfl
theorem sq_nan : sq nan = nan := rfl
theorem abs_pinf : FVal.abs pinf = pinf := rfl
theorem abs_ninf : FVal.abs ninf = pinf := rfl
theorem abs_nan : FVal.abs nan = nan := rfl
theorem pinf_div {b : ℝ} (hb : 0 < b) : pinf / fin b = pinf := by
  show (if b < 0 then ninf else pinf) = pinf
  rw [if_neg hb.le.not_gt]
theorem ninf_div {b : ℝ} (hb : 0 < b) : ninf / fin b = ninf := by
  show (if b < 0 then pinf else ninf) = ninf
  rw [if_neg hb.le.not_gt]
theorem gammaln_pinf : gammaln pinf = pinf := rfl
theorem gammaln_ninf : gammaln ninf = pinf := rfl
theorem gammaln_nan : gammaln nan = nan := rfl
theorem log1p_pinf : log1p pinf = pinf := rfl
theorem log1p_nan : log1p nan = nan := by simp [log1p]
theorem log1p_zero : log1p (fin 0) = fin 0 := by simp [log1p, log_fin_pos]
theorem erfc_pinf : erfc pinf = fin 0 := rfl
theorem erfcx_pinf : erfcx pinf = fin 0 := rfl
theorem erfc_nan : erfc nan = nan := rfl
theorem cos_nan : cos nan = nan := rfl

theorem ge_pinf (a : ℝ) : ge pinf (fin a) ↔ True := Iff.rfl
theorem ge_ninf (a : ℝ) : ge ninf (fin a) ↔ False := Iff.rfl
theorem ge_nan (a : FVal) : ge nan a ↔ False := by cases a <;> exact Iff.rfl
theorem le_pinf (a : ℝ) : le pinf (fin a) ↔ False := Iff.rfl
theorem le_ninf (a : ℝ) : le ninf (fin a) ↔ True := Iff.rfl
theorem le_nan (a : FVal) : le nan a ↔ False := by cases a <;> exact Iff.rfl
theorem le_pinf' (a : ℝ) : le (fin a) pinf ↔ True := Iff.rfl
theorem le_ninf' (a : ℝ) : le (fin a) ninf ↔ False := Iff.rfl
theorem le_nan' (a : FVal) : le a nan ↔ False := by cases a <;> exact Iff.rfl
theorem lt_pinf (a : ℝ) : lt pinf (fin a) ↔ False := Iff.rfl
theorem lt_ninf (a : ℝ) : lt ninf (fin a) ↔ True := Iff.rfl
theorem lt_nan (a : FVal) : lt nan a ↔ False := by cases a <;> exact Iff.rfl
theorem gt_pinf (a : ℝ) : gt pinf (fin a) ↔ True := Iff.rfl
theorem gt_ninf (a : ℝ) : gt ninf (fin a) ↔ False := Iff.rfl
theorem gt_nan (a : FVal) : gt nan a ↔ False := by cases a <;> exact Iff.rfl
theorem eq_pinf (a : ℝ) : FVal.eq pinf (fin a) ↔ False := Iff.rfl
theorem eq_ninf (a : ℝ) : FVal.eq ninf (fin a) ↔ False := Iff.rfl
theorem eq_nan (a : FVal) : FVal.eq nan a ↔ False := by cases a <;> exact Iff.rfl

theorem switch_true {α : Type} (a b : α) : switch True a b = a := switch_pos trivial a b
theorem switch_false {α : Type} (a b : α) : switch False a b = b := switch_neg id a b

attribute [local simp] half_eq sq_pinf sq_ninf sq_nan abs_pinf abs_ninf abs_nan gammaln_pinf gammaln_ninf gammaln_nan log1p_pinf log1p_nan log1p_zero erfc_pinf erfcx_pinf erfc_nan cos_nan ge_pinf ge_ninf ge_nan
  le_pinf le_ninf le_nan le_pinf' le_ninf' le_nan' lt_pinf lt_ninf lt_nan gt_pinf gt_ninf gt_nan eq_pinf eq_ninf eq_nan switch_true switch_false checkParam

theorem log_fin_cases (x : ℝ) : log (fin x) = nan ∨ log (fin x) = ninf ∨ ∃ r, log (fin x) = fin r := by
  rcases lt_trichotomy x 0 with h | rfl | h
  · exact .inl (log_fin_neg h)
  · exact .inr (.inl log_zero)
  · exact .inr (.inr ⟨_, log_fin_pos h⟩)

@[local simp] theorem log_two_pi : log (fin (2 * Real.pi)) = fin (Real.log (2 * Real.pi)) := log_fin_pos (by positivity)
@[local simp] theorem log_pi : log (fin Real.pi) = fin (Real.log Real.pi) := log_fin_pos (by positivity)
@[local simp] theorem log_two : log (fin 2) = fin (Real.log 2) := log_fin_pos (by norm_num)
@[local simp] theorem log_sqrt_two_pi : log (sqrt (fin (2 * Real.pi))) = fin (Real.log (Real.sqrt (2 * Real.pi))) := by
  rw [sqrt_fin (by positivity), log_fin_pos (by positivity)]
@[local simp] theorem log_sqrt_two_div_pi : log (sqrt (2 / fin Real.pi)) = fin (Real.log (Real.sqrt (2 / Real.pi))) := by
  rw [ofNat_eq, div_fin _ Real.pi_ne_zero, sqrt_fin (by positivity), log_fin_pos (by positivity)]
@[local simp] theorem two_lt_zero : ¬ (2 : ℝ) < 0 := by norm_num
@[local simp] theorem zero_lt_two' : (0 : ℝ) < 2 := by norm_num

/-- **C110** Uniform. -/
theorem C110_uniform (a b : ℝ) : VanishesAtInf fun v => uniformLogprob v (fin a) (fin b) := by
  constructor <;> simp [uniformLogprob]

/-- **C110** Normal. -/
theorem C110_normal (μ : ℝ) {σ : ℝ} (h : 0 < σ) : VanishesAtInf fun v => normalLogprob v (fin μ) (fin σ) := by
  constructor <;> simp [normalLogprob, pinf_div h, ninf_div h, log_fin_pos h, h, infMul]

/-- **C110** Half-normal. -/
theorem C110_halfnormal (a : ℝ) {σ : ℝ} (h : 0 < σ) : VanishesAtInf fun v => halfnormalLogprob v (fin a) (fin σ) := by
  have := log_sqrt_two_div_pi
  constructor <;> simp only [halfnormalLogprob, this] <;> simp [pinf_div h, log_fin_pos h, h, infMul]

/-- **C110** Beta. -/
theorem C110_beta {a b : ℝ} (ha : 0 < a) (hb : 0 < b) : VanishesAtInf fun v => betaLogprob v (fin a) (fin b) := by
  constructor <;> simp [betaLogprob, ha, hb]

/-- **C110** Exponential. -/
theorem C110_exponential {μ : ℝ} (h : 0 < μ) : VanishesAtInf fun v => exponentialLogprob v (fin μ) := by
  constructor <;> simp [exponentialLogprob, pinf_div h, log_fin_pos h, h]

/-- **C110** Laplace. -/
theorem C110_laplace (μ : ℝ) {b : ℝ} (h : 0 < b) : VanishesAtInf fun v => laplaceLogprob v (fin μ) (fin b) := by
  have : log (2 * fin b) = fin (Real.log (2 * b)) := log_fin_pos (by positivity)
  constructor <;> simp only [laplaceLogprob, this] <;> simp [pinf_div h, h]

/-- **C110** Log-normal. -/
theorem C110_lognormal (μ : ℝ) {σ : ℝ} (h : 0 < σ) : VanishesAtInf fun v => lognormalLogprob v (fin μ) (fin σ) := by
  constructor <;> simp [lognormalLogprob, pinf_div h, log_fin_pos h, h, infMul]

/-- **C110** Pareto. -/
theorem C110_pareto {a m : ℝ} (ha : 0 < a) (hm : 0 < m) : VanishesAtInf fun v => paretoLogprob v (fin a) (fin m) := by
  have h1 : 0 < a + 1 := by linarith
  constructor <;> simp [paretoLogprob, xlogy0, ha, hm, hm.ne', log_fin_pos, infMul_pos h1, switch_neg]

/-- **C110** Cauchy. -/
theorem C110_cauchy (a : ℝ) {b : ℝ} (h : 0 < b) : VanishesAtInf fun v => cauchyLogprob v (fin a) (fin b) := by
  constructor <;> simp [cauchyLogprob, pinf_div h, ninf_div h, log_fin_pos h, h]

/-- **C110** Half-Cauchy. -/
theorem C110_halfcauchy (a : ℝ) {b : ℝ} (h : 0 < b) : VanishesAtInf fun v => halfcauchyLogprob v (fin a) (fin b) := by
  constructor <;> simp [halfcauchyLogprob, cauchyLogprob, pinf_div h, ninf_div h, log_fin_pos h, h, bind, Except.bind, pure, Except.pure]

/-- **C110** Inverse-gamma. -/
theorem C110_invgamma {a b : ℝ} (ha : 0 < a) (hb : 0 < b) : VanishesAtInf fun v => invgammaLogprob v (fin a) (fin b) := by
  have h1 : -a - 1 < 0 := by linarith
  constructor <;> simp [invgammaLogprob, xlogy0, ha, hb, hb.ne', log_fin_pos, infMul_neg h1, switch_neg, gammaln_fin_pos]

/-- **C110** Von Mises. -/
theorem C110_vonmises (μ : ℝ) {k : ℝ} (h : 0 < k) : VanishesAtInf fun v => vonmisesLogprob v (fin μ) (fin k) := by
  constructor <;> simp [vonmisesLogprob, h]

/-- **C110** Triangular. -/
theorem C110_triangular {a c b : ℝ} (h1 : a ≤ c) (h2 : c ≤ b) : VanishesAtInf fun v => triangularLogprob v (fin a) (fin c) (fin b) := by
  constructor <;> simp [triangularLogprob, h1, h2]

/-- **C110** Student-t. -/
theorem C110_studentt {ν : ℝ} (hν : 0 < ν) (μ : ℝ) {σ : ℝ} (h : 0 < σ) : VanishesAtInf fun v => studenttLogprob v (fin ν) (fin μ) (fin σ) := by
  have h1 : 0 < (ν + 1) / 2 := by positivity
  have h2 : 0 < ν / 2 := by positivity
  have h3 : 0 < Real.pi * ν * σ ^ 2 := by positivity
  constructor <;> simp [studenttLogprob, pinf_div h, ninf_div h, pinf_div hν, div_fin, gammaln_fin_pos h1, gammaln_fin_pos h2, log_fin_pos h3, infMul_pos h1, h.le]

/-- **C110** Binomial. -/
theorem C110_binomial (n : ℝ) {p : ℝ} (h0 : 0 ≤ p) (h1 : p ≤ 1) : VanishesAtInf fun v => binomialLogprob v (fin n) (fin p) := by
  constructor <;> simp [binomialLogprob, h0, h1]

/-- **C110** Beta-binomial. -/
theorem C110_betabinomial (n : ℝ) {a b : ℝ} (ha : 0 < a) (hb : 0 < b) : VanishesAtInf fun v => betabinomialLogprob v (fin n) (fin a) (fin b) := by
  constructor <;> simp [betabinomialLogprob, ha, hb]

/-- **C110** Bernoulli. -/
theorem C110_bernoulli {p : ℝ} (h0 : 0 ≤ p) (h1 : p ≤ 1) : VanishesAtInf fun v => bernoulliLogprob v (fin p) := by
  constructor <;> simp [bernoulliLogprob, h0, h1]

/-- **C110** Geometric. -/
theorem C110_geometric {p : ℝ} (h0 : 0 < p) (h1 : p ≤ 1) : VanishesAtInf fun v => geometricLogprob v (fin p) := by
  constructor
  · rcases h1.eq_or_lt with rfl | h1
    · simp [geometricLogprob, xlogy0, log_fin_pos, switch_pos]
    · have h2 : Real.log (1 - p) < 0 := Real.log_neg (by linarith) (by linarith)
      have h3 : (1 : ℝ) - p ≠ 0 := by linarith
      simp [geometricLogprob, xlogy0, log_fin_pos h0, log_fin_pos (sub_pos.2 h1), h3, switch_neg, infMul_neg h2, h0.le, h1.le]
  · simp [geometricLogprob, h0.le, h1]

/-- **C110** Hypergeometric. -/
theorem C110_hypergeometric (good bad n : ℝ) : VanishesAtInf fun v => hypergeometricLogprob v (fin good) (fin bad) (fin n) := by
  have h1 : ∃ u, switch (lt (fin good) (fin n)) (fin good) (fin n) = fin u := by
    by_cases h : lt (fin good) (fin n)
    · exact ⟨_, switch_pos h _ _⟩
    · exact ⟨_, switch_neg h _ _⟩
  have h2 : ∃ u, switch (gt (fin n - (fin good + fin bad) + fin good) 0) (fin n - (fin good + fin bad) + fin good) (0 : FVal) = fin u := by
    by_cases h : gt (fin n - (fin good + fin bad) + fin good) 0
    · exact ⟨_, switch_pos h _ _⟩
    · exact ⟨_, switch_neg h _ _⟩
  obtain ⟨u, hu⟩ := h1
  obtain ⟨l, hl⟩ := h2
  constructor <;> simp only [hypergeometricLogprob, hu, hl] <;> simp

/-- **C110** Dirac delta at a finite number. -/
theorem C110_dirac (rtol atol c : ℝ) : VanishesAtInf fun v => .ok (diracLogprob rtol atol v (fin c)) := by
  constructor <;> simp [diracLogprob, isclose]

/-! ## Where it is not -inf -/

/-- **C110** (partly refuted) Gamma: `-inf` at infinity only if the shape is less than one, otherwise NaN. -/
theorem C110_gamma_partial {a s : ℝ} (ha : 0 < a) (hs : 0 < s) :
    gammaLogprob pinf (fin a) (fin s) = .ok (if a < 1 then ninf else nan) ∧ gammaLogprob ninf (fin a) (fin s) = .ok ninf := by
  have hb : 0 < 1 / s := by positivity
  have hr : reciprocal (fin s) = fin (1 / s) := reciprocal_fin hs.ne'
  constructor
  · simp only [gammaLogprob, hr]
    rcases lt_trichotomy a 1 with h | rfl | h
    · simp [xlogy0, ha, hb.ne', hs, hs.ne', log_fin_pos (inv_pos.2 hs), switch_neg, gammaln_fin_pos ha, infMul_pos (inv_pos.2 hs), infMul_neg (sub_neg.2 h), h]
    · simp [xlogy0, hs, hs.ne', switch_neg]
    · simp [xlogy0, ha, hb.ne', hs, hs.ne', log_fin_pos (inv_pos.2 hs), switch_neg, gammaln_fin_pos ha, infMul_pos (inv_pos.2 hs), infMul_pos (sub_pos.2 h), h.le.not_gt]
  · simp [gammaLogprob, hr, ha, hs]

/-- **C110** (partly refuted) Chi-square: NaN at infinity from two degrees of freedom on. -/
theorem C110_chisquare_partial {ν : ℝ} (hν : 0 < ν) :
    chisquareLogprob pinf (fin ν) = .ok (if ν < 2 then ninf else nan) ∧ chisquareLogprob ninf (fin ν) = .ok ninf := by
  have h := C110_gamma_partial (a := ν / 2) (s := 2) (by positivity) (by norm_num)
  have e : (fin ν / 2 : FVal) = fin (ν / 2) := div_fin _ (by norm_num)
  have e2 : (ν / 2 < 1) ↔ ν < 2 := by constructor <;> intro h <;> linarith
  simp only [chisquareLogprob, e, e2] at h ⊢
  exact h

/-- **C110** (refuted) Wald: NaN at infinity, for all parameters. -/
theorem C110_wald_wrong {μ l : ℝ} (hμ : 0 < μ) (hl : 0 < l) : waldLogprob pinf (fin μ) (fin l) = .ok nan ∧ waldLogprob ninf (fin μ) (fin l) = .ok ninf := by
  constructor <;> simp [waldLogprob, pinf_div hμ, hμ, hl]

/-- **C110** (partly refuted) Weibull: NaN at infinity if the shape is one or more. -/
theorem C110_weibull_partial {c : ℝ} (hc : 0 < c) : weibullLogprob pinf (fin c) = .ok (if c < 1 then ninf else nan) ∧ weibullLogprob ninf (fin c) = .ok ninf := by
  have hp : powr pinf (fin c) = pinf := by simp [powr, hc]
  constructor
  · simp only [weibullLogprob, hp]
    rcases lt_trichotomy c 1 with h | rfl | h
    · simp [hc, log_fin_pos hc, infMul_neg (sub_neg.2 h), h]
    · simp
    · simp [hc, log_fin_pos hc, infMul_pos (sub_pos.2 h), h.le.not_gt]
  · simp [weibullLogprob, hc]

/-- **C110** (partly refuted) Gumbel: `-inf` at plus infinity, NaN at minus infinity. -/
theorem C110_gumbel_partial (μ : ℝ) {b : ℝ} (h : 0 < b) : gumbelLogprob pinf (fin μ) (fin b) = .ok ninf ∧ gumbelLogprob ninf (fin μ) (fin b) = .ok nan := by
  constructor <;> simp [gumbelLogprob, pinf_div h, ninf_div h, log_fin_pos h, h]

/-- **C110** (partly refuted) Logistic: `-inf` at plus infinity, NaN at minus infinity. -/
theorem C110_logistic_partial (μ : ℝ) {b : ℝ} (h : 0 < b) : logisticLogprob pinf (fin μ) (fin b) = .ok ninf ∧ logisticLogprob ninf (fin μ) (fin b) = .ok nan := by
  constructor <;> simp [logisticLogprob, pinf_div h, ninf_div h, log_fin_pos h, h, infMul_pos]

/-- **C110** (partly refuted) Poisson: NaN at infinity if the mean is one or more. -/
theorem C110_poisson_partial {μ : ℝ} (h : 0 ≤ μ) : poissonLogprob pinf (fin μ) = .ok (if μ < 1 then ninf else nan) ∧ poissonLogprob ninf (fin μ) = .ok ninf := by
  constructor
  · rcases h.eq_or_lt with rfl | h0
    · simp [poissonLogprob, xlogy0, bind, Except.bind, pure, Except.pure]
    rcases lt_trichotomy μ 1 with h1 | rfl | h1
    · simp [poissonLogprob, xlogy0, bind, Except.bind, pure, Except.pure, h, h0.ne', switch_neg, log_fin_pos h0, infMul_neg (Real.log_neg h0 h1), h1]
    · simp [poissonLogprob, xlogy0, bind, Except.bind, pure, Except.pure, switch_neg, log_fin_pos]
    · simp [poissonLogprob, xlogy0, bind, Except.bind, pure, Except.pure, h, h0.ne', switch_neg, log_fin_pos h0, infMul_pos (Real.log_pos h1), h1.le.not_gt]
  · simp [poissonLogprob, bind, Except.bind, pure, Except.pure, h]

/-- **C110** (refuted) Negative binomial, for counts up to `10^10`: NaN at infinity, for all parameters. -/
theorem C110_nbinom_wrong {n p : ℝ} (hn : 0 < n) (hn2 : n ≤ 10000000000) (h0 : 0 < p) (h1 : p < 1) :
    nbinomLogprob pinf (fin n) (fin p) = .ok nan ∧ nbinomLogprob ninf (fin n) (fin p) = .ok ninf := by
  have hmu : 0 < n * (1 - p) / p := div_pos (mul_pos hn (by linarith)) h0
  have e : (fin n * (1 - fin p) / fin p : FVal) = fin (n * (1 - p) / p) := div_fin _ h0.ne'
  have hp := C110_poisson_partial hmu.le
  constructor
  · simp only [nbinomLogprob, e, hp.1]
    simp [bind, Except.bind, pure, Except.pure, hmu, hn, binomln, hn2.not_gt]
  · simp only [nbinomLogprob, e, hp.2]
    simp [bind, Except.bind, pure, Except.pure, hmu, hn, hn2.not_gt]

/-! ## Log-CDFs -/

/-- **C110** Normal. -/
theorem C110_normal_logcdf (μ : ℝ) {σ : ℝ} (h : 0 < σ) : CdfAtInf fun v => normalLogcdf v (fin μ) (fin σ) := by
  have h2 : sqrt 2 = fin (Real.sqrt 2) := sqrt_fin (by norm_num)
  have h3 : 0 < Real.sqrt 2 := by positivity
  constructor <;> simp only [normalLogcdf, h2] <;> simp [pinf_div h, ninf_div h, pinf_div h3, h, div_fin, pinf_div]

/-- **C110** Uniform. -/
theorem C110_uniform_logcdf {a b : ℝ} (h : a ≤ b) : CdfAtInf fun v => uniformLogcdf v (fin a) (fin b) := by
  constructor <;> simp [uniformLogcdf, h]

/-- **C110** Geometric. -/
theorem C110_geometric_logcdf {p : ℝ} (h0 : 0 < p) (h1 : p ≤ 1) : CdfAtInf fun v => geometricLogcdf v (fin p) := by
  constructor
  · simp [geometricLogcdf, h0.le, h1]
  · rcases h1.eq_or_lt with rfl | h1
    · have : (ninf * pinf : FVal) = ninf := rfl
      simp [geometricLogcdf, log1p, log1mexp, this, log_fin_pos]
    · have h2 : Real.log (1 - p) < 0 := Real.log_neg (by linarith) (by linarith)
      have h3 : log1p (-fin p) = fin (Real.log (1 - p)) := by rw [neg_fin, log1p_fin_pos (by linarith)]; rfl
      simp only [geometricLogcdf, h3]
      simp [log1mexp, infMul_neg h2, h0.le, h1.le, log_fin_pos]

/-! ## NaN -/

/-- **C110** NaN is not taken for a possible value, whatever the parameters. -/
theorem C110_nan (a b c : ℝ) :
    (RejectsNan fun v => uniformLogprob v (fin a) (fin b)) ∧
    (0 < b → RejectsNan fun v => normalLogprob v (fin a) (fin b)) ∧
    (0 < b → RejectsNan fun v => halfnormalLogprob v (fin a) (fin b)) ∧
    (0 < a → 0 < b → RejectsNan fun v => betaLogprob v (fin a) (fin b)) ∧
    (0 < a → RejectsNan fun v => exponentialLogprob v (fin a)) ∧
    (0 < b → RejectsNan fun v => laplaceLogprob v (fin a) (fin b)) ∧
    (0 < b → RejectsNan fun v => lognormalLogprob v (fin a) (fin b)) ∧
    (0 < a → 0 < b → RejectsNan fun v => paretoLogprob v (fin a) (fin b)) ∧
    (0 < b → RejectsNan fun v => cauchyLogprob v (fin a) (fin b)) ∧
    (0 < b → RejectsNan fun v => halfcauchyLogprob v (fin a) (fin b)) ∧
    (0 < a → 0 < b → RejectsNan fun v => gammaLogprob v (fin a) (fin b)) ∧
    (0 < a → 0 < b → RejectsNan fun v => invgammaLogprob v (fin a) (fin b)) ∧
    (0 < a → 0 < b → RejectsNan fun v => waldLogprob v (fin a) (fin b)) ∧
    (0 < a → RejectsNan fun v => weibullLogprob v (fin a)) ∧
    (0 < b → RejectsNan fun v => vonmisesLogprob v (fin a) (fin b)) ∧
    (a ≤ c → c ≤ b → RejectsNan fun v => triangularLogprob v (fin a) (fin c) (fin b)) ∧
    (0 < b → RejectsNan fun v => gumbelLogprob v (fin a) (fin b)) ∧
    (0 < b → RejectsNan fun v => logisticLogprob v (fin a) (fin b)) ∧
    (0 < c → RejectsNan fun v => studenttLogprob v (fin a) (fin b) (fin c)) ∧
    (0 ≤ b → b ≤ 1 → RejectsNan fun v => binomialLogprob v (fin a) (fin b)) ∧
    (0 < b → 0 < c → RejectsNan fun v => betabinomialLogprob v (fin a) (fin b) (fin c)) ∧
    (0 ≤ a → a ≤ 1 → RejectsNan fun v => bernoulliLogprob v (fin a)) ∧
    (0 ≤ a → RejectsNan fun v => poissonLogprob v (fin a)) ∧
    (0 < a → 0 < b → b < 1 → RejectsNan fun v => nbinomLogprob v (fin a) (fin b)) ∧
    (0 ≤ a → a ≤ 1 → RejectsNan fun v => geometricLogprob v (fin a)) ∧
    (RejectsNan fun v => hypergeometricLogprob v (fin a) (fin b) (fin c)) ∧
    (0 < b → RejectsNan fun v => normalLogcdf v (fin a) (fin b)) ∧
    (0 ≤ a → RejectsNan fun v => poissonLogcdf v (fin a)) ∧
    (0 ≤ a → a ≤ 1 → RejectsNan fun v => geometricLogcdf v (fin a)) := by
  refine ⟨?_, fun h => ?_, fun h => ?_, fun h h' => ?_, fun h => ?_, fun h => ?_, fun h => ?_, fun h h' => ?_, fun h => ?_, fun h => ?_, fun h h' => ?_, fun h h' => ?_, fun h h' => ?_, fun h => ?_,
    fun h => ?_, fun h h' => ?_, fun h => ?_, fun h => ?_, fun h => ?_, fun h h' => ?_, fun h h' => ?_, fun h h' => ?_, fun h => ?_, fun h h' h'' => ?_, fun h h' => ?_, ?_, fun h => ?_, fun h => ?_, fun h h' => ?_⟩
  · simp [RejectsNan, uniformLogprob]
  · simp [RejectsNan, normalLogprob, h]
  · simp [RejectsNan, halfnormalLogprob, h]
  · simp [RejectsNan, betaLogprob, h, h']
  · simp [RejectsNan, exponentialLogprob, h]
  · simp [RejectsNan, laplaceLogprob, h]
  · simp [RejectsNan, lognormalLogprob, h]
  · simp [RejectsNan, paretoLogprob, h, h']
  · simp [RejectsNan, cauchyLogprob, h]
  · simp [RejectsNan, halfcauchyLogprob, cauchyLogprob, h, bind, Except.bind, pure, Except.pure]
  · simp [RejectsNan, gammaLogprob, reciprocal_fin h'.ne', h, h']
  · simp [RejectsNan, invgammaLogprob, h, h']
  · simp [RejectsNan, waldLogprob, h, h']
  · simp [RejectsNan, weibullLogprob, h]
  · simp [RejectsNan, vonmisesLogprob, h]
  · simp [RejectsNan, triangularLogprob, h, h']
  · simp [RejectsNan, gumbelLogprob, h]
  · simp [RejectsNan, logisticLogprob, h]
  · simp [RejectsNan, studenttLogprob, h.le]
  · simp [RejectsNan, binomialLogprob, h, h']
  · simp [RejectsNan, betabinomialLogprob, h, h']
  · simp [RejectsNan, bernoulliLogprob, h, h']
  · simp [RejectsNan, poissonLogprob, h, bind, Except.bind, pure, Except.pure]
  · have hmu : 0 < a * (1 - b) / b := div_pos (mul_pos h (by linarith)) h'
    have e : (fin a * (1 - fin b) / fin b : FVal) = fin (a * (1 - b) / b) := div_fin _ h'.ne'
    have hp : poissonLogprob nan (fin (a * (1 - b) / b)) = .ok ninf := by simp [poissonLogprob, hmu.le, bind, Except.bind, pure, Except.pure]
    simp only [RejectsNan, nbinomLogprob, e, hp]
    simp [bind, Except.bind, pure, Except.pure, hmu, h]
    by_cases hn : (10000000000 : ℝ) < a
    · simp [hn]
    · simp [hn]
  · simp [RejectsNan, geometricLogprob, h, h']
  · simp [RejectsNan, hypergeometricLogprob]
  · simp [RejectsNan, normalLogcdf, h]
  · have : floor nan = nan := rfl
    simp [RejectsNan, poissonLogcdf, this, h]
  · simp [RejectsNan, geometricLogcdf, log1mexp, h, h']

/-- **C110** (refuted) The log-CDF of a uniform variable at NaN is zero: the probability is one. -/
theorem C110_uniform_logcdf_nan_wrong {a b : ℝ} (h : a ≤ b) : uniformLogcdf nan (fin a) (fin b) = .ok (fin 0) := by
  simp [uniformLogcdf, h]

example := C110_normal 3 (σ := 2) (by norm_num)
example := C110_pareto (a := 2) (m := 1) (by norm_num) (by norm_num)
example := C110_studentt (ν := 4) (by norm_num) 0 (σ := 2) (by norm_num)
example := C110_geometric (p := 1) (by norm_num) le_rfl
example := C110_geometric_logcdf (p := 1 / 2) (by norm_num) (by norm_num)
example := C110_normal_logcdf 3 (σ := 2) (by norm_num)
example := C110_triangular (a := 0) (c := 1) (b := 1) (by norm_num) le_rfl
/-- A gamma variable with shape two, a Wald variable and a Poisson variable with mean three: NaN. -/
example : gammaLogprob pinf (fin 2) (fin 1) = .ok nan ∧ waldLogprob pinf (fin 1) (fin 1) = .ok nan ∧ poissonLogprob pinf (fin 3) = .ok nan := by
  refine ⟨?_, (C110_wald_wrong one_pos one_pos).1, ?_⟩
  · rw [(C110_gamma_partial two_pos one_pos).1, if_neg (by norm_num)]
  · rw [(C110_poisson_partial (μ := 3) (by norm_num)).1, if_neg (by norm_num)]
example := C110_nbinom_wrong (n := 2) (p := 1 / 2) (by norm_num) (by norm_num) (by norm_num) (by norm_num)
example := (C110_nan 2 (1 / 2) 1).2.1 (by norm_num)
example := C110_uniform_logcdf_nan_wrong (a := 0) (b := 1) (by norm_num)

end NonFinite
end Verif
