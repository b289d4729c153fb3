import Verif.Props.Discrete1
import Mathlib.Probability.Distributions.Gamma

/-! # C29, C32: beta-binomial and negative binomial -/

namespace Verif
open FVal MeasureTheory ProbabilityTheory ENNReal Set

/-! ### Beta-binomial -/

theorem betaPDF_mul_pow {α β x : ℝ} (i j : ℕ) (hα : 0 < α) (hβ : 0 < β) :
    betaPDFReal α β x * (x ^ i * (1 - x) ^ j) =
      beta (α + i) (β + j) / beta α β * betaPDFReal (α + i) (β + j) x := by
  rw [betaPDFReal, betaPDFReal]
  split_ifs with h
  · have h1 : 0 < 1 - x := by linarith [h.2]
    have b1 := beta_pos hα hβ
    have b2 := beta_pos (by positivity : 0 < α + i) (by positivity : 0 < β + j)
    rw [show α + i - 1 = (α - 1) + i by ring, show β + j - 1 = (β - 1) + j by ring, Real.rpow_add h.1, Real.rpow_add h1,
      Real.rpow_natCast, Real.rpow_natCast]
    field_simp
  · simp

theorem betaPDFReal_nonneg {α β : ℝ} (hα : 0 < α) (hβ : 0 < β) (x : ℝ) : 0 ≤ betaPDFReal α β x := by
  by_cases h : 0 < x ∧ x < 1
  · exact (betaPDFReal_pos h.1 h.2 hα hβ).le
  · rw [betaPDFReal, if_neg h]

theorem integrable_betaPDFReal {α β : ℝ} (hα : 0 < α) (hβ : 0 < β) : Integrable (betaPDFReal α β) := by
  refine ⟨(stronglyMeasurable_betaPDFReal α β).aestronglyMeasurable, ?_⟩
  rw [hasFiniteIntegral_iff_ofReal (.of_forall (betaPDFReal_nonneg hα hβ))]
  have := lintegral_betaPDF_eq_one hα hβ
  unfold betaPDF at this
  rw [this]; exact one_lt_top

theorem integral_betaPDFReal {α β : ℝ} (hα : 0 < α) (hβ : 0 < β) : ∫ x, betaPDFReal α β x = 1 := by
  rw [integral_eq_lintegral_of_nonneg_ae (.of_forall (betaPDFReal_nonneg hα hβ))
    (stronglyMeasurable_betaPDFReal α β).aestronglyMeasurable]
  have := lintegral_betaPDF_eq_one hα hβ
  unfold betaPDF at this
  rw [this]; rfl

theorem integral_betaMeasure {α β : ℝ} (hα : 0 < α) (hβ : 0 < β) (f : ℝ → ℝ) :
    ∫ x, f x ∂(betaMeasure α β) = ∫ x, betaPDFReal α β x * f x := by
  have hm : Measurable (betaPDF α β) := (measurable_betaPDFReal α β).ennreal_ofReal
  rw [betaMeasure, integral_withDensity_eq_integral_toReal_smul hm (.of_forall fun x => by simp [betaPDF])]
  refine integral_congr_ae (.of_forall fun x => ?_)
  simp [betaPDF, ENNReal.toReal_ofReal (betaPDFReal_nonneg hα hβ x)]

theorem betaBinomialMass_eq {n k : ℕ} {α β : ℝ} (hα : 0 < α) (hβ : 0 < β) (h : k ≤ n) :
    betaBinomialMass n α β k = n.choose k * beta (α + k) (β + (n - k : ℕ)) / beta α β := by
  rw [betaBinomialMass, integral_betaMeasure hα hβ]
  simp only [binomialMass, if_pos h]
  have e : ∀ x, betaPDFReal α β x * (n.choose k * x ^ k * (1 - x) ^ (n - k)) =
      (n.choose k * beta (α + k) (β + (n - k : ℕ)) / beta α β) * betaPDFReal (α + k) (β + (n - k : ℕ)) x := fun x => by
    rw [show betaPDFReal α β x * (n.choose k * x ^ k * (1 - x) ^ (n - k)) =
      n.choose k * (betaPDFReal α β x * (x ^ k * (1 - x) ^ (n - k))) by ring, betaPDF_mul_pow k (n - k) hα hβ]
    ring
  simp_rw [e]
  rw [integral_const_mul, integral_betaPDFReal (by positivity) (by positivity), mul_one]

theorem betaBinomialMass_hasSum {α β : ℝ} (n : ℕ) (hα : 0 < α) (hβ : 0 < β) : HasSum (betaBinomialMass n α β) 1 := by
  have hs : ∑ k ∈ Finset.range (n + 1), betaBinomialMass n α β k = 1 := by
    have : ∀ k ∈ Finset.range (n + 1), Integrable (fun x => binomialMass n x k) (betaMeasure α β) := by
      intro k hk
      have hm : Measurable (betaPDF α β) := (measurable_betaPDFReal α β).ennreal_ofReal
      have hkn : k ≤ n := by simpa [Nat.lt_succ_iff] using hk
      rw [betaMeasure, integrable_withDensity_iff_integrable_smul' hm (.of_forall fun x => by simp [betaPDF])]
      refine ((integrable_betaPDFReal (α := α + k) (β := β + (n - k : ℕ)) (by positivity) (by positivity)).const_mul
        (n.choose k * (beta (α + k) (β + (n - k : ℕ)) / beta α β))).congr (.of_forall fun x => ?_)
      simp only [betaPDF, ENNReal.toReal_ofReal (betaPDFReal_nonneg hα hβ x), binomialMass, if_pos hkn, smul_eq_mul]
      rw [mul_assoc, ← betaPDF_mul_pow k (n - k) hα hβ]
      ring
    have hp : IsProbabilityMeasure (betaMeasure α β) := isProbabilityMeasureBeta hα hβ
    simp only [betaBinomialMass]
    rw [← integral_finsetSum _ this]
    have h1 : ∀ x : ℝ, ∑ k ∈ Finset.range (n + 1), binomialMass n x k = 1 := fun x => by
      have h := binomialMass_hasSum n x
      refine (hasSum_sum_of_ne_finset_zero fun k hk => ?_).unique h
      rw [binomialMass, if_neg (by simpa [Nat.lt_succ_iff] using hk)]
    simp [h1]
  rw [← hs]
  refine hasSum_sum_of_ne_finset_zero fun k hk => ?_
  simp [betaBinomialMass, binomialMass, if_neg (show ¬ k ≤ n by simpa [Nat.lt_succ_iff] using hk)]

theorem betaln_eq {x y : ℝ} (hx : 0 < x) (hy : 0 < y) : betaln (fin x) (fin y) = log (fin (beta x y)) := by
  have h1 := Real.Gamma_pos_of_pos hx
  have h2 := Real.Gamma_pos_of_pos hy
  have h3 := Real.Gamma_pos_of_pos (add_pos hx hy)
  rw [betaln, gammaln_pos hx, gammaln_pos hy, add_fin, gammaln_pos (add_pos hx hy), log_mul_nonneg h1.le h2.le,
    log_div_nonneg (by positivity) h3, beta]

/-- **C29** For `α, β > 0` and natural `n` the beta-binomial log-probability of every integer is never NaN, its exponential is the
`Beta(α, β)`-average of the binomial mass, and the masses add up to one. -/
theorem C29_betabinomial (n : ℕ) {α β : ℝ} (hα : 0 < α) (hβ : 0 < β) :
    IsLogMass (fun k : ℤ => betabinomialLogprob (fin k) (fin n) (fin α) (fin β)) (onNat (betaBinomialMass n α β)) := by
  have hB := beta_pos hα hβ
  have hz : ∀ k, ¬ k ≤ n → betaBinomialMass n α β k = 0 := fun k hk => by
    simp [betaBinomialMass, binomialMass, hk]
  refine IsLogMass.of_nat (fun k => ?_) (betaBinomialMass_hasSum n hα hβ) (fun k => ?_) (fun k hk => ?_)
  · by_cases h : k ≤ n
    · have := beta_pos (by positivity : 0 < α + k) (by positivity : 0 < β + (n - k : ℕ))
      rw [betaBinomialMass_eq hα hβ h]; positivity
    · rw [hz k h]
  · simp only [Int.cast_natCast]
    rw [betabinomialLogprob, checkParam_ok (by simp [hα, hβ])]
    beta_reduce
    by_cases h : k ≤ n
    · have hB2 := beta_pos (by positivity : 0 < α + k) (by positivity : 0 < β + (n - k : ℕ))
      have e1 : (k : ℝ) + α = α + k := by ring
      have e2 : (n : ℝ) - k + β = β + (n - k : ℕ) := by push_cast [Nat.cast_sub h]; ring
      rw [switch_pos (by simp [h]), binomln_nat h, betaln_eq hα hβ]
      fv []
      rw [e1, e2, betaln_eq (by positivity) (by positivity), log_mul_nonneg (by positivity) hB2.le,
        log_div_nonneg (by positivity) hB, betaBinomialMass_eq hα hβ h]
    · rw [switch_neg (by simp [h]), hz k h, log_zero]
  · rw [betabinomialLogprob, checkParam_ok (by simp [hα, hβ])]
    beta_reduce
    rw [switch_neg (by simp [hk])]

example := C29_betabinomial 4 (α := 2) (β := 1 / 2) (by norm_num) (by norm_num)

/-! ### Negative binomial -/

theorem negBinomialMass_pos {n p : ℝ} (hn : 0 < n) (h0 : 0 < p) (h1 : p < 1) (k : ℕ) : 0 < negBinomialMass n p k := by
  have g1 := Real.Gamma_pos_of_pos hn
  have g2 := Real.Gamma_pos_of_pos (by positivity : 0 < (k : ℝ) + n)
  have : 0 < 1 - p := by linarith
  unfold negBinomialMass; positivity

/-- The negative binomial is the gamma mixture of Poisson laws. -/
theorem negBinomialMass_mixture {n p : ℝ} (hn : 0 < n) (h0 : 0 < p) (h1 : p < 1) (k : ℕ) :
    ∫⁻ g, gammaPDF n (p / (1 - p)) g * ENNReal.ofReal (poissonMass g k) = ENNReal.ofReal (negBinomialMass n p k) := by
  have h2 : 0 < 1 - p := by linarith
  have g1 := Real.Gamma_pos_of_pos hn
  have hkn : 0 < (k : ℝ) + n := by positivity
  have g2 := Real.Gamma_pos_of_pos hkn
  have hr : 0 < p / (1 - p) := by positivity
  have hr1 : (0 : ℝ) < 1 / (1 - p) := by positivity
  have hin : ∀ᵐ g : ℝ, gammaPDF n (p / (1 - p)) g * ENNReal.ofReal (poissonMass g k) =
      ENNReal.ofReal (negBinomialMass n p k) * gammaPDF (k + n) (1 / (1 - p)) g := by
    refine ae_of_forall_ne 0 fun g hg => ?_
    rcases lt_or_gt_of_ne hg with h | h
    · simp [gammaPDF_of_neg h]
    · rw [gammaPDF, gammaPDF, ← ENNReal.ofReal_mul (gammaPDFReal_nonneg hn hr _),
        ← ENNReal.ofReal_mul (negBinomialMass_pos hn h0 h1 k).le, gammaPDFReal, gammaPDFReal, if_pos h.le, if_pos h.le,
        negBinomialMass, poissonMass]
      congr 1
      have e1 : g ^ ((k : ℝ) + n - 1) = g ^ (n - 1) * g ^ k := by
        rw [show (k : ℝ) + n - 1 = (n - 1) + k by ring, Real.rpow_add h, Real.rpow_natCast]
      have e2 : Real.exp (-(1 / (1 - p) * g)) = Real.exp (-(p / (1 - p) * g)) * Real.exp (-g) := by
        rw [← Real.exp_add]; congr 1; field_simp; ring
      have e3 : (p / (1 - p)) ^ n = p ^ n / (1 - p) ^ n := Real.div_rpow h0.le h2.le n
      have e4 : (1 / (1 - p)) ^ ((k : ℝ) + n) = 1 / ((1 - p) ^ k * (1 - p) ^ n) := by
        rw [Real.div_rpow zero_le_one h2.le, Real.one_rpow, Real.rpow_add h2, Real.rpow_natCast]
      rw [e1, e2, e3, e4]
      have : 0 < (1 - p) ^ n := by positivity
      field_simp
  rw [lintegral_congr_ae hin, lintegral_const_mul' _ _ (by simp), lintegral_gammaPDF_eq_one hkn hr1, mul_one]

theorem negBinomialMass_hasSum {n p : ℝ} (hn : 0 < n) (h0 : 0 < p) (h1 : p < 1) : HasSum (negBinomialMass n p) 1 := by
  have h2 : 0 < 1 - p := by linarith
  have hr : 0 < p / (1 - p) := by positivity
  have hgm : Measurable (gammaPDF n (p / (1 - p))) := (measurable_gammaPDFReal _ _).ennreal_ofReal
  have hsum : ∑' k, ENNReal.ofReal (negBinomialMass n p k) = 1 := by
    simp_rw [← negBinomialMass_mixture hn h0 h1]
    rw [← lintegral_tsum fun k => ?_]
    · have hin : ∀ᵐ g : ℝ, ∑' k, gammaPDF n (p / (1 - p)) g * ENNReal.ofReal (poissonMass g k)
          = gammaPDF n (p / (1 - p)) g := by
        refine ae_of_forall_ne 0 fun g hg => ?_
        rcases lt_or_gt_of_ne hg with h | h
        · simp [gammaPDF_of_neg h]
        · have hP : HasSum (poissonMass g) 1 := by
            have := hasSum_one_poissonMeasure g.toNNReal
            simp only [Real.coe_toNNReal _ h.le] at this
            exact this
          rw [ENNReal.tsum_mul_left, ← ENNReal.ofReal_tsum_of_nonneg (fun k => by unfold poissonMass; positivity) hP.summable,
            hP.tsum_eq, ENNReal.ofReal_one, mul_one]
      rw [lintegral_congr_ae hin, lintegral_gammaPDF_eq_one hn hr]
    · refine (hgm.mul ?_).aemeasurable
      unfold poissonMass
      fun_prop
  have h := ENNReal.hasSum_toReal (f := fun k => ENNReal.ofReal (negBinomialMass n p k)) (by rw [hsum]; simp)
  rw [← ENNReal.tsum_toReal_eq (fun k => by simp), hsum] at h
  simp only [ENNReal.toReal_ofReal (negBinomialMass_pos hn h0 h1 _).le, ENNReal.toReal_one] at h
  exact h

theorem nbinom_eval {n p : ℝ} {k : ℤ} (hn : 0 < n) (h0 : 0 < p) (h1 : p < 1) :
    nbinomLogprob (fin k) (fin n) (fin p) =
      .ok (if 10000000000 < n then log (fin (onNat (poissonMass (n * (1 - p) / p)) k))
        else log (fin (onNat (negBinomialMass n p) k))) := by
  have h2 : 0 < 1 - p := by linarith
  set μ := n * (1 - p) / p with hμ
  have hμp : 0 < μ := by positivity
  have hμn : μ + n ≠ 0 := by positivity
  have e1 : μ / (μ + n) = 1 - p := by rw [hμ]; field_simp; ring
  have e2 : n / (μ + n) = p := by rw [hμ]; field_simp; ring
  have hP : poissonLogprob (fin k) (fin μ) = .ok (log (fin (onNat (poissonMass μ) k))) := by
    have hM := C31_poisson hμp.le
    obtain ⟨v, hv, hn⟩ := hM.clean k
    have hm := hM.mass k
    beta_reduce at hv hm
    rw [hv] at hm ⊢
    have hnn : 0 ≤ onNat (poissonMass μ) k := by
      unfold onNat; split_ifs
      · unfold poissonMass; positivity
      · exact le_rfl
    congr 1
    rcases v with _ | _ | x | _
    · exact absurd rfl hn
    · simp only [dens_ok, toDens_ninf, eq_comm (a := (0 : ℝ≥0∞)), ENNReal.ofReal_eq_zero] at hm
      rw [le_antisymm hm hnn, log_zero]
    · simp only [dens_ok, toDens_fin] at hm
      rw [ENNReal.ofReal_eq_ofReal_iff (Real.exp_pos x).le hnn] at hm
      rw [← hm, log_fin_pos (Real.exp_pos x), Real.log_exp]
    · simp at hm
  have hmu : (fin n * (1 - fin p) / fin p : FVal) = fin μ := by fv [div_fin _ h0.ne']; rw [hμ]
  rw [nbinomLogprob]
  beta_reduce
  rw [hmu, checkParam_ok (by simp [hμp, hn]), hP]
  show Except.ok (switch _ _ _) = _
  congr 1
  by_cases hb : 10000000000 < n
  · rw [switch_pos (by simpa using hb), if_pos hb]
  · rw [switch_neg (by simpa using hb), if_neg hb]
    rcases lt_or_ge k 0 with hk | hk
    · rw [switch_neg (by simp [hk]), onNat, if_neg (not_le.2 hk), log_zero]
    · obtain ⟨m, rfl⟩ := Int.eq_ofNat_of_zero_le hk
      have g1 := Real.Gamma_pos_of_pos hn
      have g2 := Real.Gamma_pos_of_pos (by positivity : 0 < (m : ℝ) + n)
      have hpn : 0 < p ^ n := by positivity
      rw [switch_pos (by simp)]
      fv [div_fin _ hμn, Int.cast_natCast]
      rw [e1, e2, xlogy0_nat m h2.le, binomln]
      have e3 : xlogy0 (fin n) (fin p) = log (fin (p ^ n)) := by
        rw [log_fin_pos hpn, Real.log_rpow h0]
        simp [xlogy0, switch, h0.ne', log_fin_pos h0]
      fv []
      rw [e3, show (m : ℝ) + n - 1 + 1 = m + n by ring, show (m : ℝ) + n - 1 - m + 1 = n by ring, gammaln_nat,
        gammaln_pos hn, gammaln_pos (by positivity), log_div_nonneg g2.le (by positivity),
        log_div_nonneg (by positivity) g1, log_mul_nonneg (by positivity) (by positivity),
        log_mul_nonneg (by positivity) hpn.le]
      congr 2
      simp only [onNat, if_pos hk, Int.toNat_natCast, negBinomialMass]
      field_simp

/-- **C32** (`n ≤ 1e10`) For `0 < n ≤ 1e10` and `0 < p < 1` the negative-binomial log-probability of every integer is never NaN, its
exponential is the negative-binomial mass with real `n`, and the masses add up to one. -/
theorem C32_nbinom_partial {n p : ℝ} (hn : 0 < n) (hb : n ≤ 10000000000) (h0 : 0 < p) (h1 : p < 1) :
    IsLogMass (fun k : ℤ => nbinomLogprob (fin k) (fin n) (fin p)) (onNat (negBinomialMass n p)) := by
  refine IsLogMass.of_nat (fun k => (negBinomialMass_pos hn h0 h1 k).le) (negBinomialMass_hasSum hn h0 h1)
    (fun k => ?_) (fun k hk => ?_)
  · rw [nbinom_eval hn h0 h1, if_neg (not_lt.2 hb)]; simp [onNat]
  · rw [nbinom_eval hn h0 h1, if_neg (not_lt.2 hb)]; simp [onNat, not_le.2 hk]

example := C32_nbinom_partial (n := 5 / 2) (p := 1 / 3) (by norm_num) (by norm_num) (by norm_num) (by norm_num)

theorem failureMass_closed (p : ℝ) (n k : ℕ) :
    failureMass p (n + 1) k = (n + k).choose k * p ^ (n + 1) * (1 - p) ^ k := by
  induction n generalizing k with
  | zero =>
    rw [failureMass, Finset.sum_eq_single 0]
    · simp [failureMass]; ring
    · intro j _ hj; simp [failureMass, hj]
    · simp
  | succ n ih =>
    rw [failureMass]
    have : ∀ j ∈ Finset.range (k + 1), failureMass p (n + 1) j * ((1 - p) ^ (k - j) * p) =
        ((n + j).choose j : ℝ) * (p ^ (n + 1 + 1) * (1 - p) ^ k) := by
      intro j hj
      have hj : j ≤ k := by simpa [Nat.lt_succ_iff] using hj
      rw [ih]
      have : (1 - p) ^ k = (1 - p) ^ j * (1 - p) ^ (k - j) := by rw [← pow_add]; congr 1; omega
      rw [this]; ring
    rw [Finset.sum_congr rfl this, ← Finset.sum_mul]
    have hs : ∑ j ∈ Finset.range (k + 1), ((n + j).choose j : ℝ) = (n + 1 + k).choose k := by
      induction k with
      | zero => simp
      | succ k ihk =>
        rw [Finset.sum_range_succ, ihk]
        · have := Nat.choose_succ_succ (n + 1 + k) k
          rw [show n + 1 + (k + 1) = (n + 1 + k) + 1 by ring, this, show n + (k + 1) = n + 1 + k by ring]
          push_cast; rfl
        · intro j hj
          have hj : j ≤ k := by simpa [Nat.lt_succ_iff] using hj
          rw [ih]
          have : (1 - p) ^ k = (1 - p) ^ j * (1 - p) ^ (k - j) := by rw [← pow_add]; congr 1; omega
          rw [this]; ring
    rw [hs]; ring

/-- **C32**, the law for a whole number of successes: the mass the code uses is that of the number of failures before the `n`-th
success (defined by summing over the waiting times of the successive successes). -/
theorem C32_nbinom_failures_partial {n : ℕ} {p : ℝ} (hn : 0 < n) (hb : (n : ℝ) ≤ 10000000000) (h0 : 0 < p) (h1 : p < 1) :
    IsLogMass (fun k : ℤ => nbinomLogprob (fin k) (fin n) (fin p)) (onNat (failureMass p n)) := by
  have h := C32_nbinom_partial (n := (n : ℝ)) (by exact_mod_cast hn) hb h0 h1
  have : failureMass p n = negBinomialMass n p := by
    funext k
    obtain ⟨m, rfl⟩ : ∃ m, n = m + 1 := ⟨n - 1, by omega⟩
    rw [failureMass_closed, negBinomialMass]
    push_cast
    rw [Real.Gamma_nat_eq_factorial, show (k : ℝ) + (m + 1) = ((m + k : ℕ) : ℝ) + 1 by push_cast; ring,
      Real.Gamma_nat_eq_factorial, Nat.cast_choose ℝ (Nat.le_add_left k m), Nat.add_sub_cancel]
    rw [show (p : ℝ) ^ ((m : ℝ) + 1) = p ^ (m + 1) by rw [← Real.rpow_natCast]; push_cast; rfl, mul_comm (k.factorial : ℝ)]
  rw [this]
  exact h

example := C32_nbinom_failures_partial (n := 3) (p := 1 / 3) (by norm_num) (by norm_num) (by norm_num) (by norm_num)

/-- **C32, refuted for `n > 1e10`**: the code switches to a Poisson law there; for every such `n` and every `p` the mass it gives to
`0` differs from the negative-binomial mass. -/
theorem C32_nbinom_large_n_wrong {n p : ℝ} (hb : 10000000000 < n) (h0 : 0 < p) (h1 : p < 1) :
    dens (nbinomLogprob (fin 0) (fin n) (fin p)) ≠ ENNReal.ofReal (negBinomialMass n p 0) := by
  have hn : 0 < n := by linarith
  have h2 : 0 < 1 - p := by linarith
  have g1 := Real.Gamma_pos_of_pos hn
  have h := nbinom_eval (k := 0) hn h0 h1
  rw [if_pos hb] at h
  simp only [Int.cast_zero] at h
  rw [h]
  have e : onNat (poissonMass (n * (1 - p) / p)) 0 = Real.exp (-(n * (1 - p) / p)) := by simp [onNat, poissonMass]
  have e2 : negBinomialMass n p 0 = Real.exp (n * Real.log p) := by
    simp only [negBinomialMass, Nat.cast_zero, zero_add, Nat.factorial_zero, Nat.cast_one, mul_one, div_self g1.ne', one_mul,
      pow_zero]
    rw [Real.rpow_def_of_pos h0, mul_comm]
  rw [e, e2, dens_log_nonneg (Real.exp_pos _).le, Ne, ENNReal.ofReal_eq_ofReal_iff (Real.exp_pos _).le (Real.exp_pos _).le,
    Real.exp_eq_exp]
  have hl : Real.log p⁻¹ < p⁻¹ - 1 :=
    Real.log_lt_sub_one_of_pos (inv_pos.2 h0) (by
      intro h; exact h1.ne (inv_eq_one.1 h))
  rw [Real.log_inv] at hl
  intro hc
  have : n * (1 - p) / p = n * (p⁻¹ - 1) := by field_simp
  rw [this] at hc
  have : n * (-Real.log p) < n * (p⁻¹ - 1) := mul_lt_mul_of_pos_left hl hn
  linarith

example := C32_nbinom_large_n_wrong (n := 20000000000) (p := 1 / 2) (by norm_num) (by norm_num) (by norm_num)

end Verif
