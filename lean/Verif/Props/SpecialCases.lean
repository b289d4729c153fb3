import Verif.Lemmas.SpecialCases
import Verif.Props.Dist2

/-! # C139: distributions that are special cases of one another -/

namespace Verif
open FVal Set

/-- **C139** (densities) `Gamma(1, s)` is `Exponential(s)`, `ChiSquare(2)` is `Exponential(2)`, `Beta(1, 1)` is `Uniform(0, 1)`, Student's t distribution with one degree of freedom is the Cauchy distribution, a normal vector with one
entry is a normal number: the log-probabilities are equal at every real number, and raise the same errors for scales that are negative. -/
theorem C139_densities (x m : ℝ) {s : ℝ} (hs : s ≠ 0) :
    gammaLogprob (fin x) (fin 1) (fin s) = exponentialLogprob (fin x) (fin s) ∧
    chisquareLogprob (fin x) (fin 2) = exponentialLogprob (fin x) (fin 2) ∧
    betaLogprob (fin x) (fin 1) (fin 1) = uniformLogprob (fin x) (fin 0) (fin 1) ∧
    studenttLogprob (fin x) (fin 1) (fin m) (fin s) = cauchyLogprob (fin x) (fin m) (fin s) ∧
    (0 < s → ∀ chol : Matrix (Fin 1) (Fin 1) ℝ → Option (Matrix (Fin 1) (Fin 1) ℝ), CholContract chol →
      mvnormalLogprob chol ![x] ![m] !![s ^ 2] = normalLogprob (fin x) (fin m) (fin s)) := by
  refine ⟨gamma_one hs x, ?_, beta_one_one x, studentt_one m hs x, fun h _ hc => mvnormal_one hc m x h⟩
  rw [chisquareLogprob, show (fin 2 : FVal) / 2 = fin 1 by rw [show (2 : FVal) = fin 2 from rfl, div_fin _ two_ne_zero, div_self two_ne_zero]]
  exact gamma_one two_ne_zero x

example := C139_densities (1 / 2) 3 (s := -4) (by norm_num)
example := (C139_densities (1 / 2) 3 (s := 4) (by norm_num)).2.2.2.2 (by norm_num) _ exists_cholContract.choose_spec

/-- **C139** (masses) One trial: `Binomial(1, p)`, the hypergeometric distribution with one draw and `BetaBinomial(1, a, b)` are Bernoulli distributions; the number of failures before the first success is one less than the number of trials;
successes and failures of a binomial variable can be exchanged; a multinomial variable with two categories is a binomial one.  At every integer. -/
theorem C139_masses (k : ℤ) (n : ℕ) {p : ℝ} (h0 : 0 ≤ p) (h1 : p ≤ 1) :
    binomialLogprob (fin k) (fin (1 : ℕ)) (fin p) = bernoulliLogprob (fin k) (fin p) ∧
    (∀ g b : ℕ, 0 < g + b → hypergeometricLogprob (fin k) (fin g) (fin b) (fin (1 : ℕ)) = bernoulliLogprob (fin k) (fin (g / (g + b)))) ∧
    (∀ α β : ℝ, 0 < α → 0 < β → betabinomialLogprob (fin k) (fin (1 : ℕ)) (fin α) (fin β) = bernoulliLogprob (fin k) (fin (α / (α + β)))) ∧
    (0 < p → p < 1 → nbinomLogprob (fin k) (fin (1 : ℕ)) (fin p) = geometricLogprob (fin (k + 1 : ℤ)) (fin p)) ∧
    binomialLogprob (fin k) (fin n) (fin p) = binomialLogprob (fin (n - k : ℤ)) (fin n) (fin (1 - p)) ∧
    multinomialLogprob [fin k, fin (n - k : ℤ)] (fin n) [fin p, fin (1 - p)] = binomialLogprob (fin k) (fin n) (fin p) := by
  refine ⟨?_, fun g b h => ?_, fun α β ha hb => ?_, fun hp hq => ?_, ?_, ?_⟩
  · exact (C28_binomial 1 h0 h1).unique (C30_bernoulli h0 h1).1 (onNat_congr (binomialMass_one p) k)
  · have hb : (0 : ℝ) < g + b := by exact_mod_cast h
    refine (C34_hypergeometric (n := 1) h).unique (C30_bernoulli (by positivity) ?_).1 (onNat_congr (hypergeometricMass_one h) k)
    rw [div_le_one hb]; simp
  · refine (C29_betabinomial 1 ha hb).unique (C30_bernoulli (by positivity) ?_).1 (onNat_congr (betaBinomialMass_one ha hb) k)
    rw [div_le_one (by positivity)]; linarith
  · exact (C32_nbinom_failures_partial one_pos (by norm_num) hp hq).unique (k' := k + 1) (C33_geometric hp h1) (onNat_shift p k)
  · exact (C28_binomial n h0 h1).unique (k' := n - k) (C28_binomial n (by linarith) (by linarith)) (binomialMass_reflect n p k)
  · have h := C39_multinomial_partial n (p := ![p, 1 - p]) (fun i => by
      match i with
      | 0 => exact h0
      | 1 => simpa using h1) (by simp [Fin.sum_univ_two])
    have hb := C28_binomial n h0 h1
    have := clean_dens_unique (h.clean ![k, n - k]) (hb.clean k) (by rw [h.mass, hb.mass, multinomialMass_two])
    simpa [List.ofFn_succ] using this

example := C139_masses 2 5 (p := 1 / 3) (by norm_num) (by norm_num)
example := (C139_masses 2 5 (p := 1 / 3) (by norm_num) (by norm_num)).2.1 3 4 (by norm_num)

/-- **C139** (special cases that agree only inside) The Weibull distribution with shape one is `Exponential(1)` except at zero, a Dirichlet vector `(x, 1 - x)` is a beta variable except at zero and one, a categorical variable with two categories is a
Bernoulli variable at the categories.  Missing: the other values, where the code has NaN, another infinity or an error (`C139_weibull_wrong`, `C139_dirichlet_wrong`, `C139_categorical_wrong`). -/
theorem C139_inside_partial :
    (∀ x : ℝ, x ≠ 0 → weibullLogprob (fin x) (fin 1) = exponentialLogprob (fin x) (fin 1)) ∧
    (∀ a b x : ℝ, 0 < a → 0 < b → x ≠ 0 → x ≠ 1 → dirichletLogprob [fin x, fin (1 - x)] [fin a, fin b] = betaLogprob (fin x) (fin a) (fin b)) ∧
    ∀ p : ℝ, 0 ≤ p → p ≤ 1 → ∀ k : ℕ, k < 2 → categoricalLogprob k [fin (1 - p), fin p] = bernoulliLogprob (fin k) (fin p) :=
  ⟨fun _ h => weibull_one h, fun _ _ _ ha hb h0 h1 => dirichlet_two ha hb h0 h1, fun _ h0 h1 _ hk => categorical_two h0 h1 hk⟩

example := C139_inside_partial.2.1 2 3 (1 / 4) (by norm_num) (by norm_num) (by norm_num) (by norm_num)

/-- **C139** (negation) At zero the exponential distribution has the log-density zero, and the Weibull distribution with shape one gives NaN. -/
theorem C139_weibull_wrong : weibullLogprob (fin 0) (fin 1) = .ok nan ∧ exponentialLogprob (fin 0) (fin 1) = .ok (fin 0) := by
  refine ⟨C23_weibull_nan_at_zero, ?_⟩
  rw [exponentialLogprob, checkParam_ok (by simp), switch_pos (by simp)]
  fv [log_fin_pos one_pos, div_fin _ (one_ne_zero (α := ℝ)), Real.log_one]
  simp

/-- **C139** (negation) With concentrations below one the beta density is infinite at zero, and the Dirichlet log-probability of the vector `(0, 1)` is `-inf`. -/
theorem C139_dirichlet_wrong {a b : ℝ} (ha : 0 < a) (ha1 : a < 1) (hb : 0 < b) :
    dirichletLogprob [fin 0, fin 1] [fin a, fin b] = .ok ninf ∧ betaLogprob (fin 0) (fin a) (fin b) = .ok pinf := by
  constructor
  · rw [dirichletLogprob, checkParam_ok (by simp [ha, hb])]
    have e : xlogy0 (fin (a - 1)) (fin 0) = ninf := by
      rw [xlogy0, switch_pos (by fv []), switch_neg (by fv [sub_ne_zero.2 ha1.ne]; simp)]
    rw [switch_pos (by simp)]
    simp only [List.zipWith, fsum, List.foldr]
    fv [e, xlogy0_pos _ one_pos, gammaln_fin_pos ha, gammaln_fin_pos hb, gammaln_fin_pos (add_pos ha hb), add_zero]
    simp
  · rw [betaLogprob, checkParam_ok (by simp [ha, hb]), switch_pos (by simp), switch_neg (by simp [ha1.ne])]
    fv [FVal.log_zero, infMul_pos (show 0 < -(a - 1) by linarith), log1p_fin_pos (show (0 : ℝ) < 1 + -0 by norm_num), gammaln_fin_pos ha, gammaln_fin_pos hb, gammaln_fin_pos (add_pos ha hb)]
    unfold switch
    split_ifs <;> simp [infMul_pos (show 0 < 1 - a by linarith)]

example := C139_dirichlet_wrong (a := 1 / 2) (b := 2) (by norm_num) (by norm_num) (by norm_num)

/-- **C139** (negation) At integers other than the categories a Bernoulli variable has the log-probability `-inf`, and the categorical one raises `IndexError` (beyond the number of categories on either side). -/
theorem C139_categorical_wrong {p : ℝ} (h0 : 0 ≤ p) (h1 : p ≤ 1) {k : ℤ} (hk : k < -2 ∨ 2 ≤ k) :
    categoricalLogprob k [fin (1 - p), fin p] = .error .indexError ∧ bernoulliLogprob (fin k) (fin p) = .ok ninf :=
  ⟨C36_categorical_raises_out_of_range _ _ (by simpa using hk), (C30_bernoulli h0 h1).2.2.2 k (by omega) (by omega)⟩

example := C139_categorical_wrong (p := 1 / 3) (by norm_num) (by norm_num) (k := 2) (by norm_num)

end Verif
