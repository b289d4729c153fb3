import Verif.Lemmas.Discrete
import Mathlib.Probability.Distributions.Poisson.Basic
import Mathlib.Data.Nat.Choose.Vandermonde
import Mathlib.Analysis.SpecificLimits.Normed

/-! # C28-C34: discrete distributions -/

namespace Verif
open FVal MeasureTheory ProbabilityTheory

theorem binomialMass_nonneg {n : ℕ} {p : ℝ} (h0 : 0 ≤ p) (h1 : p ≤ 1) (k : ℕ) : 0 ≤ binomialMass n p k := by
  have : 0 ≤ 1 - p := by linarith
  unfold binomialMass; split_ifs <;> positivity

theorem binomialMass_hasSum (n : ℕ) (p : ℝ) : HasSum (binomialMass n p) 1 := by
  have hs : ∑ k ∈ Finset.range (n + 1), binomialMass n p k = 1 := by
    have h := add_pow p (1 - p) n
    rw [add_sub_cancel, one_pow] at h
    rw [h]
    refine Finset.sum_congr rfl fun k hk => ?_
    rw [binomialMass, if_pos (by simpa [Nat.lt_succ_iff] using hk)]
    ring
  rw [← hs]
  refine hasSum_sum_of_ne_finset_zero fun k hk => ?_
  rw [binomialMass, if_neg (by simpa [Nat.lt_succ_iff] using hk)]

theorem binomial_nat {n k : ℕ} {p : ℝ} (h0 : 0 ≤ p) (h1 : p ≤ 1) :
    binomialLogprob (fin k) (fin n) (fin p) = .ok (log (fin (binomialMass n p k))) := by
  have h2 : 0 ≤ 1 - p := by linarith
  rw [binomialLogprob, checkParam_ok (by simp [h0, h1])]
  beta_reduce
  by_cases h : k ≤ n
  · rw [switch_pos (by simp [h]), binomln_nat h, xlogy0_nat k h0]
    fv []
    rw [← Nat.cast_sub h, xlogy0_nat _ h2, log_mul_nonneg (by positivity) (by positivity),
      log_mul_nonneg (by positivity) (by positivity), binomialMass, if_pos h]
  · rw [switch_neg (by simp [h]), binomialMass, if_neg h, log_zero]

/-- **C28** For `0 ≤ p ≤ 1` and natural `n`, the binomial log-probability of every integer is never NaN and its exponential is the
binomial mass `C(n,k) p^k (1-p)^(n-k)` on `0..n`, zero elsewhere; the masses add up to one. -/
theorem C28_binomial (n : ℕ) {p : ℝ} (h0 : 0 ≤ p) (h1 : p ≤ 1) :
    IsLogMass (fun k : ℤ => binomialLogprob (fin k) (fin n) (fin p)) (onNat (binomialMass n p)) := by
  refine IsLogMass.of_nat (binomialMass_nonneg h0 h1) (binomialMass_hasSum n p) (fun k => ?_) (fun k hk => ?_)
  · rw [← binomial_nat h0 h1]; simp
  · rw [binomialLogprob, checkParam_ok (by simp [h0, h1])]
    beta_reduce
    rw [switch_neg (by simp [hk])]

example := C28_binomial 5 (p := 1 / 3) (by norm_num) (by norm_num)

/-- **C30** For `0 ≤ p ≤ 1` the Bernoulli log-probability is `log p` at 1, `log (1-p)` at 0, `-inf` at any other integer; never NaN,
masses add up to one. -/
theorem C30_bernoulli {p : ℝ} (h0 : 0 ≤ p) (h1 : p ≤ 1) :
    IsLogMass (fun k : ℤ => bernoulliLogprob (fin k) (fin p)) (onNat (bernoulliMass p)) ∧
    bernoulliLogprob (fin 1) (fin p) = .ok (log (fin p)) ∧
    bernoulliLogprob (fin 0) (fin p) = .ok (log (fin (1 - p))) ∧
    ∀ k : ℤ, k ≠ 0 → k ≠ 1 → IsNegInf (bernoulliLogprob (fin k) (fin p)) := by
  have h2 : 0 ≤ 1 - p := by linarith
  have e1 : bernoulliLogprob (fin 1) (fin p) = .ok (log (fin p)) := by
    rw [bernoulliLogprob, checkParam_ok (by simp [h0, h1])]
    beta_reduce
    rw [switch_pos (by simp), switch_pos (by simp)]
  have e0 : bernoulliLogprob (fin 0) (fin p) = .ok (log (fin (1 - p))) := by
    rw [bernoulliLogprob, checkParam_ok (by simp [h0, h1])]
    beta_reduce
    rw [switch_pos (by simp), switch_neg (by simp)]
    simp
  have eo : ∀ k : ℤ, k ≠ 0 → k ≠ 1 → IsNegInf (bernoulliLogprob (fin k) (fin p)) := fun k k0 k1 => by
    rw [IsNegInf, bernoulliLogprob, checkParam_ok (by simp [h0, h1])]
    beta_reduce
    rw [switch_neg]
    fv []
    rintro ⟨ha, hb⟩
    have ha : 0 ≤ k := by exact_mod_cast ha
    have hb : k ≤ 1 := by exact_mod_cast hb
    omega
  refine ⟨IsLogMass.of_nat (fun k => ?_) ?_ (fun k => ?_) (fun k hk => eo k (by omega) (by omega)), e1, e0, eo⟩
  · rcases k with _ | _ | k <;> simp [bernoulliMass, h0, h1]
  · have : ∑ k ∈ Finset.range 2, bernoulliMass p k = 1 := by simp [Finset.sum_range_succ, bernoulliMass]
    rw [← this]
    refine hasSum_sum_of_ne_finset_zero fun k hk => ?_
    rcases k with _ | _ | k
    · simp at hk
    · simp at hk
    · rfl
  · rcases k with _ | _ | k
    · simpa [bernoulliMass] using e0
    · simpa [bernoulliMass] using e1
    · have := eo ((k + 2 : ℕ) : ℤ) (by omega) (by omega)
      rw [IsNegInf] at this
      rw [this]
      simp [bernoulliMass]

example := C30_bernoulli (p := 1) (by norm_num) (by norm_num)

/-- **C31** For `μ ≥ 0` (zero included) the Poisson log-probability of every integer is never NaN, its exponential is the Poisson
mass, and the masses add up to one. -/
theorem C31_poisson {μ : ℝ} (h0 : 0 ≤ μ) :
    IsLogMass (fun k : ℤ => poissonLogprob (fin k) (fin μ)) (onNat (poissonMass μ)) := by
  have hnn : ∀ k, 0 ≤ poissonMass μ k := fun k => by unfold poissonMass; positivity
  refine IsLogMass.of_nat hnn ?_ (fun k => ?_) (fun k hk => ?_)
  · have := hasSum_one_poissonMeasure μ.toNNReal
    simp only [Real.coe_toNNReal _ h0] at this
    exact this
  · simp only [Int.cast_natCast]
    rw [poissonLogprob]
    beta_reduce
    rw [checkParam_ok (by simp [h0]), switch_pos (by simp), xlogy0_nat k h0]
    fv []
    rw [gammaln_nat, log_div_nonneg (by positivity) (by positivity), log_sub_fin _ (by positivity)]
    have e : μ ^ k / k.factorial * Real.exp (-μ) = poissonMass μ k := by rw [poissonMass]; ring
    rw [e]
    show Except.ok (switch _ _ _) = _
    by_cases h : μ = 0 ∧ (k : ℝ) = 0
    · rw [switch_pos h]
      have hk : k = 0 := by exact_mod_cast h.2
      simp [poissonMass, h.1, hk, log_fin_pos one_pos]
    · rw [switch_neg h]
  · have hk' : (k : ℝ) < 0 := by exact_mod_cast hk
    rw [poissonLogprob]
    beta_reduce
    rw [checkParam_ok (by simp [h0]), switch_neg (by simp [hk])]
    show Except.ok (switch _ _ _) = _
    rw [switch_neg]
    fv []
    exact fun h => hk'.ne h.2

example := C31_poisson (μ := 0) le_rfl
example := C31_poisson (μ := 5 / 2) (by norm_num)

theorem geometricMass_hasSum {p : ℝ} (h0 : 0 < p) (h1 : p ≤ 1) : HasSum (geometricMass p) 1 := by
  have h := (hasSum_geometric_of_lt_one (r := 1 - p) (by linarith) (by linarith)).mul_right p
  rw [sub_sub_cancel, inv_mul_cancel₀ h0.ne'] at h
  have := (hasSum_nat_add_iff (f := geometricMass p) 1 (g := 1)).1 (by simpa [geometricMass] using h)
  simpa [geometricMass] using this

theorem geometric_nat {p : ℝ} (h0 : 0 ≤ p) (h1 : p ≤ 1) (k : ℕ) :
    geometricLogprob (fin k) (fin p) = .ok (log (fin (geometricMass p k))) := by
  have h2 : 0 ≤ 1 - p := by linarith
  rw [geometricLogprob, checkParam_ok (by simp [h0, h1])]
  beta_reduce
  cases k with
  | zero => rw [switch_neg (by simp)]; simp [geometricMass]
  | succ k =>
    rw [switch_pos (by simp)]
    fv []
    rw [show ((k + 1 : ℕ) : ℝ) - 1 = k by push_cast; ring, xlogy0_nat k h2, log_mul_nonneg h0 (by positivity),
      geometricMass, mul_comm]

/-- **C33** For `0 < p ≤ 1` the geometric log-probability of every integer is never NaN, its exponential is `(1-p)^(k-1) p` for
`k ≥ 1` and zero otherwise, and the masses add up to one. -/
theorem C33_geometric {p : ℝ} (h0 : 0 < p) (h1 : p ≤ 1) :
    IsLogMass (fun k : ℤ => geometricLogprob (fin k) (fin p)) (onNat (geometricMass p)) := by
  have h2 : 0 ≤ 1 - p := by linarith
  refine IsLogMass.of_nat (fun k => ?_) (geometricMass_hasSum h0 h1) (fun k => ?_) (fun k hk => ?_)
  · cases k with
    | zero => exact le_rfl
    | succ k => rw [geometricMass]; positivity
  · rw [← geometric_nat h0.le h1]; simp
  · have hk' : (k : ℝ) < 1 := by
      have : (k : ℝ) < 0 := by exact_mod_cast hk
      linarith
    rw [geometricLogprob, checkParam_ok (by simp [h0.le, h1])]
    beta_reduce
    rw [switch_neg (by simpa using hk')]

example := C33_geometric (p := 1) one_pos le_rfl
example := C33_geometric (p := 1 / 4) (by norm_num) (by norm_num)

/-! ### Hypergeometric -/

theorem gammaln_fact {x : ℝ} (n : ℕ) (h : x = n + 1) : gammaln (fin x) = log (fin (n.factorial : ℝ)) := by
  rw [h, gammaln_nat]

/-- `betaln (a+1) (b+1) = log (a! b! / (a+b+1)!)`. -/
theorem betaln_nat {x y : ℝ} (a b : ℕ) (hx : x = a + 1) (hy : y = b + 1) :
    betaln (fin x) (fin y) = log (fin ((a.factorial : ℝ) * b.factorial / (a + b + 1).factorial)) := by
  rw [betaln, gammaln_fact a hx, gammaln_fact b hy, add_fin, gammaln_fact (a + b + 1) (by push_cast; rw [hx, hy]; ring),
    log_mul_nonneg (by positivity) (by positivity), log_div_nonneg (by positivity) (by positivity)]

theorem hypergeometric_algebra {g b n k : ℕ} (hk : k ≤ n) (hkg : k ≤ g) (hnk : n - k ≤ b) :
    (g.factorial : ℝ) * Nat.factorial 0 / (g + 0 + 1).factorial * (b.factorial * Nat.factorial 0 / (b + 0 + 1).factorial)
      * ((g + b - n).factorial * n.factorial / ((g + b - n) + n + 1).factorial)
      / (k.factorial * (g - k).factorial / (k + (g - k) + 1).factorial)
      / ((n - k).factorial * (b - (n - k)).factorial / ((n - k) + (b - (n - k)) + 1).factorial)
      / ((g + b).factorial * Nat.factorial 0 / (g + b + 0 + 1).factorial)
    = (g.choose k : ℝ) * b.choose (n - k) / (g + b).choose n := by
  have hn : n ≤ g + b := by omega
  rw [show (g + b - n) + n = g + b by omega, show k + (g - k) = g by omega, show (n - k) + (b - (n - k)) = b by omega,
    Nat.cast_choose ℝ hkg, Nat.cast_choose ℝ hnk, Nat.cast_choose ℝ hn]
  simp only [Nat.factorial_zero, Nat.cast_one, mul_one, add_zero, Nat.factorial_succ, Nat.cast_mul]
  have : ∀ m : ℕ, (m.factorial : ℝ) ≠ 0 := fun m => by positivity
  have e1 := this g; have e2 := this b; have e3 := this (g + b); have e4 := this k; have e5 := this (g - k)
  have e6 := this (n - k); have e7 := this (b - (n - k)); have e8 := this n; have e9 := this (g + b - n)
  push_cast
  have f1 : (g : ℝ) + 1 ≠ 0 := by positivity
  have f2 : (b : ℝ) + 1 ≠ 0 := by positivity
  have f3 : (g : ℝ) + b + 1 ≠ 0 := by positivity
  field_simp

theorem hypergeometric_in {g b n k : ℕ} (hk : k ≤ n) (hkg : k ≤ g) (hnk : n - k ≤ b) :
    hypergeometricLogprob (fin k) (fin g) (fin b) (fin n) = .ok (log (fin (hypergeometricMass g b n k))) := by
  have hn : n ≤ g + b := by omega
  have hnk' : n ≤ b + k := by omega
  have c1 : (k : ℝ) ≤ n := by exact_mod_cast hk
  have c2 : (k : ℝ) ≤ g := by exact_mod_cast hkg
  have c3 : (n : ℝ) ≤ b + k := by exact_mod_cast hnk'
  rw [hypergeometricLogprob]
  beta_reduce
  rw [switch_pos]
  · fv []
    rw [betaln_nat g 0 rfl (by simp), betaln_nat b 0 rfl (by simp),
      betaln_nat (g + b - n) n (by push_cast [Nat.cast_sub hn]; ring) rfl,
      betaln_nat k (g - k) rfl (by push_cast [Nat.cast_sub hkg]; ring),
      betaln_nat (n - k) (b - (n - k)) (by push_cast [Nat.cast_sub hk]; ring)
        (by push_cast [Nat.cast_sub hnk, Nat.cast_sub hk]; ring),
      betaln_nat (g + b) 0 (by push_cast; ring) (by simp),
      log_mul_nonneg (by positivity) (by positivity), log_mul_nonneg (by positivity) (by positivity),
      log_div_nonneg (by positivity) (by positivity), log_div_nonneg (by positivity) (by positivity),
      log_div_nonneg (by positivity) (by positivity), hypergeometric_algebra hk hkg hnk, hypergeometricMass, if_pos hk]
  · constructor
    · by_cases h : gt (fin n - (fin g + fin b) + fin g) 0
      · rw [switch_pos h]; fv []; linarith
      · rw [switch_neg h]; simp
    · by_cases h : lt (fin (g : ℝ)) (fin n)
      · rw [switch_pos h]; simpa using c2
      · rw [switch_neg h]; simpa using c1

theorem hypergeometric_out {g b n : ℕ} {k : ℝ} (h : k < 0 ∨ k < n - b ∨ (g : ℝ) < k ∨ (n : ℝ) < k) :
    hypergeometricLogprob (fin k) (fin g) (fin b) (fin n) = .ok ninf := by
  rw [hypergeometricLogprob]
  beta_reduce
  rw [switch_neg]
  rintro ⟨hl, hu⟩
  have hl' : 0 ≤ k ∧ (n : ℝ) - b ≤ k := by
    by_cases h : gt (fin (n : ℝ) - (fin g + fin b) + fin g) 0
    · rw [switch_pos h] at hl; fv [] at hl h; constructor <;> linarith
    · rw [switch_neg h] at hl; fv [not_lt] at hl h; constructor <;> linarith
  have hu' : k ≤ g ∧ k ≤ n := by
    by_cases h : lt (fin (g : ℝ)) (fin n)
    · rw [switch_pos h] at hu; fv [] at hu h; constructor <;> linarith
    · rw [switch_neg h] at hu; fv [not_lt] at hu h; constructor <;> linarith
  rcases h with h | h | h | h <;> linarith [hl'.1, hl'.2, hu'.1, hu'.2]

/-- **C34** For natural `good`, `bad` and `n ≤ good + bad` the hypergeometric log-probability of every integer is never NaN, its
exponential is `C(good,k) C(bad,n-k) / C(good+bad,n)` (zero where impossible), and the masses add up to one. -/
theorem C34_hypergeometric {g b n : ℕ} (hn : n ≤ g + b) :
    IsLogMass (fun k : ℤ => hypergeometricLogprob (fin k) (fin g) (fin b) (fin n)) (onNat (hypergeometricMass g b n)) := by
  refine IsLogMass.of_nat (fun k => ?_) ?_ (fun k => ?_) (fun k hk => ?_)
  · unfold hypergeometricMass; split_ifs <;> positivity
  · have hc : ((g + b).choose n : ℝ) ≠ 0 := by
      have := Nat.choose_pos hn
      positivity
    have : ∑ k ∈ Finset.range (n + 1), hypergeometricMass g b n k = 1 := by
      have hv := Nat.add_choose_eq g b n
      rw [Finset.Nat.sum_antidiagonal_eq_sum_range_succ_mk] at hv
      have hv' : ((g + b).choose n : ℝ) = ∑ k ∈ Finset.range (n + 1), (g.choose k : ℝ) * b.choose (n - k) := by
        rw [hv]; push_cast; rfl
      rw [← div_self hc]
      conv_rhs => rw [div_eq_mul_inv]; lhs; rw [hv']
      rw [Finset.sum_mul]
      refine Finset.sum_congr rfl fun k hk => ?_
      rw [hypergeometricMass, if_pos (by simpa [Nat.lt_succ_iff] using hk), div_eq_mul_inv]
    rw [← this]
    refine hasSum_sum_of_ne_finset_zero fun k hk => ?_
    rw [hypergeometricMass, if_neg (by simpa [Nat.lt_succ_iff] using hk)]
  · simp only [Int.cast_natCast]
    by_cases h1 : k ≤ n
    · by_cases h2 : k ≤ g
      · by_cases h3 : n - k ≤ b
        · exact hypergeometric_in h1 h2 h3
        · have : (k : ℝ) < n - b := by
            have : b + k < n := by omega
            have : (b : ℝ) + k < n := by exact_mod_cast this
            linarith
          rw [hypergeometric_out (.inr (.inl this)), hypergeometricMass, if_pos h1, Nat.choose_eq_zero_of_lt (not_le.1 h3)]
          simp
      · have : (g : ℝ) < k := by exact_mod_cast not_le.1 h2
        rw [hypergeometric_out (.inr (.inr (.inl this))), hypergeometricMass, if_pos h1,
          Nat.choose_eq_zero_of_lt (not_le.1 h2)]
        simp
    · have : (n : ℝ) < k := by exact_mod_cast not_le.1 h1
      rw [hypergeometric_out (.inr (.inr (.inr this))), hypergeometricMass, if_neg h1, log_zero]
  · exact hypergeometric_out (.inl (by exact_mod_cast hk))

example := C34_hypergeometric (g := 3) (b := 4) (n := 5) (by norm_num)

end Verif
