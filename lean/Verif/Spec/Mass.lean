import Mathlib.Probability.Distributions.Beta
import Mathlib.Data.Nat.Choose.Sum
import Mathlib.Analysis.SpecialFunctions.Gamma.Basic

/-!
# Textbook mass functions on the integers

Written from the mathematical definitions, independently of the formulas in `Model/`.
-/

namespace Verif
open MeasureTheory

/-- Extend a mass function on `ℕ` to `ℤ` by zero. -/
def onNat (f : ℕ → ℝ) (k : ℤ) : ℝ := if 0 ≤ k then f k.toNat else 0

/-- `Binomial(n, p)`. -/
def binomialMass (n : ℕ) (p : ℝ) (k : ℕ) : ℝ :=
  if k ≤ n then (n.choose k : ℝ) * p ^ k * (1 - p) ^ (n - k) else 0

/-- `Bernoulli(p)`: success is `1`. -/
def bernoulliMass (p : ℝ) : ℕ → ℝ
  | 0 => 1 - p
  | 1 => p
  | _ => 0

/-- Beta-binomial: the average of the binomial mass over a Beta-distributed success probability. -/
noncomputable def betaBinomialMass (n : ℕ) (α β : ℝ) (k : ℕ) : ℝ :=
  ∫ x, binomialMass n x k ∂(ProbabilityTheory.betaMeasure α β)

/-- `Poisson(μ)`. -/
noncomputable def poissonMass (μ : ℝ) (k : ℕ) : ℝ := Real.exp (-μ) * μ ^ k / k.factorial

/-- Number of trials up to and including the first success. -/
def geometricMass (p : ℝ) : ℕ → ℝ
  | 0 => 0
  | k + 1 => (1 - p) ^ k * p

/-- Number of failures before the `n`-th success, by summing over the failures before the `n-1`-th success. -/
def failureMass (p : ℝ) : ℕ → ℕ → ℝ
  | 0, k => if k = 0 then 1 else 0
  | n + 1, k => ∑ j ∈ Finset.range (k + 1), failureMass p n j * ((1 - p) ^ (k - j) * p)

/-- The negative-binomial mass for a real number `n` of successes. -/
noncomputable def negBinomialMass (n p : ℝ) (k : ℕ) : ℝ :=
  Real.Gamma (k + n) / (Real.Gamma n * k.factorial) * p ^ n * (1 - p) ^ k

/-- Hypergeometric: `k` good ones among `n` drawn from `good + bad`. -/
noncomputable def hypergeometricMass (good bad n : ℕ) (k : ℕ) : ℝ :=
  if k ≤ n then (good.choose k : ℝ) * bad.choose (n - k) / (good + bad).choose n else 0

end Verif
