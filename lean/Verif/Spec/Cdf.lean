import Verif.Spec.Density

/-! # What it means for a log-CDF function to describe a law -/

namespace Verif
open MeasureTheory ENNReal

/-- `lc` is the log-CDF of the law `μ`: never raises, never NaN, `exp (lc v) = μ (-∞, v]`. -/
structure IsLogCdf (lc : ℝ → Except Err FVal) (μ : Measure ℝ) : Prop where
  clean : ∀ v, Clean (lc v)
  cdf : ∀ v, dens (lc v) = μ (Set.Iic v)

open Classical in
/-- `lc v`, at a real `v`, is the log of the masses `exp (lp k)` of the integers `k ≤ v` added up. -/
def IsLogSum (lc : Except Err FVal) (lp : ℤ → Except Err FVal) (v : ℝ) : Prop :=
  Clean lc ∧ dens lc = ∑' k : ℤ, if (k : ℝ) ≤ v then dens (lp k) else 0

/-- `P(X ≤ k)` for the mass function `q`. -/
noncomputable def cdfOfMass (q : ℤ → ℝ) (k : ℤ) : ℝ := ∑' j : ℤ, if j ≤ k then q j else 0

end Verif
