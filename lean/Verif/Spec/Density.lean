import Verif.Model.FVal
import Mathlib.MeasureTheory.Measure.WithDensity
import Mathlib.MeasureTheory.Measure.Lebesgue.Basic
import Mathlib.Topology.Algebra.InfiniteSum.ENNReal

/-!
# What it means for a log-probability function to describe a law

These definitions only mention the *result type* of a log-probability evaluation (`Except Err FVal`), never its formula.
-/

namespace Verif
open MeasureTheory ENNReal

/-- `exp` of a log-probability as a density value. -/
noncomputable def FVal.toDens : FVal → ℝ≥0∞
  | .nan => 0
  | .ninf => 0
  | .pinf => ⊤
  | .fin x => ENNReal.ofReal (Real.exp x)

/-- `exp` of the outcome of an evaluation; an exception has density `0` (the specs below exclude exceptions). -/
noncomputable def dens : Except Err FVal → ℝ≥0∞
  | .ok v => v.toDens
  | .error _ => 0

/-- The evaluation neither raises nor gives NaN. -/
def Clean (r : Except Err FVal) : Prop := ∃ v, r = .ok v ∧ v ≠ FVal.nan

/-- `lp` is a log-density, with respect to Lebesgue measure, of the law `μ` of a real random variable:
it never raises, is never NaN, and `exp lp` integrates to `μ` on every event. -/
structure IsLogDensity (lp : ℝ → Except Err FVal) (μ : Measure ℝ) : Prop where
  clean : ∀ x, Clean (lp x)
  law : ∀ s, MeasurableSet s → ∫⁻ x in s, dens (lp x) = μ s

/-- `lp` is the log-mass function of `q`: it never raises, is never NaN, and `exp lp = q` at every integer. -/
structure IsLogMass (lp : ℤ → Except Err FVal) (q : ℤ → ℝ) : Prop where
  clean : ∀ k, Clean (lp k)
  mass : ∀ k, dens (lp k) = ENNReal.ofReal (q k)
  total : HasSum q 1

/-- `-inf` at `x`. -/
def IsNegInf (r : Except Err FVal) : Prop := r = .ok FVal.ninf

end Verif
