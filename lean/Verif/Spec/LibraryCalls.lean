import Verif.Spec.Library

/-! # Quantiles, and graphs with an owner -/

namespace Verif.Library
open Verif MeasureTheory Set

/-- The `q`-quantile of a law: the least number that is not exceeded with probability `q`. -/
def IsQuantile (μ : Measure ℝ) (q x : ℝ) : Prop := IsLeast {y | ENNReal.ofReal q ≤ μ (Iic y)} x

/-- Variables that are the output of an operation; inputs and constants are not. -/
def HasOwner : Full.Expr Lib → Prop
  | .const _ => False
  | .inp _ => False
  | _ => True

end Verif.Library
