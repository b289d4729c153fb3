import Verif.Model.FVal

/-! # Parameter domains, in terms of real numbers -/

namespace Verif
open FVal

/-- `x > 0`: a positive number or `+inf` (never NaN). -/
def Pos (x : FVal) : Prop := x = pinf ∨ ∃ r : ℝ, 0 < r ∧ x = fin r

/-- `x >= 0`. -/
def NonNeg (x : FVal) : Prop := x = pinf ∨ ∃ r : ℝ, 0 ≤ r ∧ x = fin r

/-- `0 <= x <= 1`. -/
def InUnit (x : FVal) : Prop := ∃ r : ℝ, 0 ≤ r ∧ r ≤ 1 ∧ x = fin r

/-- `x <= y`: neither is NaN and they are ordered in the extended reals. -/
def Ordered (x y : FVal) : Prop :=
  (x = ninf ∧ y ≠ nan) ∨ (y = pinf ∧ x ≠ nan) ∨ ∃ r s : ℝ, r ≤ s ∧ x = fin r ∧ y = fin s

/-- The outcome is a result when `valid` holds and a `ParameterValueError` when it does not. -/
def Checks (r : Except Err FVal) (valid : Prop) : Prop :=
  (valid → ∃ v, r = .ok v) ∧ (¬ valid → r = .error .parameterValue)

end Verif
