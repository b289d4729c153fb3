import Verif.Model.PrintNumber
import Mathlib.Algebra.Order.Field.Rat
import Mathlib.Algebra.Order.Field.Power
import Mathlib.Algebra.Order.AbsoluteValue.Basic

/-! # Values of printed numbers -/

namespace Verif.Number

/-- The value of a decimal number. -/
def Dec.value (d : Dec) : ℚ := (if d.neg then -1 else 1) * (d.m * (10 : ℚ) ^ d.k)

/-- `x` is a number with at most six significant digits. -/
def SixDigits (x : ℚ) : Prop := ∃ a j : ℤ, |a| < 1000000 ∧ x = a * (10 : ℚ) ^ j

end Verif.Number
