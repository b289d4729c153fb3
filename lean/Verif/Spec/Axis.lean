import Mathlib.Data.Nat.Notation
import Mathlib.Data.Int.Notation

/-! # Axes as NumPy reads them -/

namespace Verif

/-- In an array with `n` dimensions, `axis` is the dimension `a`, counted from the front or, if negative, from the end. -/
def AxisIs (axis : ℤ) (n a : ℕ) : Prop := a < n ∧ (axis = a ∨ axis = (a : ℤ) - n)

instance (axis : ℤ) (n a : ℕ) : Decidable (AxisIs axis n a) := by unfold AxisIs; infer_instance

end Verif
