import Verif.Model.Nd
import Verif.Model.FVal
import Mathlib.Data.Real.Basic

/-! # Vectors as arrays -/

namespace Verif

/-- A vector of reals as an array with one axis. -/
noncomputable def vecArr {n : ℕ} (z : Fin n → ℝ) : Arr FVal := ⟨[n], fun c => if h : c.headD 0 < n then .fin (z ⟨c.headD 0, h⟩) else .nan⟩

/-- A vector of indices as an array with one axis. -/
def idxArr {n : ℕ} (I : Fin n → ℕ) : Arr ℤ := ⟨[n], fun c => if h : c.headD 0 < n then (I ⟨c.headD 0, h⟩ : ℤ) else 0⟩

end Verif
