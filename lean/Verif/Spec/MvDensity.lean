import Verif.Spec.Density
import Mathlib.MeasureTheory.Constructions.Pi

/-! # Log-densities of vector-valued laws -/

namespace Verif
open MeasureTheory

/-- `lp` is a log-density, with respect to Lebesgue measure on `ℝⁿ`, of the law `μ`. -/
structure IsLogDensityV {n : ℕ} (lp : (Fin n → ℝ) → Except Err FVal) (μ : Measure (Fin n → ℝ)) : Prop where
  clean : ∀ x, Clean (lp x)
  law : ∀ s, MeasurableSet s → ∫⁻ x in s, dens (lp x) = μ s

end Verif
