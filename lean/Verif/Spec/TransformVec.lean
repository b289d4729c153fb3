import Verif.Spec.Transform
import Verif.Spec.MvDensity

/-! # Log-densities of vectors, on the set of their values -/

namespace Verif
open MeasureTheory

/-- `lp` is the log-density on `R` of the law `ν` of a vector: on `R` it does not raise and is not NaN, events inside `R` get their probability, and `ν` has no mass outside `R`. -/
structure IsLogDensityVOn {n : ℕ} (lp : (Fin n → ℝ) → Except Err FVal) (R : Set (Fin n → ℝ)) (ν : Measure (Fin n → ℝ)) : Prop where
  clean : ∀ y ∈ R, Clean (lp y)
  law : ∀ s ⊆ R, MeasurableSet s → ∫⁻ y in s, dens (lp y) = ν s
  null : ν Rᶜ = 0

/-- The vector with the given entries. -/
def finVec {n : ℕ} (y : Fin n → ℝ) (i : Fin n) : FVal := .fin (y i)

end Verif
