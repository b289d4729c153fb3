import Verif.Spec.Density
import Mathlib.Probability.Distributions.Gamma
import Mathlib.MeasureTheory.Constructions.Pi

/-! # The Dirichlet law (C38) -/

namespace Verif
open MeasureTheory ProbabilityTheory

/-- `Dirichlet(α)`: independent `Gamma(αᵢ, 1)` variables divided by their sum. -/
noncomputable def dirichletLaw {n : ℕ} (α : Fin n → ℝ) : Measure (Fin n → ℝ) :=
  (Measure.pi fun i => gammaMeasure (α i) 1).map fun g i => g i / ∑ j, g j

/-- The vector with entries `y` after the first one and sum one. -/
def simplexPoint {m : ℕ} (y : Fin m → ℝ) : Fin (m + 1) → ℝ := Fin.cons (1 - ∑ j, y j) y

/-- `lp` is a log-density of `μ` on the vectors with sum one: with respect to Lebesgue measure of the coordinates after the first
(the first is determined by them). -/
structure IsLogDensityS {m : ℕ} (lp : (Fin (m + 1) → ℝ) → Except Err FVal) (μ : Measure (Fin (m + 1) → ℝ)) : Prop where
  clean : ∀ x, Clean (lp x)
  law : ∀ s, MeasurableSet s → ∫⁻ y in simplexPoint ⁻¹' s, dens (lp (simplexPoint y)) = μ s

end Verif
