import Mathlib.Probability.Distributions.Gaussian.Real
import Mathlib.Probability.Distributions.Gamma
import Mathlib.Analysis.SpecialFunctions.Trigonometric.Basic

/-!
# Textbook densities and mass functions used as specifications

Written from the mathematical definitions, independently of the formulas in `Model/`.
-/

namespace Verif
open MeasureTheory ENNReal

/-- Inverse-Gaussian (Wald) density with mean `μ` and shape `l` at `x > 0`. -/
noncomputable def waldPDF (μ l x : ℝ) : ℝ :=
  Real.sqrt (l / (2 * Real.pi * x ^ 3)) * Real.exp (-(l * (x - μ) ^ 2) / (2 * μ ^ 2 * x))

/-- The inverse-Gaussian law: density `waldPDF` on the positive half line. -/
noncomputable def waldMeasure (μ l : ℝ) : Measure ℝ :=
  (volume.restrict (Set.Ioi 0)).withDensity fun x => ENNReal.ofReal (waldPDF μ l x)

/-- Unnormalised von Mises weight on `[-π, π]`. -/
noncomputable def vonMisesWeight (μ κ : ℝ) : Measure ℝ :=
  (volume.restrict (Set.Icc (-Real.pi) Real.pi)).withDensity fun x => ENNReal.ofReal (Real.exp (κ * Real.cos (x - μ)))

/-- The von Mises law: the weight normalised to total mass one. -/
noncomputable def vonMisesMeasure (μ κ : ℝ) : Measure ℝ :=
  (vonMisesWeight μ κ Set.univ)⁻¹ • vonMisesWeight μ κ

/-- The triangular law on `[a, b]` with mode `c`, by its distribution function. -/
noncomputable def triangularCDF (a c b x : ℝ) : ℝ :=
  if x ≤ a then 0
  else if x ≤ c then (x - a) ^ 2 / ((b - a) * (c - a))
  else if x < b then 1 - (b - x) ^ 2 / ((b - a) * (b - c))
  else 1

end Verif
