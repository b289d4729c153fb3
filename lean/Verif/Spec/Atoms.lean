import Verif.Spec.Elemwise
import Mathlib.MeasureTheory.Measure.Count

/-! # Log-densities with respect to a reference measure other than Lebesgue measure -/

namespace Verif
open MeasureTheory ENNReal

/-- `lp` is the log-density on `R` of the law `ν`, with respect to `ref`. -/
structure IsLogDensityWrt (ref : Measure ℝ) (lp : ℝ → Except Err FVal) (R : Set ℝ) (ν : Measure ℝ) : Prop where
  clean : ∀ y ∈ R, Clean (lp y)
  law : ∀ s ⊆ R, MeasurableSet s → ∫⁻ y in s, dens (lp y) ∂ref = ν s
  null : ν Rᶜ = 0

/-- A unit atom at each point of `S`. -/
noncomputable def atomsOn (S : Set ℝ) : Measure ℝ := Measure.count.restrict S

/-- A reference measure with a unit atom at each point of `S`, and Lebesgue measure if the variable also has a continuous part. -/
noncomputable def mixedRef (continuous : Bool) (S : Set ℝ) : Measure ℝ := (if continuous then volume else 0) + atomsOn S

/-- The values at which a clipped variable has atoms. -/
def boundSet (lo hi : Option ℝ) : Set ℝ := {a | lo = some a ∨ hi = some a}

/-- The integers, as real numbers. -/
def integers : Set ℝ := Set.range ((↑) : ℤ → ℝ)

/-- The integers with positive mass. -/
def massSupport (q : ℤ → ℝ) : Set ℝ := {x | ∃ k : ℤ, 0 < q k ∧ x = k}

/-- The law with mass `q k` at `k`. -/
noncomputable def massLaw (q : ℤ → ℝ) : Measure ℝ := Measure.sum fun k : ℤ => ENNReal.ofReal (q k) • Measure.dirac (k : ℝ)

/-- Nodes whose function has slope `1` or `-1` everywhere: sums with constants, and differences. -/
inductive UnitSlope : ElemNode → Prop
  | add {l : List Arg} : OneOf (fun _ => True) l → 2 ≤ l.length → UnitSlope (.add l)
  | sub (a : ℝ) : UnitSlope (.sub .meas (.other (.fin a)))
  | rsub (a : ℝ) : UnitSlope (.sub (.other (.fin a)) .meas)

end Verif
