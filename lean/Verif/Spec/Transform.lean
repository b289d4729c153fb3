import Verif.Model.Transforms
import Verif.Spec.Density
import Mathlib.Analysis.Calculus.Deriv.Basic

/-!
# What value transforms should do, stated through their three methods

`D` is the constrained domain, `R` the range of `forward` on it; real numbers go in, real numbers come out.
-/

namespace Verif
open MeasureTheory ENNReal

/-- The real number an evaluation gives; only meaningful where it gives a finite number. -/
def realOf : Except Err FVal → ℝ
  | .ok (.fin x) => x
  | _ => 0

/-- `forward` maps `D` into `R`, `backward` maps `R` into `D`, and they invert each other. -/
structure Inverts (t : RVTransform) (D R : Set ℝ) : Prop where
  fwd : ∀ x ∈ D, ∃ y ∈ R, t.forward (.fin x) = .ok (.fin y) ∧ t.backward (.fin y) = .ok (.fin x)
  bwd : ∀ y ∈ R, ∃ x ∈ D, t.backward (.fin y) = .ok (.fin x) ∧ t.forward (.fin x) = .ok (.fin y)

/-- `log_jac_det` is the logarithm of the absolute derivative of `backward` on `R`. -/
def LogJac (t : RVTransform) (R : Set ℝ) : Prop :=
  ∀ y ∈ R, ∃ d, HasDerivAt (fun y => realOf (t.backward (.fin y))) d y ∧ d ≠ 0 ∧ t.logJacDet (.fin y) = .ok (.fin (Real.log |d|))

/-- Transforms applied one after the other: each maps its domain onto the domain of the next. -/
inductive Stages : List RVTransform → Set ℝ → Set ℝ → Prop
  | nil (D : Set ℝ) : Stages [] D D
  | cons {t ts D M R} : Inverts t D M → Stages ts M R → Stages (t :: ts) D R

/-- As `Stages`, with correct Jacobian terms on open ranges. -/
inductive SmoothStages : List RVTransform → Set ℝ → Set ℝ → Prop
  | nil {D : Set ℝ} : IsOpen D → SmoothStages [] D D
  | cons {t ts D M R} : Inverts t D M → IsOpen M → LogJac t M → SmoothStages ts M R → SmoothStages (t :: ts) D R

/-- `lp` is the log-density on `R` of the law `ν`: on `R` it does not raise and is not NaN, events inside `R` get their probability,
and `ν` has no mass outside `R`. -/
structure IsLogDensityOn (lp : ℝ → Except Err FVal) (R : Set ℝ) (ν : Measure ℝ) : Prop where
  clean : ∀ y ∈ R, Clean (lp y)
  law : ∀ s ⊆ R, MeasurableSet s → ∫⁻ y in s, dens (lp y) = ν s
  null : ν Rᶜ = 0

end Verif

namespace Verif
open Set

/-- Support of a distribution, read off its log-probability: the values with a finite log-probability. -/
def support (d : TransDist) (inputs : List FVal) : Set ℝ := {x | ∃ l, transDistLogprob d (.fin x) inputs = .ok (.fin l)}

/-- The default transform maps the interior of the support onto the real line and back. -/
def DefaultOk (d : TransDist) (inputs : List FVal) : Prop :=
  ∃ t, defaultTransform d inputs = .ok t ∧ Inverts t (interior (support d inputs)) univ

end Verif
