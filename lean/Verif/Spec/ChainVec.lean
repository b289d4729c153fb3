import Verif.Model.ChainVec
import Verif.Spec.Simplex
import Mathlib.Analysis.Calculus.FDeriv.Basic

/-! # What value transforms of vectors should do, stated through their three methods -/

namespace Verif

/-- `forward` maps `D` into `R`, `backward` maps `R` into `D`, and they invert each other.  The lengths may differ. -/
structure VInverts (t : VecTransform) {m n : ℕ} (D : Set (Fin m → ℝ)) (R : Set (Fin n → ℝ)) : Prop where
  fwd : ∀ x ∈ D, ∃ y ∈ R, t.forward (vec x) = vec y ∧ t.backward (vec y) = vec x
  bwd : ∀ y ∈ R, ∃ x ∈ D, t.backward (vec y) = vec x ∧ t.forward (vec x) = vec y

/-- Transforms of vectors applied one after the other: each maps its domain onto the domain of the next. -/
inductive VStages : List VecTransform → {m n : ℕ} → Set (Fin m → ℝ) → Set (Fin n → ℝ) → Prop
  | nil {n : ℕ} (D : Set (Fin n → ℝ)) : VStages [] D D
  | cons {t ts} {m k n : ℕ} {D : Set (Fin m → ℝ)} {M : Set (Fin k → ℝ)} {R : Set (Fin n → ℝ)} : VInverts t D M → VStages ts M R → VStages (t :: ts) D R

/-- `log_jac_det` is the single number that is the logarithm of the absolute determinant of the derivative of the first coordinates of
`backward`, as many as there are unconstrained coordinates. -/
def VLogJac (t : VecTransform) {n : ℕ} (R : Set (Fin n → ℝ)) : Prop :=
  ∀ y ∈ R, ∃ L : (Fin n → ℝ) →L[ℝ] (Fin n → ℝ), HasFDerivAt (fun y => coords n (t.backward (vec y))) L y ∧ L.det ≠ 0 ∧
    t.logJacDet (vec y) = .sc (.fin (Real.log |L.det|))

/-- Vectors with all entries in a set. -/
def allIn (n : ℕ) (D : Set ℝ) : Set (Fin n → ℝ) := {x | ∀ i, x i ∈ D}

end Verif
