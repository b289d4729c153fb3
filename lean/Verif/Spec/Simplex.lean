import Verif.Model.FVal
import Mathlib.Analysis.Calculus.FDeriv.Basic
import Mathlib.Analysis.Normed.Module.FiniteDimension

/-! # Vectors and the open probability simplex -/

namespace Verif

/-- A real vector as the list of its floats. -/
def vec {n : ℕ} (y : Fin n → ℝ) : List FVal := List.ofFn fun i => .fin (y i)

/-- The open probability simplex. -/
def openSimplex (N : ℕ) : Set (Fin N → ℝ) := {x | (∀ i, 0 < x i) ∧ ∑ i, x i = 1}

/-- The real numbers in a list of floats. -/
noncomputable def coords (n : ℕ) (l : List FVal) : Fin n → ℝ := fun i =>
  match l[i.val]? with
  | some (.fin x) => x
  | _ => 0

end Verif
