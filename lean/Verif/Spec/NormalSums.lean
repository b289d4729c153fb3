import Mathlib.Data.Real.Basic
import Mathlib.Algebra.BigOperators.Fin

/-! # Sums and differences of the entries of a vector -/

namespace Verif

/-- A sum, or a difference, of some of `n` numbers (a number may occur more than once). -/
inductive SumRow (n : ℕ)
  | sum (ids : List (Fin n))
  | diff (a b : Fin n)

/-- Its value. -/
def SumRow.draw {n : ℕ} : SumRow n → (Fin n → ℝ) → ℝ
  | .sum ids, x => (ids.map x).sum
  | .diff a b, x => x a - x b

/-- The factor of entry `i`. -/
def SumRow.weight {n : ℕ} : SumRow n → Fin n → ℝ
  | .sum ids, i => ids.count i
  | .diff a b, i => (if i = a then 1 else 0) - if i = b then 1 else 0

/-- The entries it mentions. -/
def SumRow.mem {n : ℕ} : SumRow n → List (Fin n)
  | .sum ids => ids
  | .diff a b => [a, b]

/-- The covariance of two of them, when the entries are independent with standard deviations `σ`. -/
def SumRow.cov {n : ℕ} (σ : Fin n → ℝ) (r s : SumRow n) : ℝ := ∑ i, r.weight i * s.weight i * σ i ^ 2

end Verif
