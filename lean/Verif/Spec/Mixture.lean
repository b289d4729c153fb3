import Verif.Model.FVal

/-! # What indexing and `switch` mean for a mixture -/

namespace Verif

/-- NumPy's element `xs[k]`: position `k` from the start, or from the end for negative `k`; none if out of range. -/
def NpElem {α : Type*} (xs : List α) (k : ℤ) (x : α) : Prop :=
  (0 ≤ k ∧ xs[k.toNat]? = some x) ∨ (k < 0 ∧ 0 ≤ k + xs.length ∧ xs[(k + xs.length).toNat]? = some x)

/-- The branch `at.switch(cond, x, y)` takes: `x` if the condition is true (not zero). -/
def switchBranch {α : Type*} (cond : ℤ) (x y : α) : α := if cond ≠ 0 then x else y

end Verif
