import Verif.Spec.ArrDerived
import Verif.Spec.Indices

/-! # Elements of arrays selected by an index -/

namespace Verif.ArrGraph
open Verif MeasureTheory

/-- The entries `es` of an index stand for `idx` when the arrays among the inputs of the indexing node are `as`: the arrays of integers take the places left for them, in order. -/
inductive Filled : List IndexEntry → List (Arr FVal) → List Index → Prop
  | nil : Filled [] [] []
  | fixed {es as idx} (i : Index) : Filled es as idx → Filled (.fixed i :: es) as (i :: idx)
  | given {es as idx} (z : Arr ℤ) : Filled es as idx → Filled (.given :: es) (z.map (fun i : ℤ => FVal.fin i) :: as) (.adv z :: idx)

/-- The numbers that `R` selects from an array of shape `S` with entries `x`. -/
def selected (S : List ℕ) (R : Arr (List ℕ)) (x : Fin (entries S) → ℝ) (j : Fin (entries R.shape)) : ℝ := (reals S x).get (R.get (coord j))

/-- No element is selected twice. -/
def SelectsOnce (R : Arr (List ℕ)) : Prop := ∀ c c', InRange c R.shape → InRange c' R.shape → R.get c = R.get c' → c = c'

/-- Neither is an element selected twice by one of several indices, nor do two of them select the same element. -/
def Disjointly {K : ℕ} (R : Fin K → Arr (List ℕ)) : Prop := ∀ k k' c c', InRange c (R k).shape → InRange c' (R k').shape → (R k).get c = (R k').get c' → k = k' ∧ c = c'

end Verif.ArrGraph
