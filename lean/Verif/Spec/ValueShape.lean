import Verif.Spec.ArrGraph

/-! # Shapes of draws and pieces of values -/

namespace Verif.ArrGraph
open Verif

/-- A random array drawn with this `size` (empty: not given) and these parameters has shape `s`. -/
def DrawsShape (size : List ℕ) (params : List (Arr FVal)) (s : List ℕ) : Prop :=
  Fit s params ∧ (size = s ∨ size = [] ∧ bshape (params.map Arr.shape) = some s)

/-- `v[i]`. -/
def rowOf (v : Arr FVal) (i : ℕ) : Arr FVal := ⟨v.shape.tail, fun c => v.get (i :: c)⟩

end Verif.ArrGraph
