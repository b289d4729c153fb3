import Verif.Model.VecDists
import Verif.Model.Transforms

/-! # The simplex transform (`/repo/aeppl/transforms.py:744-766`), on one vector (`axis=-1` of an array) -/

namespace Verif
open FVal

/-- Maximum of two floats, propagating NaN. -/
noncomputable def FVal.max2 (a b : FVal) : FVal :=
  match a, b with
  | nan, _ => nan
  | _, nan => nan
  | a, b => switch (le a b) b a

/-- `at.max(value, -1)`; the vector is not empty where it is used. -/
noncomputable def fmax : List FVal → FVal
  | [] => nan
  | [a] => a
  | a :: b :: l => FVal.max2 a (fmax (b :: l))

/-- transforms.py:747-750 `SimplexTransform.forward`. -/
noncomputable def simplexForward (value : List FVal) : List FVal :=
  let log_value := value.map FVal.log
  let shift := fsum log_value / fin (value.length : ℝ)
  log_value.dropLast.map (· - shift)

/-- transforms.py:752-755 `SimplexTransform.backward`. -/
noncomputable def simplexBackward (value : List FVal) : List FVal :=
  let value := value ++ [-fsum value]
  let exp_value_max := value.map fun v => FVal.exp (v - fmax value)
  exp_value_max.map (· / fsum exp_value_max)

/-- transforms.py:757-766 `SimplexTransform.log_jac_det`; `logsumexp x = log (sum (exp x))`. -/
noncomputable def simplexLogJacDet (value : List FVal) : FVal :=
  let N : FVal := fin ((value.length : ℝ) + 1)
  let sum_value := fsum value
  let value_sum_expanded := value.map (· + sum_value) ++ [fin 0]
  let logsumexp_value_expanded := FVal.log (fsum (value_sum_expanded.map FVal.exp))
  FVal.log N + N * sum_value - N * logsumexp_value_expanded

end Verif
