import Verif.Model.Elemwise
import Verif.Model.Indices
import Verif.Model.MixtureArray

/-!
# Elementwise functions of array variables (`/repo/aeppl/transforms.py:345-383`, `600-673`)

The transforms of `Model/Transforms.lean` on arrays, with NumPy broadcasting between the value, the parameter of the transform and the
log-probability of the variable below.
-/

namespace Verif
open FVal

/-- A binary elementwise operation: the shapes are broadcast, incompatible shapes raise. -/
def Arr.op2 {α β γ : Type} (f : α → β → γ) (a : Arr α) (b : Arr β) : Except Err (Arr γ) :=
  match bshape [a.shape, b.shape] with
  | none => .error .valueError
  | some s => .ok ⟨s, fun c => f (a.get (project c a.shape)) (b.get (project c b.shape))⟩

/-- The transforms that `measurable_add`, `measurable_mul`, `measurable_exp`, `measurable_log` and `measurable_reciprocal` put into a
`MeasurableElemwiseTransform` (transforms.py:436-504); the parameter is an array.  Simplification: the sum or product of several other
inputs (transforms.py:467, 487) is already computed. -/
inductive ArrTransform
  | loc (a : Arr FVal)
  | scale (a : Arr FVal)
  | exp
  | log
  | reciprocal

namespace ArrTransform

/-- The methods `backward` (transforms.py:610-612, 628-630, 643-644, 656-657, 669-670). -/
noncomputable def backward (t : ArrTransform) (value : Arr FVal) : Except Err (Arr FVal) :=
  match t with
  | .loc a => value.op2 (· - ·) a
  | .scale a => value.op2 (· / ·) a
  | .exp => .ok (value.map FVal.log)
  | .log => .ok (value.map FVal.exp)
  | .reciprocal => .ok (value.map FVal.reciprocal)

/-- The methods `log_jac_det` (transforms.py:614-615, 632-634, 646-647, 659-660, 672-673): `at.zeros_like(value)` has the shape of the
value, `-at.log(at.abs(scale))` the shape of the scale. -/
noncomputable def logJacDet (t : ArrTransform) (value : Arr FVal) : Arr FVal :=
  match t with
  | .loc _ => value.map fun _ => 0
  | .scale a => a.map fun x => -FVal.log (FVal.abs x)
  | .exp => value.map fun v => -FVal.log v
  | .log => value
  | .reciprocal => value.map fun v => -2 * FVal.log v

end ArrTransform

/-- transforms.py:366-383 `measurable_elemwise_logprob` on arrays; `lp` is `logprob(measurable_input, ·)`. -/
noncomputable def arrayElemwiseLogprob (t : ArrTransform) (lp : Arr FVal → Except Err (Arr FVal)) (value : Arr FVal) : Except Err (Arr FVal) := do
  let backward_value ← t.backward value
  let input_logprob ← lp backward_value
  input_logprob.op2 (· + ·) (t.logJacDet value)

/-- Nested measurable elementwise nodes, innermost first. -/
noncomputable def arrayLayersLogprob (layers : List ArrTransform) (lp : Arr FVal → Except Err (Arr FVal)) : Arr FVal → Except Err (Arr FVal) :=
  layers.foldl (fun lp t => arrayElemwiseLogprob t lp) lp

/-- `logprob` of a vector-valued variable with `ndim_supp = 1` (logprob.py:580-628): one number for the whole vector, as an array without axes.
Simplification: the entries of the value are real numbers (other entries are read as zero). -/
noncomputable def eventLogprob {n : ℕ} (lp : (Fin n → ℝ) → Except Err FVal) (value : Arr FVal) : Except Err (Arr FVal) := do
  let l ← lp fun i => match value.get [i] with | .fin x => x | _ => 0
  return ⟨[], fun _ => l⟩

end Verif
