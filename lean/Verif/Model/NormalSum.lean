import Verif.Model.ArrGraph
import Verif.Model.Convolutions
import Verif.Model.ElemwiseArray
import Verif.Model.ArrCategorical

/-! # Sums of arrays of normal variables (`/repo/aeppl/convolutions.py`) -/

namespace Verif.ArrGraph
open Verif

/-- An input of the addition or subtraction node: an unvalued `NormalRV` with its `size` (empty when it was not given, convolutions.py:26) and parameters, or anything else. -/
inductive ArrSumInput
  | normal (size : List ℕ) (mu sigma : Arr FVal)
  | other

/-- Number of dimensions of an input that is a normal variable. -/
def sumInputDims : ArrSumInput → ℕ
  | .normal size mu sigma => if size.isEmpty then max mu.ndim sigma.ndim else size.length
  | .other => 0

/-- `Elemwise.make_node` (`aesara`, external) puts a `DimShuffle` that adds axes in front of inputs with fewer dimensions than the others, and `local_dimshuffle_rv_lift` (external, registered at
tensor.py:196-198) moves it to the size and the parameters of the normal variable.  Simplification: the variable has no other use in the graph (otherwise it is not moved and the rewrite declines). -/
def alignInput (n : ℕ) : ArrSumInput → ArrSumInput
  | .normal size mu sigma =>
    if sumInputDims (.normal size mu sigma) = n then .normal size mu sigma
    else .normal (if size.isEmpty then [] else List.replicate (n - size.length) 1 ++ size) (padLeft (n - mu.ndim) mu) (padLeft (n - sigma.ndim) sigma)
  | .other => .other

/-- The inputs of the node when the rewrite is applied. -/
def alignInputs (inputs : List ArrSumInput) : List ArrSumInput := inputs.map (alignInput ((inputs.map sumInputDims).foldr max 0))

/-- convolutions.py:22: the inputs, provided that all are normal variables. -/
def normalArrays : List ArrSumInput → Option (List (List ℕ × Arr FVal × Arr FVal))
  | [] => some []
  | .normal size mu sigma :: l => (normalArrays l).map ((size, mu, sigma) :: ·)
  | .other :: _ => none

/-- An elementwise operation on any number of arrays (`aesara`, external): the shapes are broadcast, incompatible shapes raise. -/
def elemwiseN (f : List FVal → FVal) (as : List (Arr FVal)) : Except Err (Arr FVal) :=
  match bshape (as.map Arr.shape) with
  | none => .error .valueError
  | some s => .ok ⟨s, fun c => f (as.map fun a => a.get (project c a.shape))⟩

/-- `at.sub`: the scalar operator takes exactly two inputs. -/
noncomputable def subArrays (as : List (Arr FVal)) : Except Err (Arr FVal) :=
  match as with
  | [x, y] => x.op2 (fun a b => a - b) y
  | _ => .error .typeError

/-- `at.broadcast_shape(*shapes, arrays_are_shapes=True)` (external). -/
def broadcastShapes (shapes : List (List ℕ)) : Except Err (List ℕ) :=
  match bshape shapes with
  | some s => .ok s
  | none => .error .valueError

/-- `RandomVariable.make_node` (external): a size that was given must have at least as many entries as the parameters have dimensions. -/
def sizeAllows (size : List ℕ) (params : List (Arr FVal)) : Bool := size.isEmpty || params.all fun p => decide (p.ndim ≤ size.length)

/-- convolutions.py:8-48 `add_independent_normals` on arrays: mean and standard deviation of the new variable; `none` when the node is left alone.  Simplification: an exception in the rewrite, which
`aesara` reports and ignores, is the result. -/
noncomputable def addNormalArrays (sub : Bool) (inputs : List ArrSumInput) : Option (Except Err (Arr FVal × Arr FVal)) :=
  if inputs.length < 2 then none
  else
    match normalArrays inputs with
    | none => none
    | some ps =>
      let means := ps.map fun p => p.2.1
      let covs := ps.map fun p => p.2.2.map FVal.sq
      some (do
        let new_size ← broadcastShapes (ps.map Prod.fst)
        let mu ← if !sub then elemwiseN addAll means else subArrays means
        let cov ← elemwiseN addAll covs
        let sigma := cov.map FVal.sqrt
        if sizeAllows new_size [mu, sigma] then .ok (mu, sigma) else .error .valueError)

/-- logprob.py:156-166 `normal_logprob`, one entry. -/
noncomputable def normalEntry : FVal → List FVal → Except Err FVal
  | x, [m, s] => normalLogprob x m s
  | _, _ => .error .typeError

/-- The log-probability of the sum or difference of the inputs after the rewrites. -/
noncomputable def sumArraysLogprob (sub : Bool) (inputs : List ArrSumInput) (value : Arr FVal) : Except Err (Arr FVal) :=
  match addNormalArrays sub (alignInputs inputs) with
  | none => .error .densityNotFound
  | some (.error e) => .error e
  | some (.ok (mu, sigma)) => elemwiseLogprob normalEntry value [mu, sigma]

end Verif.ArrGraph
