import Verif.Model.Dists

/-! # Sums of normal variables (`/repo/aeppl/convolutions.py`) -/

namespace Verif
open FVal

/-- An input of the addition or subtraction node: an unvalued `NormalRV` (which variable it is, its mean and standard deviation), or
anything else.  One element of the arrays: the `size` of the new variable (lines 25-27) does not enter its log-probability. -/
inductive SumInput
  | normal (id : ℕ) (mu sigma : FVal)
  | other

/-- convolutions.py:29-30 the parameters of the inputs; `none` unless all are normal variables (line 22). -/
def normalParams : List SumInput → Option (List (FVal × FVal))
  | [] => some []
  | .normal _ mu sigma :: l => (normalParams l).map ((mu, sigma) :: ·)
  | .other :: _ => none

/-- `at.add(*xs)`, on at least one input. -/
noncomputable def addAll : List FVal → FVal
  | [] => 0
  | x :: l => l.foldl (· + ·) x

/-- `at.sub(*xs)`: the scalar operator takes exactly two inputs. -/
noncomputable def subAll : List FVal → Except Err FVal
  | [x, y] => .ok (x - y)
  | _ => .error .typeError

/-- convolutions.py:8-48 `add_independent_normals`: mean and standard deviation of the new variable; `none` when the node is left alone. -/
noncomputable def addIndependentNormals (sub : Bool) (inputs : List SumInput) : Option (Except Err (FVal × FVal)) :=
  if inputs.length < 2 then none
  else
    match normalParams inputs with
    | none => none
    | some ps =>
      let means := ps.map Prod.fst
      let covs := ps.map fun p => sq p.2
      some (do
        let mu ← if !sub then .ok (addAll means) else subAll means
        return (mu, sqrt (addAll covs)))

/-- The log-probability of the node after the rewrite (logprob.py:156-166 at the new variable's parameters); `none`: not derived here. -/
noncomputable def sumNormalsLogprob (sub : Bool) (inputs : List SumInput) (value : FVal) : Option (Except Err FVal) :=
  (addIndependentNormals sub inputs).map fun r => do
    let p ← r
    normalLogprob value p.1 p.2

end Verif
