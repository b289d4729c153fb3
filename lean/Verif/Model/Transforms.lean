import Verif.Model.Dists
import Mathlib.Analysis.SpecialFunctions.Complex.Arg

/-!
# Value transforms (`/repo/aeppl/transforms.py`), elementwise part

A transform object is modelled after its parameters have been read off the inputs (`transform_args_fn(*inputs)`, `args_fn(*inputs)`);
it acts on scalars because every transform here is elementwise (the simplex transform is in `Model/Simplex.lean`).
-/

namespace Verif
open FVal

/-- `at.sigmoid` = `at.expit`. -/
noncomputable def FVal.sigmoid : FVal → FVal
  | nan => nan
  | ninf => fin 0
  | pinf => fin 1
  | fin x => fin (1 / (1 + Real.exp (-x)))

/-- `at.softplus x = log1p (exp x)`. -/
noncomputable def FVal.softplus (x : FVal) : FVal := log1p (exp x)

/-- `at.sin`. -/
noncomputable def FVal.sin : FVal → FVal
  | fin x => fin (Real.sin x)
  | _ => nan

/-- `at.arctan2 y x` on finite arguments: the angle of the point `(x, y)`, in `(-π, π]`.  Simplification: `nan` for infinite arguments
(never reached: it is only applied to a sine and a cosine). -/
noncomputable def FVal.arctan2 : FVal → FVal → FVal
  | fin y, fin x => fin (Complex.arg ⟨x, y⟩)
  | _, _ => nan

/-- An `RVTransform` object (transforms.py:113-131): its three methods, each an expression that evaluates to a number or raises. -/
structure RVTransform where
  forward : FVal → Except Err FVal
  backward : FVal → Except Err FVal
  logJacDet : FVal → Except Err FVal

namespace RVTransform

/-- transforms.py:600-615 `LocTransform`. -/
noncomputable def loc (loc : FVal) : RVTransform where
  forward value := .ok (value + loc)
  backward value := .ok (value - loc)
  logJacDet _ := .ok 0

/-- transforms.py:618-634 `ScaleTransform`. -/
noncomputable def scale (scale : FVal) : RVTransform where
  forward value := .ok (value * scale)
  backward value := .ok (value / scale)
  logJacDet _ := .ok (-log (abs scale))

/-- transforms.py:637-647 `LogTransform`. -/
noncomputable def log : RVTransform where
  forward value := .ok (FVal.log value)
  backward value := .ok (FVal.exp value)
  logJacDet value := .ok value

/-- transforms.py:650-660 `ExpTransform`. -/
noncomputable def exp : RVTransform where
  forward value := .ok (FVal.exp value)
  backward value := .ok (FVal.log value)
  logJacDet value := .ok (-FVal.log value)

/-- transforms.py:663-673 `ReciprocalTransform`. -/
noncomputable def reciprocal : RVTransform where
  forward value := .ok (FVal.reciprocal value)
  backward value := .ok (FVal.reciprocal value)
  logJacDet value := .ok (-2 * FVal.log value)

/-- transforms.py:676-727 `IntervalTransform`; `a`, `b` are the results of `args_fn(*inputs)`. -/
noncomputable def interval (a b : Option FVal) : RVTransform where
  forward value :=
    match a, b with
    | some a, some b => .ok (FVal.log (value - a) - FVal.log (b - value))
    | some a, none => .ok (FVal.log (value - a))
    | none, some b => .ok (FVal.log (b - value))
    | none, none => .error .valueError
  backward value :=
    match a, b with
    | some a, some b =>
      let sigmoid_x := sigmoid value
      .ok (sigmoid_x * b + (1 - sigmoid_x) * a)
    | some a, none => .ok (FVal.exp value + a)
    | none, some b => .ok (b - FVal.exp value)
    | none, none => .error .valueError
  logJacDet value :=
    match a, b with
    | some a, some b =>
      let s := softplus (-value)
      .ok (FVal.log (b - a) - 2 * s - value)
    | none, none => .error .valueError
    | _, _ => .ok value

/-- transforms.py:730-741 `LogOddsTransform`. -/
noncomputable def logodds : RVTransform where
  backward value := .ok (sigmoid value)
  forward value := .ok (FVal.log (value / (1 - value)))
  logJacDet value :=
    let sigmoid_value := sigmoid value
    .ok (FVal.log sigmoid_value + log1p (-sigmoid_value))

/-- transforms.py:769-779 `CircularTransform`. -/
noncomputable def circular : RVTransform where
  backward value := .ok (arctan2 (sin value) (cos value))
  forward value := .ok value
  logJacDet _ := .ok 0

/-- One turn of the loop transforms.py:803-807: append this transform's determinant and back-transform the value. -/
def detStep (acc : List FVal × FVal) (t : RVTransform) : Except Err (List FVal × FVal) := do
  let det_ ← t.logJacDet acc.2
  let value ← t.backward acc.2
  return (acc.1 ++ [det_], value)

/-- transforms.py:782-815 `ChainedTransform`.  On scalars every determinant has the same number of dimensions as the value, so nothing is
summed over the last axis (arrays: `Model/ChainVec.lean`). -/
noncomputable def chained (transform_list : List RVTransform) : RVTransform where
  forward value := transform_list.foldlM (fun value t => t.forward value) value
  backward value := transform_list.reverse.foldlM (fun value t => t.backward value) value
  logJacDet value := do
    let r ← transform_list.reverse.foldlM detStep ([], value)
    return r.1.foldl (· + ·) 0

end RVTransform

/-- transforms.py:862-881 `transformed_logprob` with the back-transformed value of transforms.py:228-230: `lp` is the
log-probability of the base variable, `trans_val` the value in the transformed space. -/
noncomputable def transformedLogprob (t : RVTransform) (lp : FVal → Except Err FVal) (use_jacobian : Bool) (trans_val : FVal) : Except Err FVal := do
  let backward_val ← t.backward trans_val
  let logprob ← lp backward_val
  if use_jacobian then
    let jacobian ← t.logJacDet trans_val
    return logprob + jacobian
  else return logprob

/-- transforms.py:366-383 `measurable_elemwise_logprob`. -/
noncomputable def measurableElemwiseLogprob (t : RVTransform) (lp : FVal → Except Err FVal) (value : FVal) : Except Err FVal := do
  let backward_value ← t.backward value
  let input_logprob ← lp backward_value
  let jacobian ← t.logJacDet value
  return input_logprob + jacobian

/-- The distributions with a default transform (transforms.py:901-964), except the Dirichlet distribution. -/
inductive TransDist
  | uniform | pareto | triangular | halfnormal | wald | exponential | lognormal | halfcauchy | gamma | invgamma | chisquare | weibull
  | beta | vonmises

/-- transforms.py:901-960: the registered default transforms; `inputs` are the inputs of the `RandomVariable` node
(generator, size, dtype, then the parameters), and a missing input raises `IndexError`. -/
noncomputable def defaultTransform (d : TransDist) (inputs : List FVal) : Except Err RVTransform :=
  let input (i : ℕ) : Except Err FVal := match inputs[i]? with | some x => .ok x | none => .error .indexError
  match d with
  | .uniform => do return .interval (some (← input 3)) (some (← input 4))
  | .pareto => do return .interval (some (← input 3)) none
  | .triangular => do return .interval (some (← input 3)) (some (← input 5))
  | .halfnormal => do return .interval (some (← input 3)) none
  | .wald => .ok .log
  | .exponential => .ok .log
  | .lognormal => .ok .log
  | .halfcauchy => .ok .log
  | .gamma => .ok .log
  | .invgamma => .ok .log
  | .chisquare => .ok .log
  | .weibull => .ok .log
  | .beta => .ok .logodds
  | .vonmises => .ok .circular

/-- The dispatch of `_logprob` (logprob.py:127-543) for these distributions; the first three inputs are generator, size and dtype. -/
noncomputable def transDistLogprob (d : TransDist) (value : FVal) (inputs : List FVal) : Except Err FVal :=
  match d, inputs.drop 3 with
  | .uniform, [a, b] => uniformLogprob value a b
  | .pareto, [a, b] => paretoLogprob value a b
  | .triangular, [a, c, b] => triangularLogprob value a c b
  | .halfnormal, [a, b] => halfnormalLogprob value a b
  | .wald, [a, b] => waldLogprob value a b
  | .exponential, [a] => exponentialLogprob value a
  | .lognormal, [a, b] => lognormalLogprob value a b
  | .halfcauchy, [a, b] => halfcauchyLogprob value a b
  | .gamma, [a, b] => gammaLogprob value a b
  | .invgamma, [a, b] => invgammaLogprob value a b
  | .chisquare, [a] => chisquareLogprob value a
  | .weibull, [a] => weibullLogprob value a
  | .beta, [a, b] => betaLogprob value a b
  | .vonmises, [a, b] => vonmisesLogprob value a b
  | _, _ => .error .valueError

end Verif
