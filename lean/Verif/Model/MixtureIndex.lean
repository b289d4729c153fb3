import Verif.Model.Walk
import Verif.Model.Mixture
import Verif.Model.Graph

/-!
# Which indexed stacks become mixtures (`/repo/aeppl/mixture.py:204-302`), and joint log-probabilities of mixtures
-/

namespace Verif
open Walk

/-- The op that makes the indexed variable: `MakeVector`, `Join` (with the value of its axis if that is constant), or another one. -/
inductive JoinOp (V : Type)
  | makeVector (rvs : List V)
  | join (axis : Option ℤ) (rvs : List V)
  | other

/-- mixture.py:235-245: the components, if all of them are `MeasurableVariable`s. -/
def allMeasurable {V : Type} (G : VGraph V) (mixture_rvs : List V) : Option (List V) :=
  if mixture_rvs.all fun rv => (G rv).inputs.isSome && (G rv).isMeasurable then some mixture_rvs else none

/-- mixture.py:204-245 `get_stack_mixture_vars`.  The axis that is returned next to the components is not modelled here (see `MixtureArray`). -/
def getStackMixtureVars {V : Type} (G : VGraph V) : JoinOp V → Except Err (Option (List V))
  | .other => .ok none
  | .makeVector rvs => .ok (allMeasurable G rvs)
  | .join none _ => .error .notImplemented
  | .join (some _) rvs => .ok (allMeasurable G rvs)

/-- mixture.py:248-302 `mixture_replace`: the indices and the components of the mixture, or `none` if the node is left alone.  `indices` are the inputs of the node from the second on. -/
def mixtureReplace {V : Type} (G : VGraph V) (joined : JoinOp V) (indices : List V) : Except Err (Option (List V × List V)) :=
  match getStackMixtureVars G joined with
  | .error e => .error e
  | .ok none => .ok none
  | .ok (some mixture_res) => if mixture_res.any fun rv => (G rv).inputs.isSome && (G rv).isValued then .ok none else .ok (some (indices, mixture_res))

/-- mixture.py:305-334 `switch_mixture_replace`: the condition and the components. -/
def switchMixtureReplace {V : Type} (G : VGraph V) (cond x y : V) : Option (V × List V) :=
  if [x, y].all fun rv => (G rv).inputs.isSome && (G rv).isMeasurable && !(G rv).isValued then some (cond, [x, y]) else none

/-- joint_logprob.py:307-319 for an integer variable with log-probability `lpI` and a mixture indexed by it, `at.stack(comps)[I]`. -/
noncomputable def mixtureJoint (lpI : ℤ → Except Err FVal) (comps : List (FVal → Except Err FVal)) (i : ℤ) (value : FVal) : Except Err FVal :=
  Graph.sumE [lpI i, stackMixtureLogprob comps i value]

/-- joint_logprob.py:307-319 for several mixtures of the same components, `at.stack(comps)[i]` for the given indices.  Each is rewritten on its own; the components are cloned
(mixture.py:272-279).  The index variables are different variables, given by their values (two mixtures with the very same index variable are merged into one node by the
canonicalization, rewriting.py:164, and raise: outside this model). -/
noncomputable def mixturesJoint (comps : List (FVal → Except Err FVal)) (indices : List ℤ) (values : List FVal) : Except Err FVal :=
  Graph.sumE (List.zipWith (stackMixtureLogprob comps) indices values)

end Verif
