import Mathlib.Data.List.Duplicate
import Verif.Model.Elemwise
import Verif.Model.Graph

/-!
# Several derived variables in one model (`/repo/aeppl/transforms.py:508-583` with `/repo/aeppl/joint_logprob.py:145-219`)
-/

namespace Verif
open Graph

open scoped Classical in
/-- The log-probability of a requested variable that is an elementwise function (tower of nodes `p.2`, the innermost first) of the random variable `p.1`, whose
log-probability is `lp p.1`; the empty tower is the random variable itself.  `rvs` are all the requested variables.
* If the random variable is itself requested, its other uses are replaced by its value (rewriting.py:270-274), and a function of a `ValuedVariable` is not measurable
  (transforms.py:529-540): `DensityNotFound` (joint_logprob.py:175-178).
* `construct_elemwise_transform` looks at the inputs of the node it rewrites only; the random variable is cloned (`assign_custom_measurable_outputs`,
  transforms.py:578-583).  A variable without a derived log-probability raises `DensityNotFound` (joint_logprob.py:175-178).
* The canonicalization before and after the rewrites (rewriting.py:164, 184) merges equal nodes, so that two requested variables with the same tower of the same random
  variable are one node with two values: `ValueError` (joint_logprob.py:180-183).
Simplification: each requested variable is built from nodes of its own (a requested variable that is a node of another one's tower is not modelled), and of the
canonicalization only the merging of identical towers is modelled (it may also merge towers that compute the same function, such as `2 * (3 * X)` and `6 * X`). -/
noncomputable def derivedTerm (lp : ℕ → FVal → Except Err FVal) (rvs : List (ℕ × List ElemNode)) (p : ℕ × List ElemNode) : Except Err (FVal → Except Err FVal) :=
  if p.2 ≠ [] ∧ (p.1, []) ∈ rvs then .error .densityNotFound
  else
    match derivedLogprob p.2 (lp p.1) with
    | none => .error .densityNotFound
    | some lp' => if List.Duplicate p rvs then .error .valueError else .ok lp'

/-- joint_logprob.py:172-217: every requested variable gets its own term; other users of the same random variable are not looked for.  The nodes are visited in the order
of the requested variables, and the first error is raised. -/
noncomputable def derivedTerms (lp : ℕ → FVal → Except Err FVal) (rvs : List (ℕ × List ElemNode)) : Except Err (List (FVal → Except Err FVal)) :=
  rvs.mapM (derivedTerm lp rvs)

/-- joint_logprob.py:307-319: the sum of the terms, each at its own value (scalar variables). -/
noncomputable def derivedJoint (lp : ℕ → FVal → Except Err FVal) (rvs : List (ℕ × List ElemNode)) (values : List FVal) : Except Err FVal :=
  match derivedTerms lp rvs with
  | .error e => .error e
  | .ok terms => sumE (List.zipWith (fun t v => t v) terms values)

end Verif
