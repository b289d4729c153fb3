import Mathlib.Data.List.Duplicate
import Verif.Model.Convolutions
import Verif.Model.Graph

/-! # Several sums of normal variables in one model (`/repo/aeppl/convolutions.py:8-48` with `/repo/aeppl/joint_logprob.py:145-219, 307-319`) -/

namespace Verif
open Graph

open scoped Classical in
/-- The term of a requested variable that is a sum (`sub = false`) or difference of the inputs.  `rows` are all the requested variables.  `add_independent_normals`
(convolutions.py:8-48) looks at the inputs of the node it rewrites only (lines 19-23); other users of the inputs are not looked for.  A node it declines has no
log-probability here (joint_logprob.py:175-178; the sums that other rewrites handle are outside this model).  Two equal nodes are merged by the canonicalization
(rewriting.py:164) and become one node with two values: `ValueError` (joint_logprob.py:180-183).  Simplification: of the canonicalization only the merging of identical nodes is
modelled (`X - X` is simplified to zero by it, and raises). -/
noncomputable def sumTerm (rows : List (Bool × List SumInput)) (row : Bool × List SumInput) (value : FVal) : Except Err FVal :=
  match sumNormalsLogprob row.1 row.2 value with
  | none => .error .densityNotFound
  | some r => if List.Duplicate row rows then .error .valueError else r

/-- joint_logprob.py:307-319: the sum of the terms, each at its own value (scalar variables). -/
noncomputable def sumsJoint (rows : List (Bool × List SumInput)) (values : List FVal) : Except Err FVal :=
  sumE (List.zipWith (sumTerm rows) rows values)

end Verif
