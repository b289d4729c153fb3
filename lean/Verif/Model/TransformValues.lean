import Verif.Model.Dict
import Verif.Model.FVal

/-!
# Which values get transformed: `transform_values`, `TransformValuesMapping`, `TransformValuesRewrite`
(`/repo/aeppl/transforms.py:141-342`)

`R` are the random variables as given by the caller, `V` the variables in the graph, `T` the transforms.
-/

namespace Verif.TransVals
open Verif

/-- A requested transform; `None` is `Option.none`. -/
inductive Req (T : Type)
  | transform (t : T)
  | default

/-- What `transform_values` looks at in a `ValuedVariable(rv, value)` node: whether `rv.owner.default_output()` succeeds, the transform of
`_default_transformed_rv(rv_node.op, rv_node)` if one is registered, and the value input. -/
structure ValuedNode (V T : Type) where
  hasDefaultOutput : Bool
  registered : Option T
  value : V

/-- A value variable as the caller gets it back: the original one, or the new one in the transformed space. -/
inductive ValueVar (V : Type)
  | original (v : V)
  | transformed (v : V)

variable {R V T : Type} [DecidableEq R] [DecidableEq V]

/-- transforms.py:332-335: `{rvs_to_values[rv]: transform for rv, transform in self.rvs_to_transforms.items()}`. -/
def valuesToTransforms (rvs_to_values : Dict R V) : Dict R (Option (Req T)) → Dict V (Option (Req T)) → Except Err (Dict V (Option (Req T)))
  | [], acc => .ok acc
  | (rv, transform) :: rest, acc =>
    match Dict.get? rvs_to_values rv with
    | none => .error .keyError
    | some value => valuesToTransforms rvs_to_values rest (Dict.set acc value transform)

/-- transforms.py:177-209 the decision of `transform_values`: the transform that is applied, or `none` when the node is left alone. -/
def transformValues (values_to_transforms : Dict V (Option (Req T))) (node : ValuedNode V T) : Option T :=
  if !node.hasDefaultOutput then none
  else
    match (Dict.get? values_to_transforms node.value).join with
    | none => none
    | some .default => node.registered
    | some (.transform t) => some t

/-- transforms.py:211-240 the effect on `value_clone_to_value`. -/
def recordTransform (vcv : Dict V (ValueVar V)) (node : ValuedNode V T) : Option T → Dict V (ValueVar V)
  | none => vcv
  | some _ => Dict.set vcv node.value (.transformed node.value)

/-- `in2out(transform_values, ignore_newtrees=True)` (transforms.py:304, 341-342): every `ValuedVariable` node of the graph is visited once;
the nodes made by the rewrite are not visited. -/
def rewriteLoop (vt : Dict V (Option (Req T))) : List (ValuedNode V T) → Dict V (ValueVar V) → List (Option T) × Dict V (ValueVar V)
  | [], vcv => ([], vcv)
  | n :: ns, vcv =>
    let t := transformValues vt n
    let r := rewriteLoop vt ns (recordTransform vcv n t)
    (t :: r.1, r.2)

/-- transforms.py:326-342 `TransformValuesRewrite.add_requirements` and `.apply`: the transform applied at each node, and the updated
`value_clone_to_value`. -/
def transformValuesRewrite (rvs_to_transforms : Dict R (Option (Req T))) (rvs_to_values : Dict R V) (nodes : List (ValuedNode V T))
    (value_clone_to_value : Dict V (ValueVar V)) : Except Err (List (Option T) × Dict V (ValueVar V)) :=
  match valuesToTransforms rvs_to_values rvs_to_transforms [] with
  | .error e => .error e
  | .ok vt => .ok (rewriteLoop vt nodes value_clone_to_value)

end Verif.TransVals
