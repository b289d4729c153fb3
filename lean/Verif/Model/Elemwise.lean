import Verif.Model.Transforms

/-!
# Elementwise functions of a measurable variable (`/repo/aeppl/transforms.py:345-597`)

One layer at a time: an elementwise node with one measurable input is rewritten to a measurable node that carries a transform.
Whether an input counts as measurable is decided on graphs in `Model/Walk.lean` (C58); here an input is either the measurable
variable of the layer below or an expression without unvalued randomness, represented by its value.
-/

namespace Verif
open FVal

/-- An input of an elementwise node. -/
inductive Arg
  | meas
  | other (v : FVal)

namespace Arg

/-- The non-measurable inputs (`other_inputs`, transforms.py:555). -/
def others : List Arg → List FVal
  | [] => []
  | .meas :: l => others l
  | .other v :: l => v :: others l

/-- The measurable inputs (transforms.py:533-539), by number. -/
def measCount : List Arg → ℕ
  | [] => 0
  | .meas :: l => measCount l + 1
  | .other _ :: l => measCount l

end Arg

/-- `construct_elemwise_transform` (transforms.py:507-597) with `transform_fn` as argument: a transform is only built when there is exactly
one measurable input. -/
def constructElemwise (inputs : List Arg) (transform_fn : List FVal → Option RVTransform) : Option RVTransform :=
  if Arg.measCount inputs ≠ 1 then none else transform_fn (Arg.others inputs)

/-- `at.add(*other_inputs) if len(other_inputs) > 1 else other_inputs[0]` (an empty list raises `IndexError`, here `none`:
an addition with a single input does not occur). -/
noncomputable def foldArgs (op : FVal → FVal → FVal) : List FVal → Option FVal
  | [] => none
  | a :: l => some (l.foldl op a)

/-- transforms.py:458-473 `measurable_add`. -/
noncomputable def measurableAdd (inputs : List Arg) : Option RVTransform :=
  constructElemwise inputs fun others => (foldArgs (· + ·) others).map .loc

/-- transforms.py:476-493 `measurable_mul`. -/
noncomputable def measurableMul (inputs : List Arg) : Option RVTransform :=
  constructElemwise inputs fun others => (foldArgs (· * ·) others).map .scale

/-- transforms.py:436-444 `measurable_exp`. -/
noncomputable def measurableExp (input : Arg) : Option RVTransform := constructElemwise [input] fun _ => some .exp

/-- transforms.py:447-455 `measurable_log`. -/
noncomputable def measurableLog (input : Arg) : Option RVTransform := constructElemwise [input] fun _ => some .log

/-- transforms.py:496-504 `measurable_reciprocal`. -/
noncomputable def measurableReciprocal (input : Arg) : Option RVTransform := constructElemwise [input] fun _ => some .reciprocal

/-- An intermediate expression: its rewriting if it is measurable (the transforms applied so far, first one first), its value otherwise. -/
noncomputable def liftArg (rewritten : Option RVTransform) (value : Arg → FVal) (input : Arg) : Arg × List RVTransform :=
  match rewritten, input with
  | some t, _ => (.meas, [t])
  | none, .meas => (.meas, [])
  | none, .other v => (.other (value (.other v)), [])

/-- Value of a non-measurable input. -/
def Arg.value : Arg → FVal
  | .meas => .nan
  | .other v => v

/-- transforms.py:386-406 `measurable_true_divide`: `numerator * reciprocal(denominator)`. -/
noncomputable def measurableTrueDivide (numerator denominator : Arg) : Option (List RVTransform) :=
  let r := liftArg (measurableReciprocal denominator) (fun d => FVal.reciprocal d.value) denominator
  (measurableMul [numerator, r.1]).map fun t => r.2 ++ [t]

/-- transforms.py:409-433 `measurable_sub`: `minuend + (-1) * subtrahend`. -/
noncomputable def measurableSub (minuend subtrahend : Arg) : Option (List RVTransform) :=
  let r := liftArg (measurableMul [.other (-1), subtrahend]) (fun d => -1 * d.value) subtrahend
  (measurableAdd [minuend, r.1]).map fun t => r.2 ++ [t]

/-- The elementwise nodes with a registered rewrite. -/
inductive ElemNode
  | add (inputs : List Arg)
  | mul (inputs : List Arg)
  | sub (minuend subtrahend : Arg)
  | div (numerator denominator : Arg)
  | exp (input : Arg)
  | log (input : Arg)
  | reciprocal (input : Arg)

/-- The measurable layers a node is rewritten to, innermost first; `none`: the node is left alone. -/
noncomputable def rewriteNode : ElemNode → Option (List RVTransform)
  | .add inputs => (measurableAdd inputs).map fun t => [t]
  | .mul inputs => (measurableMul inputs).map fun t => [t]
  | .sub a b => measurableSub a b
  | .div a b => measurableTrueDivide a b
  | .exp a => (measurableExp a).map fun t => [t]
  | .log a => (measurableLog a).map fun t => [t]
  | .reciprocal a => (measurableReciprocal a).map fun t => [t]

/-- Log-probability of nested measurable elementwise nodes: `logprob(measurable_input, ...)` of the layer below is the derived
log-probability of that layer (transforms.py:379). -/
noncomputable def layersLogprob (layers : List RVTransform) (lp : FVal → Except Err FVal) : FVal → Except Err FVal :=
  layers.foldl (fun lp t => measurableElemwiseLogprob t lp) lp

/-- Derived log-probability of a tower of elementwise nodes on top of a variable with log-probability `lp`, innermost node first. -/
noncomputable def derivedLogprob : List ElemNode → (FVal → Except Err FVal) → Option (FVal → Except Err FVal)
  | [], lp => some lp
  | n :: ns, lp => (rewriteNode n).bind fun ts => derivedLogprob ns (layersLogprob ts lp)

end Verif
