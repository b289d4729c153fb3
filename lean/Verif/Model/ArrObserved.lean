import Verif.Model.ArrGraph
import Verif.Model.Incsubtensor

/-! # Partially observed variables in models with array variables

`incsubtensor_rv_replace` (`/repo/aeppl/rewriting.py:116-159`) in whole models: the variable `v` with `nodes v = some node` is `at.set_subtensor(Y[idx], data)` (or `inc_subtensor`) for a random variable `Y` of the
model that is used nowhere else and has no value of its own. -/

namespace Verif.ArrGraph
open Verif Cond

variable {Di : Type}

/-- A node of an `*IncSubtensor*` operator in a graph, as `IncNode`, with the graph of the data. -/
structure ObsNode (Di : Type) where
  idx_list : Option (List Entry)
  set_instead_of_inc : Bool
  data : Expr Di
  inputs : List Index

/-- The node when the data have the value `data`. -/
def ObsNode.at (node : ObsNode Di) (data : Arr FVal) : IncNode := ⟨node.idx_list, node.set_instead_of_inc, data, node.inputs⟩

/-- rewriting.py:149-155 `at.set_subtensor(value_var[idx], data)`, with the indices recovered from the node.  `set_instead_of_inc` is not looked at.  Simplification: where the index or the shape of the
data is not valid for the value, the code raises (C71) and this function says nothing of use. -/
noncomputable def observedValue (node : IncNode) (y : Arr FVal) : Arr FVal :=
  match indicesFromSubtensor node.idx_list node.inputs with
  | .error _ => y
  | .ok idx =>
    match setSubtensor y idx node.data with
    | .ok z => z
    | .error _ => y

/-- rewriting.py:134-159: the value of a `ValuedVariable` node of the variable `v` after the rewrite.  Simplification: values are not put into the graph of the data, which is right if it has no random variables. -/
noncomputable def observedExpr (nodes : ℕ → Option (ObsNode Di)) (v : ℕ) (value : Expr Di) : Expr Di :=
  match nodes v with
  | some node => .app 2 (fun a => observedValue (node.at (a 1)) (a 0)) ![value, node.data]
  | none => value

/-- rewriting.py:270-274 and then 116-159 on the `ValuedVariable`s that were put in: the rewrite visits every `ValuedVariable` node of the graph, also those that other variables use.  A variable without value stays
what it is; `ω` draws the variable with its entries set. -/
noncomputable def replaceObserved (nodes : ℕ → Option (ObsNode Di)) (vals : Dict ℕ ℕ) : Expr Di → Expr Di
  | .const x => .const x
  | .inp i => .inp i
  | .app n f args => .app n f fun i => replaceObserved nodes vals (args i)
  | .rv id dist n args =>
    match Dict.get? vals id with
    | some v => .valued (.rv id dist n args) (observedExpr nodes id (.inp v))
    | none => .rv id dist n fun i => replaceObserved nodes vals (args i)
  | .valued r v => .valued (replaceObserved nodes vals r) (replaceObserved nodes vals v)

/-- rewriting.py:187-296, joint_logprob.py:160-200: as `backend`, with partially observed variables; `_logprob` gets the node of the base variable and the value with its entries set. -/
noncomputable def backendObserved (nodes : ℕ → Option (ObsNode Di)) (defs : ℕ → Option (RVDef Di)) (d : Dict ℕ ℕ) : Backend ℕ ℕ Unit (Term Di) where
  owner v := if (defs v).isSome then some v else none
  dtype _ := ()
  rewrite d := .ok (d.map fun p => some ⟨p.1, p.2⟩, d.map Prod.snd)
  measurableOutputs n := if (defs n).isSome then [n] else []
  logprob n vs :=
    match defs n, vs with
    | some r, [v] => .ok [⟨r.dist, cleanup (observedExpr nodes n (.inp v)), r.n, fun i => cleanup (replaceObserved nodes d (r.args i))⟩]
    | _, _ => .error .notImplemented

/-- joint_logprob.py:21-219 `conditional_logprob` for a model with partially observed variables. -/
noncomputable def conditionalObserved (nodes : ℕ → Option (ObsNode Di)) (defs : ℕ → Option (RVDef Di)) (rvs clones : List ℕ) (realized : Dict ℕ ℕ) : Except Err (Dict ℕ (Term Di) × List ℕ) :=
  conditionalLogprob (backendObserved nodes defs (rvValues rvs clones realized)) rvs clones realized

/-- joint_logprob.py:222-319 `joint_logprob` for a model with partially observed variables. -/
noncomputable def jointObserved (nodes : ℕ → Option (ObsNode Di)) (defs : ℕ → Option (RVDef Di)) (rvs clones : List ℕ) (realized : Dict ℕ ℕ) : Except Err (Option (JointExpr (Term Di) × List ℕ)) :=
  jointLogprob (backendObserved nodes defs (rvValues rvs clones realized)) rvs clones realized

end Verif.ArrGraph
