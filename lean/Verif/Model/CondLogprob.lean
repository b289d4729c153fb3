import Verif.Model.Dict
import Verif.Model.FVal
import Verif.Model.VecDists

/-! # `conditional_logprob` and `joint_logprob` (joint_logprob.py)

`V` are variables, `N` Apply nodes, `D` dtypes, `T` log-probability graphs.
-/

namespace Verif.Cond
open Verif

/-- A `ValuedVariable(rv, val)` output of the intermediate graph. -/
structure ValuedOut (V : Type) where
  rv : V
  val : V

/-- What `conditional_logprob` takes from the rest of the library. -/
structure Backend (V N D T : Type) where
  /-- `var.owner`. -/
  owner : V → Option N
  /-- `var.type.dtype`. -/
  dtype : V → D
  /-- rewriting.py:260-292: cloning, replacement of valued variables, the IR rewrites and the extra rewrites.  Gives `fgraph.outputs`
  (`none`: an output that is not a `ValuedVariable`) and `value_clone_to_value.values()`. -/
  rewrite : Dict V V → Except Err (List (Option (ValuedOut V)) × List V)
  /-- `get_measurable_outputs(node.op, node)` (abstract.py:46-51). -/
  measurableOutputs : N → List V
  /-- `_logprob(node.op, values, *node.inputs)`, a single result counted as a one-element tuple (joint_logprob.py:188-196). -/
  logprob : N → List V → Except Err (List T)

variable {V N D T : Type} [DecidableEq V] [DecidableEq N] [DecidableEq D]

/-- rewriting.py:246-254 the loop over `rvs_to_values`: `rv.owner.clone()` needs an owner; `valued_variable(rv, val)` checks the
dtypes (abstract.py:151-164). -/
def checkValued (B : Backend V N D T) : Dict V V → Except Err Unit
  | [] => .ok ()
  | (rv, val) :: d =>
    match B.owner rv with
    | none => .error .attribute
    | some _ => if B.dtype val ≠ B.dtype rv then .error .typeError else checkValued B d

/-- rewriting.py:187-296 `construct_ir_fgraph`. -/
def constructIr (B : Backend V N D T) (rv_values : Dict V V) :
    Except Err (List (Option (ValuedOut V)) × Dict V V) :=
  match checkValued B rv_values with
  | .error e => .error e
  | .ok _ =>
    match B.rewrite rv_values with
    | .error e => .error e
    | .ok (outs, vals) => .ok (outs, Dict.ofList (List.zip (Dict.keys rv_values) vals))

/-- The three dictionaries filled by the first loop (joint_logprob.py:149-151). -/
structure St (V N : Type) where
  realizedVars : List V
  nodesToVals : Dict N (List (V × V))
  newToOld : Dict V V

/-- joint_logprob.py:166 `nodes_to_vals.setdefault(node, []).append(p)`. -/
def appendVal (d : Dict N (List (V × V))) (n : N) (p : V × V) : Dict N (List (V × V)) :=
  Dict.set d n (((Dict.get? d n).getD []) ++ [p])

/-- joint_logprob.py:153-168, the first loop. -/
def bindLoop (B : Backend V N D T) (realized : Dict V V) :
    List (Option (ValuedOut V) × (V × V)) → St V N → Except Err (St V N)
  | [], st => .ok st
  | (none, _) :: _, _ => .error .assertion
  | (some o, (old_mvar, val)) :: l, st =>
    match B.owner o.rv with
    | none => .error .densityNotFound
    | some rv_node =>
      bindLoop B realized l
        { realizedVars := if old_mvar ∈ Dict.keys realized then o.rv :: st.realizedVars else st.realizedVars
          nodesToVals := appendVal st.nodesToVals rv_node (o.val, val)
          newToOld := Dict.set st.newToOld o.rv old_mvar }

/-- joint_logprob.py:198-207, the inner loop over `zip(rv_logprobs, outputs, rv_base_vals)`.  Names are not modelled. -/
def termLoop (st : St V N) : List (T × V × V) → Dict V T × List V → Except Err (Dict V T × List V)
  | [], acc => .ok acc
  | (lp_out, rv_out, rv_base_val) :: l, (logprob_vars, value_vars) =>
    match Dict.get? st.newToOld rv_out with
    | none => .error .keyError
    | some old_mvar =>
      termLoop st l
        (Dict.set logprob_vars old_mvar lp_out,
         if rv_out ∈ st.realizedVars then value_vars else value_vars ++ [rv_base_val])

/-- joint_logprob.py:173-207, the second loop. -/
def nodeLoop (B : Backend V N D T) (st : St V N) :
    List (N × List (V × V)) → Dict V T × List V → Except Err (Dict V T × List V)
  | [], acc => .ok acc
  | (rv_node, pairs) :: l, acc =>
    let outputs := B.measurableOutputs rv_node
    if outputs = [] then .error .densityNotFound
    else if outputs.length < pairs.length then .error .valueError
    else if outputs.length ≠ pairs.length then .error .assertion
    else
      match B.logprob rv_node (pairs.map Prod.fst) with
      | .error e => .error e
      | .ok rv_logprobs =>
        match termLoop st (List.zip rv_logprobs (List.zip outputs (pairs.map Prod.snd))) acc with
        | .error e => .error e
        | .ok acc => nodeLoop B st l acc

/-- joint_logprob.py:132-142: value variables for the positional arguments (`clones`, one fresh clone per argument), overridden by
`realized`. -/
def rvValues (rvs clones : List V) (realized : Dict V V) : Dict V V :=
  Dict.update (Dict.ofList (List.zip rvs clones)) realized

/-- joint_logprob.py:21-219 `conditional_logprob(*rvs, realized=realized)`.  `clones` are the variables created by `rv.clone()`.
The final clean-up (lines 216-217) rewrites the graphs without changing their values; it is modelled in `Model/Graph.lean`. -/
def conditionalLogprob (B : Backend V N D T) (rvs clones : List V) (realized : Dict V V) :
    Except Err (Dict V T × List V) :=
  match constructIr B (rvValues rvs clones realized) with
  | .error e => .error e
  | .ok (outs, new_rv_values) =>
    match bindLoop B realized (List.zip outs new_rv_values) ⟨[], [], []⟩ with
    | .error e => .error e
    | .ok st => nodeLoop B st st.nodesToVals ([], [])

/-- The graphs `joint_logprob` builds (joint_logprob.py:310-319). -/
inductive JointExpr (T : Type) where
  | sum (t : T)
  | sumOfSums (ts : List T)

/-- joint_logprob.py:222-319 `joint_logprob`; the outer `Option` is the bare `None`. -/
def jointLogprob (B : Backend V N D T) (rvs clones : List V) (realized : Dict V V) :
    Except Err (Option (JointExpr T × List V)) :=
  match conditionalLogprob B rvs clones realized with
  | .error e => .error e
  | .ok (logprob, value_variables) =>
    match logprob with
    | [] => .ok none
    | [(_, cond_logprob)] => .ok (some (.sum cond_logprob, value_variables))
    | logprob => .ok (some (.sumOfSums (Dict.values logprob), value_variables))

/-- Value of a joint graph when `elems t` are the elements of the array computed by the term `t`; `at.sum` adds up all elements. -/
noncomputable def JointExpr.eval (elems : T → List FVal) : JointExpr T → FVal
  | .sum t => fsum (elems t)
  | .sumOfSums ts => fsum (ts.map fun t => fsum (elems t))

end Verif.Cond
