import Verif.Model.IR
import Verif.Model.TransformValues

/-!
# Graph conversion with transformed values

`extra_rewrites=TransformValuesRewrite(...)` (`/repo/aeppl/transforms.py:141-342`, `/repo/aeppl/rewriting.py:281-292`) on the graphs of `Model/IR`, and the log-probabilities of transformed variables
(`/repo/aeppl/transforms.py:818-895`).
-/

namespace Verif.IR
open Verif Cond

variable {Di : Type}

/-- An `RVTransform` (transforms.py:113-138): each method gets a value and the inputs of the node of the variable.  Simplifications: scalar values; methods that do not raise; of the inputs of a
random variable only its parameters, not generator, size and data type. -/
structure VTransform where
  forward : FVal → List FVal → FVal
  backward : FVal → List FVal → FVal
  logJacDet : FVal → List FVal → FVal

/-- The transform at given inputs. -/
def VTransform.at (t : VTransform) (inputs : List FVal) : RVTransform where
  forward v := .ok (t.forward v inputs)
  backward v := .ok (t.backward v inputs)
  logJacDet v := .ok (t.logJacDet v inputs)

/-- Replacement of the variable `x` by the graph `u`, everywhere in a graph. -/
def subst (x : ℕ) (u : Expr Di) : Expr Di → Expr Di
  | .const c => .const c
  | .inp i => if i = x then u else .inp i
  | .app id op n args => .app id op n fun i => subst x u (args i)
  | .rv id dist n args => .rv id dist n fun i => subst x u (args i)
  | .valued r v => .valued (subst x u r) (subst x u v)

/-- The inputs of the node of a variable. -/
def nodeInputs : Expr Di → List (Expr Di)
  | .app _ _ _ args => List.ofFn args
  | .rv _ _ _ args => List.ofFn args
  | _ => []

/-- The inputs of the clone of the node of `v` (rewriting.py:247), with values in place of the variables that have one. -/
def insOf (defs : ℕ → Option (Expr Di)) (d : Dict ℕ ℕ) (v : ℕ) : List (Expr Di) :=
  match defs v with
  | some e => nodeInputs (cloneOf d e)
  | none => []

/-- transforms.py:228-230: `transform.backward(trans_value_var, *trans_node.inputs)`; the surrounding `TransformedVariable` (transforms.py:66-98) is removed in the end (lines 102-110). -/
def untransformed (t : VTransform) (tv : ℕ) (inputs : List (Expr Di)) : Expr Di :=
  .app 0 (.other fun l => t.backward (l.headD .nan) l.tail) (inputs.length + 1) (Fin.cons (.inp tv) fun i => inputs[i])

/-- transforms.py:192-209: the transform that is applied at the node of `v`.  `reqs` are the requests by variable; by lines 332-335 they are looked up by value variable, of which every variable has one
of its own (rewriting.py:249).  Default transforms exist for random variables only (lines 901-964). -/
def wanted (reqs : Dict ℕ (Option (TransVals.Req VTransform))) (registered : Di → Option VTransform) (defs : ℕ → Option (Expr Di)) (v : ℕ) : Option VTransform :=
  TransVals.transformValues reqs
    { hasDefaultOutput := true
      registered :=
        match defs v with
        | some (.rv _ dist _ _) => registered dist
        | _ => none
      value := v }

/-- transforms.py:211-240, one visit of the rewriter: `rep` is what the replacements made so far do to a graph; the visit of `v` also replaces its value variable `x v` everywhere, by the
back-transformed new value variable `tv v`.  The inputs of the node have been through the earlier replacements. -/
def visit (want : ℕ → Option VTransform) (x tv : ℕ → ℕ) (ins : ℕ → List (Expr Di)) (rep : Expr Di → Expr Di) (v : ℕ) : Expr Di → Expr Di :=
  match want v with
  | none => rep
  | some t => fun e => subst (x v) (untransformed t (tv v) ((ins v).map rep)) (rep e)

/-- transforms.py:304, 341-342: the rewriter visits the variables `order`, one after the other.  A variable with a value has up to two `ValuedVariable` nodes; only the one that is reached first is
transformed (`innerFirst`), because afterwards the other one no longer has a value variable for which a transform is known (lines 192-195, 240). -/
def visitAll (want : ℕ → Option VTransform) (x tv : ℕ → ℕ) (ins : ℕ → List (Expr Di)) (order : List ℕ) : Expr Di → Expr Di := order.foldl (visit want x tv ins) id

/-- The variables whose `ValuedVariable` nodes are put into a graph (rewriting.py:270-274, `replaceValued`). -/
def valuedIn (vals : Dict ℕ ℕ) : Expr Di → List ℕ
  | .app id _ n args => if (Dict.get? vals id).isSome then [id] else (List.finRange n).flatMap fun i => valuedIn vals (args i)
  | .rv id _ n args => if (Dict.get? vals id).isSome then [id] else (List.finRange n).flatMap fun i => valuedIn vals (args i)
  | _ => []

/-- The same for the output of the variable `v`. -/
def valuedBelow (defs : ℕ → Option (Expr Di)) (d : Dict ℕ ℕ) (v : ℕ) : List ℕ :=
  match defs v with
  | some e => (nodeInputs e).flatMap (valuedIn d)
  | none => []

/-- Of the two `ValuedVariable` nodes of `v`, the rewriter first comes to the one that is used in the graphs of other variables, not to the output.  The former is the node of rewriting.py:254 as it was
before the graph was cloned, so that below it nothing is replaced by values (lines 261-274).  If nothing is replaced below the output either, the two nodes are equal and merged by canonicalization
(line 164).  `in2out` (transforms.py:304) goes through the outputs in the order in which the variables were given values, each one after what is below it. -/
def innerFirst (defs : ℕ → Option (Expr Di)) (d : Dict ℕ ℕ) (v : ℕ) : Bool :=
  !(valuedBelow defs d v).isEmpty && ((Dict.keys d).takeWhile (· ≠ v)).any fun w => v ∈ valuedBelow defs d w

/-- The inputs of the node of `v` that is transformed. -/
def insAt (defs : ℕ → Option (Expr Di)) (d : Dict ℕ ℕ) (v : ℕ) : List (Expr Di) :=
  if innerFirst defs d v then
    match defs v with
    | some e => nodeInputs e
    | none => []
  else insOf defs d v

/-- A measurable variable after replacements. -/
def Meas.replace (rep : Expr Di → Expr Di) (m : Meas Di) : Meas Di :=
  { m with
    args := fun i => rep (m.args i)
    layers := m.layers.map fun l => { l with args := fun i => rep (l.args i) } }

/-- A log-probability graph: that of a measurable variable at the value variable `value`, or at the value that a transform takes `value` back to; the inputs of the node go to the transform.
If another node than the output has been transformed, the measurable variable is as before and its value is `back` (transforms.py:240). -/
structure TTerm (Di : Type) where
  value : ℕ
  meas : Meas Di
  trans : Option (VTransform × List (Expr Di))
  back : Option (Expr Di)

/-- Log-probability of a measurable variable (transforms.py:364-383 and logprob.py). -/
noncomputable def Meas.lp (kernel : Di → FVal → List FVal → Except Err FVal) (ev : Expr Di → FVal) (m : Meas Di) (y : FVal) : Except Err FVal :=
  match nodes ev m.layers with
  | none => .error .notImplemented
  | some ns =>
    match derivedLogprob ns fun v => kernel m.dist v (List.ofFn fun i => ev (m.args i)) with
    | none => .error .notImplemented
    | some lp => lp y

/-- Evaluation, with `transformed_logprob` (transforms.py:862-881) for transformed variables. -/
noncomputable def TTerm.eval (kernel : Di → FVal → List FVal → Except Err FVal) (use_jacobian : Bool) (ρ : ℕ → FVal) (ω : ℕ → Di → List FVal → FVal) (t : TTerm Di) : Except Err FVal :=
  let ev := fun e => IR.eval ρ ω (cleanup e)
  match t.trans, t.back with
  | none, none => t.meas.lp kernel ev (ρ t.value)
  | none, some u => t.meas.lp kernel ev (ev u)
  | some (tr, inputs), _ => transformedLogprob (tr.at (inputs.map ev)) (t.meas.lp kernel ev) use_jacobian (ρ t.value)

/-- The value variable that the caller gets for `v` (transforms.py:235, rewriting.py:294). -/
def valueVar (want : ℕ → Option VTransform) (x tv : ℕ → ℕ) (v : ℕ) : ℕ := if (want v).isSome then tv v else x v

/-- As `backend`, with the transforms `want`.  A transformed output is always taken for measurable (transforms.py:860). -/
noncomputable def backendT (S : ℕ → Bool) (defs : ℕ → Option (Expr Di)) (d : Dict ℕ ℕ) (reqs : Dict ℕ (Option (TransVals.Req VTransform))) (registered : Di → Option VTransform) (tv : ℕ → ℕ)
    (order : List ℕ) : Backend ℕ ℕ Unit (TTerm Di) :=
  let want := wanted reqs registered defs
  let x := fun v => (Dict.get? d v).getD 0
  let ins := insAt defs d
  let rep := visitAll want x tv ins order
  { owner := fun v => if (defs v).isSome then some v else none
    dtype := fun _ => ()
    rewrite := fun d =>
      if (Dict.keys reqs).all fun v => v ∈ Dict.keys d then .ok (d.map fun p => some ⟨p.1, valueVar want x tv p.1⟩, d.map fun p => valueVar want x tv p.1)
      else .error .keyError
    measurableOutputs := fun n =>
      match defs n with
      | some e => if isMeas S (cloneOf d e) || (want n).isSome && !innerFirst defs d n then [n] else []
      | none => []
    logprob := fun n vs =>
      match defs n, vs with
      | some e, [v] =>
        match measOf S (cloneOf d e) with
        | some m =>
          if innerFirst defs d n then .ok [⟨v, m.replace rep, none, (want n).map fun _ => rep (.inp (x n))⟩]
          else .ok [⟨v, m.replace rep, (want n).map fun t => (t, (ins n).map rep), none⟩]
        | none => .error .notImplemented
      | _, _ => .error .notImplemented }

/-- `conditional_logprob(*rvs, realized=realized, extra_rewrites=TransformValuesRewrite(reqs))`. -/
noncomputable def conditionalT (S : ℕ → Bool) (defs : ℕ → Option (Expr Di)) (reqs : Dict ℕ (Option (TransVals.Req VTransform))) (registered : Di → Option VTransform) (tv : ℕ → ℕ) (order : List ℕ)
    (rvs clones : List ℕ) (realized : Dict ℕ ℕ) : Except Err (Dict ℕ (TTerm Di) × List ℕ) :=
  conditionalLogprob (backendT S defs (rvValues rvs clones realized) reqs registered tv order) rvs clones realized

/-- `joint_logprob` with the same arguments. -/
noncomputable def jointT (S : ℕ → Bool) (defs : ℕ → Option (Expr Di)) (reqs : Dict ℕ (Option (TransVals.Req VTransform))) (registered : Di → Option VTransform) (tv : ℕ → ℕ) (order : List ℕ)
    (rvs clones : List ℕ) (realized : Dict ℕ ℕ) : Except Err (Option (JointExpr (TTerm Di) × List ℕ)) :=
  jointLogprob (backendT S defs (rvValues rvs clones realized) reqs registered tv order) rvs clones realized

/-- Value of a joint graph of scalar terms. -/
noncomputable def evalJointT (kernel : Di → FVal → List FVal → Except Err FVal) (use_jacobian : Bool) (ρ : ℕ → FVal) (ω : ℕ → Di → List FVal → FVal) :
    JointExpr (TTerm Di) → Except Err FVal
  | .sum t => t.eval kernel use_jacobian ρ ω
  | .sumOfSums ts => sumE (ts.map fun t => t.eval kernel use_jacobian ρ ω)

end Verif.IR
