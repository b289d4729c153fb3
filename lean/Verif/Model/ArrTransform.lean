import Verif.Model.ArrGraph
import Verif.Model.IRTransform
import Verif.Model.Simplex

/-! # Models with array variables and transformed values

`extra_rewrites=TransformValuesRewrite(...)` (`/repo/aeppl/transforms.py:141-342`, `/repo/aeppl/rewriting.py:281-292`) on the graphs of `Model/ArrGraph.lean`, and the log-probabilities of
transformed variables (`/repo/aeppl/transforms.py:818-895`).
-/

namespace Verif.ArrGraph
open Verif Cond

variable {Di : Type}

/-- An `RVTransform` (transforms.py:113-138) on arrays: each method gets a value and the inputs of the node of the variable.  Simplifications: methods that do not raise; of the inputs of a random
variable only its parameters, not generator, size and data type. -/
structure ATransform where
  forward : Arr FVal → List (Arr FVal) → Arr FVal
  backward : Arr FVal → List (Arr FVal) → Arr FVal
  logJacDet : Arr FVal → List (Arr FVal) → Arr FVal

/-- `a + b` with broadcasting. -/
noncomputable def addArr (a b : Arr FVal) : Except Err (Arr FVal) :=
  match bshape [a.shape, b.shape] with
  | none => .error .valueError
  | some s => .ok ⟨s, fun c => entryAt a c + entryAt b c⟩

/-- transforms.py:862-881 `transformed_logprob`, with the back-transformed value of lines 228-230: `lp` is the log-probability of the variable, `z` the value in the transformed space. -/
noncomputable def transformedArr (t : ATransform) (inputs : List (Arr FVal)) (lp : Arr FVal → Except Err (Arr FVal)) (use_jacobian : Bool) (z : Arr FVal) : Except Err (Arr FVal) :=
  match lp (t.backward z inputs) with
  | .error e => .error e
  | .ok logprob => if use_jacobian then addArr logprob (t.logJacDet z inputs) else .ok logprob

/-- An array given by its shape and entries; outside of the shape there is nothing, written `nan`. -/
def tabulate (s : List ℕ) (f : List ℕ → FVal) : Arr FVal := ⟨s, fun c => if c ∈ allCoords s then f c else .nan⟩

/-- An elementwise operation on a value and parameters.  Simplification: where the shapes do not fit, which is an error in Aesara, the shape of the value. -/
def elemwise (f : FVal → List FVal → FVal) (value : Arr FVal) (params : List (Arr FVal)) : Arr FVal :=
  tabulate ((bshape (value.shape :: params.map Arr.shape)).getD value.shape) fun c => f (entryAt value c) (params.map fun a => entryAt a c)

/-- The transforms that work elementwise: `LogTransform`, `IntervalTransform`, `LogOddsTransform`, `ExpTransform`, `ReciprocalTransform`, `CircularTransform` (transforms.py:637-742, 769-779) on arrays. -/
def entrywise (t : IR.VTransform) : ATransform := ⟨elemwise t.forward, elemwise t.backward, elemwise t.logJacDet⟩

/-- An elementwise transform that does not look at the inputs of the node: `LogTransform`, `LogOddsTransform`, `ExpTransform` and the like (transforms.py:637-742).  The inputs of the node of a derived variable
are the variable below and the parameters of the operation. -/
def unaware (t : IR.VTransform) : ATransform where
  forward a _ := (entrywise t).forward a []
  backward a _ := (entrywise t).backward a []
  logJacDet a _ := (entrywise t).logJacDet a []

/-- The row of an array at the coordinates `c` of all but the last axis, which has length `n`. -/
def rowAt (n : ℕ) (a : Arr FVal) (c : List ℕ) : List FVal := List.ofFn fun i : Fin n => entryAt a (c ++ [(i : ℕ)])

/-- An operation on the rows of an array that gives rows of length `m`. -/
def onRows (m : ℕ) (f : List FVal → List FVal) (a : Arr FVal) : Arr FVal :=
  tabulate (a.shape.dropLast ++ [m]) fun c => (f (rowAt (a.shape.getLastD 0) a c.dropLast)).getD (c.getLastD 0) .nan

/-- `SimplexTransform` (transforms.py:744-766) on arrays: all operations are along the last axis, which gets shorter or longer by one, or is summed over. -/
noncomputable def simplexArr : ATransform where
  forward a _ := onRows (a.shape.getLastD 0 - 1) simplexForward a
  backward a _ := onRows (a.shape.getLastD 0 + 1) simplexBackward a
  logJacDet a _ := tabulate a.shape.dropLast fun c => simplexLogJacDet (rowAt (a.shape.getLastD 0) a c)

/-- logprob.py:613-628 `dirichlet_logprob` on arrays: one log-probability for each row.  Simplification: the last axes of value and concentrations have the same length. -/
noncomputable def dirichletArr (value : Arr FVal) : List (Arr FVal) → Except Err (Arr FVal)
  | [alpha] =>
    match bshape [value.shape, alpha.shape] with
    | some s =>
      let n := s.getLastD 0
      if s ≠ [] ∧ value.shape.getLast? = some n ∧ alpha.shape.getLast? = some n then
        match (allCoords s.dropLast).mapM fun c => dirichletLogprob (rowAt n value c) (rowAt n alpha c) with
        | .error e => .error e
        | .ok _ => .ok ⟨s.dropLast, fun c => match dirichletLogprob (rowAt n value c) (rowAt n alpha c) with | .ok x => x | .error _ => .nan⟩
      else .error .valueError
    | none => .error .valueError
  | _ => .error .valueError

/-- Replacement of the variable `x` by the graph `u`, everywhere in a graph. -/
def subst (x : ℕ) (u : Expr Di) : Expr Di → Expr Di
  | .const c => .const c
  | .inp i => if i = x then u else .inp i
  | .app n f args => .app n f fun i => subst x u (args i)
  | .rv id dist n args => .rv id dist n fun i => subst x u (args i)
  | .valued r v => .valued (subst x u r) (subst x u v)

/-- The inputs of the clone of the node of `v` (rewriting.py:247), with values in place of the variables that have one. -/
def insOf (defs : ℕ → Option (RVDef Di)) (d : Dict ℕ ℕ) (v : ℕ) : List (Expr Di) :=
  match defs v with
  | some r => List.ofFn fun i => replaceValued d (r.args i)
  | none => []

/-- transforms.py:228-230: `transform.backward(trans_value_var, *trans_node.inputs)`; the surrounding `TransformedVariable` (transforms.py:66-98) is removed in the end (lines 102-110). -/
def untransformed (t : ATransform) (tv : ℕ) (inputs : List (Expr Di)) : Expr Di :=
  .app (inputs.length + 1) (fun a => t.backward (a 0) (List.ofFn fun i : Fin inputs.length => a i.succ)) (Fin.cons (.inp tv) fun i => inputs[i])

/-- transforms.py:192-209: the transform that is applied at the node of `v`.  `reqs` are the requests by variable; by lines 332-335 they are looked up by value variable, of which every variable has one
of its own (rewriting.py:249). -/
def wanted (reqs : Dict ℕ (Option (TransVals.Req ATransform))) (registered : Di → Option ATransform) (defs : ℕ → Option (RVDef Di)) (v : ℕ) : Option ATransform :=
  TransVals.transformValues reqs { hasDefaultOutput := true, registered := (defs v).bind fun r => registered r.dist, value := v }

/-- transforms.py:211-240, one visit of the rewriter: `rep` is what the replacements made so far do to a graph; the visit of `v` also replaces its value variable `x v` everywhere, by the
back-transformed new value variable `tv v`.  The inputs of the node have been through the earlier replacements. -/
def visit (want : ℕ → Option ATransform) (x tv : ℕ → ℕ) (ins : ℕ → List (Expr Di)) (rep : Expr Di → Expr Di) (v : ℕ) : Expr Di → Expr Di :=
  match want v with
  | none => rep
  | some t => fun e => subst (x v) (untransformed t (tv v) ((ins v).map rep)) (rep e)

/-- transforms.py:304, 341-342: the rewriter visits the variables `order`, one after the other.  A variable with a value has up to two `ValuedVariable` nodes; only the one that is reached first is
transformed (`innerFirst`, as in `Model/IRTransform.lean`). -/
def visitAll (want : ℕ → Option ATransform) (x tv : ℕ → ℕ) (ins : ℕ → List (Expr Di)) (order : List ℕ) : Expr Di → Expr Di := order.foldl (visit want x tv ins) id

/-- The variables whose `ValuedVariable` nodes are put into a graph (rewriting.py:270-274, `replaceValued`). -/
def valuedIn (vals : Dict ℕ ℕ) : Expr Di → List ℕ
  | .app n _ args => (List.finRange n).flatMap fun i => valuedIn vals (args i)
  | .rv id _ n args => if (Dict.get? vals id).isSome then [id] else (List.finRange n).flatMap fun i => valuedIn vals (args i)
  | _ => []

/-- The same for the output of the variable `v`. -/
def valuedBelow (defs : ℕ → Option (RVDef Di)) (d : Dict ℕ ℕ) (v : ℕ) : List ℕ :=
  match defs v with
  | some r => (List.finRange r.n).flatMap fun i => valuedIn d (r.args i)
  | none => []

/-- Of the two `ValuedVariable` nodes of `v`, the rewriter first comes to the one that is used in the graphs of other variables, not to the output.  The former is the node of rewriting.py:254 as it was
before the graph was cloned, so that below it nothing is replaced by values (lines 261-274).  If nothing is replaced below the output either, the two nodes are equal and merged by canonicalization
(line 164).  `in2out` (transforms.py:304) goes through the outputs in the order in which the variables were given values, each one after what is below it. -/
def innerFirst (defs : ℕ → Option (RVDef Di)) (d : Dict ℕ ℕ) (v : ℕ) : Bool :=
  !(valuedBelow defs d v).isEmpty && ((Dict.keys d).takeWhile (· ≠ v)).any fun w => v ∈ valuedBelow defs d w

/-- The inputs of the node of `v` that is transformed. -/
def insAt (defs : ℕ → Option (RVDef Di)) (d : Dict ℕ ℕ) (v : ℕ) : List (Expr Di) :=
  if innerFirst defs d v then
    match defs v with
    | some r => List.ofFn r.args
    | none => []
  else insOf defs d v

/-- A log-probability graph: the distribution's kernel at the value variable `value` and parameter graphs, or at the value that a transform takes `value` back to; the inputs of the node go to
the transform.  If another node than the output has been transformed, the value is `back` (transforms.py:240). -/
structure TTerm (Di : Type) where
  dist : Di
  value : ℕ
  n : ℕ
  args : Fin n → Expr Di
  trans : Option (ATransform × List (Expr Di))
  back : Option (Expr Di)

/-- Evaluation, after `remove_ValuedVariable` and `remove_TransformedVariables`. -/
noncomputable def TTerm.eval (kernel : Di → Arr FVal → List (Arr FVal) → Except Err (Arr FVal)) (use_jacobian : Bool) (ρ : ℕ → Arr FVal) (ω : ℕ → Di → List (Arr FVal) → Arr FVal) (t : TTerm Di) :
    Except Err (Arr FVal) :=
  let ev := fun e => ArrGraph.eval ρ ω (cleanup e)
  let lp := fun v => kernel t.dist v (List.ofFn fun i => ev (t.args i))
  match t.trans, t.back with
  | none, none => lp (ρ t.value)
  | none, some u => lp (ev u)
  | some (tr, inputs), _ => transformedArr tr (inputs.map ev) lp use_jacobian (ρ t.value)

/-- The value variable that the caller gets for `v` (transforms.py:235, rewriting.py:294). -/
def valueVar (want : ℕ → Option ATransform) (x tv : ℕ → ℕ) (v : ℕ) : ℕ := if (want v).isSome then tv v else x v

/-- As `backend`, with the transforms requested by `reqs`; a request for a variable without value is a `KeyError` (transforms.py:332-335). -/
def backendT (defs : ℕ → Option (RVDef Di)) (d : Dict ℕ ℕ) (reqs : Dict ℕ (Option (TransVals.Req ATransform))) (registered : Di → Option ATransform) (tv : ℕ → ℕ) (order : List ℕ) :
    Backend ℕ ℕ Unit (TTerm Di) :=
  let want := wanted reqs registered defs
  let x := fun v => (Dict.get? d v).getD 0
  let ins := insAt defs d
  let rep := visitAll want x tv ins order
  { owner := fun v => if (defs v).isSome then some v else none
    dtype := fun _ => ()
    rewrite := fun d =>
      if (Dict.keys reqs).all fun v => v ∈ Dict.keys d then .ok (d.map fun p => some ⟨p.1, valueVar want x tv p.1⟩, d.map fun p => valueVar want x tv p.1)
      else .error .keyError
    measurableOutputs := fun n => if (defs n).isSome then [n] else []
    logprob := fun n vs =>
      match defs n, vs with
      | some r, [v] =>
        if innerFirst defs d n then .ok [⟨r.dist, v, r.n, fun i => rep (replaceValued d (r.args i)), none, (want n).map fun _ => rep (.inp (x n))⟩]
        else .ok [⟨r.dist, v, r.n, fun i => rep (replaceValued d (r.args i)), (want n).map fun t => (t, (ins n).map rep), none⟩]
      | _, _ => .error .notImplemented }

/-- joint_logprob.py:222-319 `joint_logprob(*rvs, realized=realized, extra_rewrites=TransformValuesRewrite(reqs))`. -/
def jointT (defs : ℕ → Option (RVDef Di)) (reqs : Dict ℕ (Option (TransVals.Req ATransform))) (registered : Di → Option ATransform) (tv : ℕ → ℕ) (order : List ℕ) (rvs clones : List ℕ)
    (realized : Dict ℕ ℕ) : Except Err (Option (JointExpr (TTerm Di) × List ℕ)) :=
  jointLogprob (backendT defs (rvValues rvs clones realized) reqs registered tv order) rvs clones realized

/-- joint_logprob.py:312-318, as `evalJoint`. -/
noncomputable def evalJointT (kernel : Di → Arr FVal → List (Arr FVal) → Except Err (Arr FVal)) (use_jacobian : Bool) (ρ : ℕ → Arr FVal) (ω : ℕ → Di → List (Arr FVal) → Arr FVal) :
    JointExpr (TTerm Di) → Except Err FVal
  | .sum t => arrayJoint (t.eval kernel use_jacobian ρ ω)
  | .sumOfSums ts => Graph.sumE (ts.map fun t => arrayJoint (t.eval kernel use_jacobian ρ ω))

end Verif.ArrGraph
