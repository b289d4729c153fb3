import Verif.Model.IR
import Verif.Model.Censoring
import Verif.Model.Mixture

/-!
# Graph conversion with elementwise functions, clipping, rounding and mixtures

`construct_ir_fgraph` (`/repo/aeppl/rewriting.py:187-296`) with the rewrites of `/repo/aeppl/transforms.py:386-597`, `/repo/aeppl/censoring.py:36-213`, `/repo/aeppl/convolutions.py:8-48` and
`/repo/aeppl/mixture.py:204-347`, on graphs of scalar variables, and the log-probabilities of what they find.  The canonicalizations before and after (rewriting.py:164, 184) are not modelled.
-/

namespace Verif.Full
open Verif Cond

/-- What the rewrites ask of a data type: whether its name begins with `float` (censoring.py:204) or `int` (transforms.py:548, censoring.py:119). -/
inductive Kind
  | float | int | other
  deriving DecidableEq

/-- Operations: `pick` is `at.stack([x1, ..., xk])[x0]`, a `MakeVector` node below a `Subtensor` node whose index is not a constant. -/
inductive Op
  | elem (op : IR.Op)
  | clip
  | round (r : RoundOp)
  | switch
  | pick

/-- `at.clip` of scalars. -/
noncomputable def clipEval (x lo hi : FVal) : FVal := FVal.switch (FVal.lt x lo) lo (FVal.switch (FVal.gt x hi) hi x)

/-- `at.round`, `at.floor`, `at.ceil`. -/
noncomputable def roundEval : RoundOp → FVal → FVal
  | .halfToEven, x => x.round
  | .floor, x => x.floor
  | .ceil, x => x.ceil

open Classical in
/-- The integer that a value equals; a value that is no integer equals no position of a list. -/
noncomputable def indexOf (v : FVal) : ℤ := if h : ∃ k : ℕ, v = .fin k then (h.choose : ℤ) else -1

/-- `at.stack(xs)[i]`.  Simplification: an index that is no position gives `nan` (NumPy counts negative ones from the end and raises for the others). -/
noncomputable def pickEval : List FVal → FVal
  | [] => .nan
  | i :: xs => if 0 ≤ indexOf i then xs.getD (indexOf i).toNat .nan else .nan

open Classical in
/-- The value of an operation. -/
noncomputable def Op.eval : Op → List FVal → FVal
  | .elem op, l => op.eval l
  | .clip, [x, lo, hi] => clipEval x lo hi
  | .round r, [x] => roundEval r x
  | .switch, [c, x, y] => if c = .fin 0 then y else x
  | .pick, l => pickEval l
  | _, _ => .nan

/-- A graph, as in `Model/IR`; an operation node also carries the kind of its data type.  Equal nodes are merged in `Model/Merge.lean` only. -/
inductive Expr (Di : Type) where
  | const (x : FVal)
  | inp (i : ℕ)
  | app (id : ℕ) (kind : Kind) (op : Op) (n : ℕ) (args : Fin n → Expr Di)
  | rv (id : ℕ) (dist : Di) (n : ℕ) (args : Fin n → Expr Di)
  | valued (rv val : Expr Di)

variable {Di : Type}

/-- The kind of a variable's data type.  `valued` has that of the variable (abstract.py:132-176); constants and inputs are never asked. -/
def kindOf (kd : Di → Kind) : Expr Di → Kind
  | .app _ k _ _ _ => k
  | .rv _ dist _ _ => kd dist
  | .valued r _ => kindOf kd r
  | _ => .other

/-- rewriting.py:270-274: every use of a variable with a value becomes its `ValuedVariable`. -/
def replaceValued (vals : Dict ℕ ℕ) : Expr Di → Expr Di
  | .const x => .const x
  | .inp i => .inp i
  | .app id k op n args =>
    match Dict.get? vals id with
    | some v => .valued (.app id k op n args) (.inp v)
    | none => .app id k op n fun i => replaceValued vals (args i)
  | .rv id dist n args =>
    match Dict.get? vals id with
    | some v => .valued (.rv id dist n args) (.inp v)
    | none => .rv id dist n fun i => replaceValued vals (args i)
  | .valued r v => .valued (replaceValued vals r) (replaceValued vals v)

/-- rewriting.py:246-254: the clone of the node of a variable with a value. -/
def cloneOf (vals : Dict ℕ ℕ) : Expr Di → Expr Di
  | .app id k op n args => .app id k op n fun i => replaceValued vals (args i)
  | .rv id dist n args => .rv id dist n fun i => replaceValued vals (args i)
  | e => e

/-- rewriting.py:299-302 `remove_ValuedVariable`, applied everywhere (joint_logprob.py:216-217). -/
def cleanup : Expr Di → Expr Di
  | .const x => .const x
  | .inp i => .inp i
  | .app id k op n args => .app id k op n fun i => cleanup (args i)
  | .rv id dist n args => .rv id dist n fun i => cleanup (args i)
  | .valued _ v => cleanup v

/-- Value of a graph, given the values `ρ` of its inputs and the sampler `ω` that computes the draw of a random variable left in the graph. -/
noncomputable def eval (ρ : ℕ → FVal) (ω : ℕ → Di → List FVal → FVal) : Expr Di → FVal
  | .const x => x
  | .inp i => ρ i
  | .app _ _ op _ args => op.eval (List.ofFn fun i => eval ρ ω (args i))
  | .rv id dist _ args => ω id dist (List.ofFn fun i => eval ρ ω (args i))
  | .valued r _ => eval ρ ω r

/-! ## The rewriter -/

/-- `var.owner and isinstance(var.owner.op, MeasurableVariable) and not isinstance(var.owner.op, ValuedVariable)` (transforms.py:536-538, censoring.py:48-52, 198-201, mixture.py:236-238,
260-262, 316-320). -/
def isMeas (S : ℕ → Bool) : Expr Di → Bool
  | .app id _ _ _ _ => S id
  | .rv _ _ _ _ => true
  | _ => false

/-- transforms.py:557-578: whether the walk from a variable meets an unvalued measurable variable. -/
def meets (S : ℕ → Bool) : Expr Di → Bool
  | .app id _ _ n args => S id || (List.finRange n).any fun i => meets S (args i)
  | .rv _ _ _ _ => true
  | _ => false

/-- transforms.py:386-597: whether the rewrite of an elementwise node applies. -/
def elemApplies (kd : Di → Kind) (S : ℕ → Bool) (op : IR.Op) (n : ℕ) (args : Fin n → Expr Di) : Bool :=
  op.supported n &&
  match (List.finRange n).filter fun i => isMeas S (args i) with
  | [i] => kindOf kd (args i) != .int && !((List.finRange n).filter fun j => j ≠ i).any fun j => meets S (args j)
  | _ => false

/-- convolutions.py:22: `inp.owner and isinstance(inp.owner.op, NormalRV)`; a sum of normal variables that has been rewritten is one (lines 34-46).  (`NormalRV` has two parameters.) -/
def isNormal [IR.Normals Di] (S : ℕ → Bool) : Expr Di → Bool
  | .rv _ dist n _ => n == 2 && IR.Normals.isNormal dist
  | .app id _ (.elem op) n args => S id && op.sums n && (List.finRange n).all fun i => isNormal S (args i)
  | _ => false

/-- convolutions.py:8-48 `add_independent_normals`: whether it applies. -/
def sumApplies [IR.Normals Di] (S : ℕ → Bool) (op : IR.Op) (n : ℕ) (args : Fin n → Expr Di) : Bool :=
  op.sums n && (List.finRange n).all fun i => isNormal S (args i)

/-- The rewrites of `measurable_ir_rewrites_db` (rewriting.py:169-182): elementwise functions, sums of normal variables, censoring.py:36-70 `find_measurable_clips` (nothing is asked of the bounds) and
censoring.py:155-213 `construct_measurable_rounding`. -/
def applies1 [IR.Normals Di] (kd : Di → Kind) (S : ℕ → Bool) : Expr Di → Bool
  | .app _ _ (.elem op) n args => elemApplies kd S op n args || sumApplies S op n args
  | .app _ _ .clip 3 args => isMeas S (args 0)
  | .app _ _ (.round _) 1 args => isMeas S (args 0) && kindOf kd (args 0) == .float
  | _ => false

/-- mixture.py:412-420, after the ones before have come to an end: `mixture_replace` (mixture.py:232-302, with 204-229) and `switch_mixture_replace` (mixture.py:305-347).  Nothing is asked of
the index.  (A stack whose components are all measurable has become a `MeasurableMakeVector` by then; its inputs are copies of the components, measurable like them, so that mixture.py:236-238 still holds.) -/
def applies2 (S : ℕ → Bool) : Expr Di → Bool
  | .app _ _ .switch 3 args => isMeas S (args 1) && isMeas S (args 2)
  | .app _ _ .pick (k + 1) args => 0 < k && (List.finRange k).all fun i => isMeas S (args i.succ)
  | _ => false

/-- The nodes of a graph, down to the values. -/
inductive Sub : Expr Di → Expr Di → Prop
  | refl (e) : Sub e e
  | app {e id k op n args} (i) : Sub e (args i) → Sub e (.app id k op n args)
  | rv {e id dist n args} (i) : Sub e (args i) → Sub e (.rv id dist n args)

/-- One step of an equilibrium rewriter (rewriting.py:169-174): it converts some node of the graphs `es` whose rewrite applies.  The order in which nodes are visited is left open. -/
inductive Step (applies : (ℕ → Bool) → Expr Di → Bool) (es : List (Expr Di)) : (ℕ → Bool) → (ℕ → Bool) → Prop
  | convert {S : ℕ → Bool} {e : Expr Di} {id k op n args} : e ∈ es → Sub (.app id k op n args) e → S id = false → applies S (.app id k op n args) = true →
      Step applies es S (fun v => v = id || S v)

/-- Any number of steps. -/
inductive Steps (applies : (ℕ → Bool) → Expr Di → Bool) (es : List (Expr Di)) : (ℕ → Bool) → (ℕ → Bool) → Prop
  | nil (S) : Steps applies es S S
  | cons {S T U} : Step applies es S T → Steps applies es T U → Steps applies es S U

/-- The rewriter stops: no rewrite applies any more. -/
def Final (applies : (ℕ → Bool) → Expr Di → Bool) (es : List (Expr Di)) (S : ℕ → Bool) : Prop := ∀ T, ¬ Step applies es S T

/-- The rewrites in the order of the database (rewriting.py:163-184, mixture.py:412-420): first those of `measurable_ir_rewrites_db` until none applies, then mixtures until none applies. -/
structure Run [IR.Normals Di] (kd : Di → Kind) (es : List (Expr Di)) (S : ℕ → Bool) : Prop where
  mid : ∃ M, Steps (applies1 kd) es (fun _ => false) M ∧ Final (applies1 kd) es M ∧ Steps applies2 es M S
  stop : Final applies2 es S

/-! ## Log-probabilities -/

/-- A bound of a measurable clip node: the clipped variable itself, or an expression. -/
inductive BoundE (Di : Type)
  | base
  | of (e : Expr Di)

/-- A measurable variable, as a tree of the measurable nodes. -/
inductive MVar (Di : Type) where
  | rv (id : ℕ) (dist : Di) (n : ℕ) (args : Fin n → Expr Di)
  | elem (op : IR.Op) (n : ℕ) (idx : Fin n) (args : Fin n → Expr Di) (base : MVar Di)
  | clip (lo hi : BoundE Di) (base : MVar Di)
  | round (r : RoundOp) (base : MVar Di)
  | mix (idx : Expr Di) (k : ℕ) (comps : Fin k → MVar Di)

/-- The identity of a node's output. -/
def nodeId : Expr Di → Option ℕ
  | .app id _ _ _ _ => some id
  | .rv id _ _ _ => some id
  | _ => none

/-- censoring.py:58-59: `bound is not base_var`. -/
def boundE (base b : Expr Di) : BoundE Di := if (nodeId b).isSome ∧ nodeId b = nodeId base then .base else .of b

/-- The mixture of the components found in a list of positions. -/
def mixOf (idx : Expr Di) (k : ℕ) (comps : Fin k → Option (MVar Di)) : Option (MVar Di) :=
  if h : ∀ i, (comps i).isSome then some (.mix idx k fun i => (comps i).get (h i)) else none

/-- convolutions.py:29-30: the distribution, mean and standard deviation of a normal variable. -/
def MVar.params2 : MVar Di → Option (Di × Expr Di × Expr Di)
  | .rv _ dist n args => if h : n = 2 then some (dist, args ⟨0, by omega⟩, args ⟨1, by omega⟩) else none
  | _ => none

/-- convolutions.py:29-46: the normal variable that a sum is replaced by. -/
noncomputable def normalSum (id : ℕ) (k : Kind) (op : IR.Op) (n : ℕ) (ps : Fin n → Option (Di × Expr Di × Expr Di)) : Option (MVar Di) :=
  if h : 0 < n ∧ ∀ i, (ps i).isSome then
    some (.rv id ((ps ⟨0, h.1⟩).get (h.2 _)).1 2 (Fin.cons (.app id k (.elem op) n fun i => ((ps i).get (h.2 i)).2.1)
      fun _ => .app id k (.elem (.other IR.sqrtSumSq)) n fun i => ((ps i).get (h.2 i)).2.2))
  else none

/-- The measurable variable that a node has been converted to, when the nodes in `S` are: transforms.py:580-597, convolutions.py:25-48, censoring.py:61-70, 208-213, mixture.py:264-288, 322-333. -/
noncomputable def measOf (S : ℕ → Bool) : Expr Di → Option (MVar Di)
  | .rv id dist n args => some (.rv id dist n args)
  | .app id k (.elem op) n args =>
    if S id then
      match (List.finRange n).filter fun i => isMeas S (args i) with
      | [i] => (measOf S (args i)).map fun m => .elem op n i args m
      | _ => normalSum id k op n fun i => (measOf S (args i)).bind MVar.params2
    else none
  | .app id _ .clip 3 args => if S id then (measOf S (args 0)).map fun m => .clip (boundE (args 0) (args 1)) (boundE (args 0) (args 2)) m else none
  | .app id _ (.round r) 1 args => if S id then (measOf S (args 0)).map fun m => .round r m else none
  | .app id _ .switch 3 args => if S id then mixOf (args 0) 2 fun i => measOf S (args i.succ) else none
  | .app id _ .pick (k + 1) args => if S id then mixOf (args 0) k fun i => measOf S (args i.succ) else none
  | _ => none

/-- Whether the log-probability graph can be made: `clip_logprob` and `round_logprob` call `_logcdf` on the node below (censoring.py:104, 268-269), which is registered for random variables of some distributions
only (logprob.py:100-124). -/
def MVar.buildable (hasCdf : Di → Bool) : MVar Di → Bool
  | .rv _ _ _ _ => true
  | .elem _ _ _ _ m => m.buildable hasCdf
  | .clip _ _ (.rv _ dist _ _) => hasCdf dist
  | .clip _ _ _ => false
  | .round _ (.rv _ dist _ _) => hasCdf dist
  | .round _ _ => false
  | .mix _ k comps => (List.finRange k).all fun i => (comps i).buildable hasCdf

/-- The bound when the graph is evaluated: whether it is a `TensorConstant` matters (censoring.py:112, 128-129). -/
def BoundE.arg (ev : Expr Di → FVal) : BoundE Di → ClipArg
  | .base => .base
  | .of (.const x) => .const x
  | .of e => .sym (ev e)

/-- The registered log-probabilities and log-CDFs of distributions (logprob.py), at a value and parameters. -/
structure Registry (Di : Type) where
  kernel : Di → FVal → List FVal → Except Err FVal
  cdf : Di → FVal → List FVal → Except Err FVal

/-- The elementwise node with the values of its other inputs, as in `Model/IR` (transforms.py:386-504). -/
def elemNode : IR.Op → List Arg → Option ElemNode
  | .add, as => some (.add as)
  | .mul, as => some (.mul as)
  | .sub, [a, b] => some (.sub a b)
  | .div, [a, b] => some (.div a b)
  | .exp, [a] => some (.exp a)
  | .log, [a] => some (.log a)
  | .reciprocal, [a] => some (.reciprocal a)
  | _, _ => none

/-- transforms.py:364-383 above the log-probability `lp` of the measurable input. -/
noncomputable def elemLp (op : IR.Op) (inputs : List Arg) (lp : FVal → Except Err FVal) (v : FVal) : Except Err FVal :=
  match elemNode op inputs with
  | none => .error .notImplemented
  | some nd =>
    match derivedLogprob [nd] lp with
    | none => .error .notImplemented
    | some l => l v

/-- Evaluation of the log-probability of a measurable variable at a value: logprob.py for random variables, transforms.py:364-383, censoring.py:81-143, censoring.py:216-275, mixture.py:399-409.  `ev` evaluates
the other parts of the graph. -/
noncomputable def MVar.lp (reg : Registry Di) (kd : Di → Kind) (ev : Expr Di → FVal) : MVar Di → FVal → Except Err FVal
  | .rv _ dist _ args, v => reg.kernel dist v (List.ofFn fun i => ev (args i))
  | .elem op _ idx args m, v => elemLp op (List.ofFn fun i => if i = idx then Arg.meas else .other (ev (args i))) (m.lp reg kd ev) v
  | .clip lo hi (.rv _ dist _ args), v =>
    measurableClip (kd dist == .int) (fun x => reg.kernel dist x (List.ofFn fun i => ev (args i))) (fun x => reg.cdf dist x (List.ofFn fun i => ev (args i))) (lo.arg ev) (hi.arg ev) v
  | .clip _ _ _, _ => .error .notImplemented
  | .round r (.rv _ dist _ args), v => roundLogprob r (fun x => reg.cdf dist x (List.ofFn fun i => ev (args i))) v
  | .round _ _, _ => .error .notImplemented
  | .mix idx _ comps, v => mixtureLogprob (List.ofFn fun i => (comps i).lp reg kd ev) (indexOf (ev idx)) v

/-- A log-probability graph: that of a measurable variable at the value variable `value`. -/
structure Term (Di : Type) where
  value : ℕ
  meas : MVar Di

/-- Evaluation of a log-probability graph.  The remaining `ValuedVariable`s are removed (joint_logprob.py:216-217). -/
noncomputable def Term.eval (reg : Registry Di) (kd : Di → Kind) (ρ : ℕ → FVal) (ω : ℕ → Di → List FVal → FVal) (t : Term Di) : Except Err FVal :=
  t.meas.lp reg kd (fun e => Full.eval ρ ω (cleanup e)) (ρ t.value)

/-- The answers of graph conversion and `_logprob` dispatch, when the rewriter has ended with `S`. -/
noncomputable def backend (hasCdf : Di → Bool) (S : ℕ → Bool) (defs : ℕ → Option (Expr Di)) (d : Dict ℕ ℕ) : Backend ℕ ℕ Unit (Term Di) where
  owner v := if (defs v).isSome then some v else none
  dtype _ := ()
  rewrite d := .ok (d.map fun p => some ⟨p.1, p.2⟩, d.map Prod.snd)
  measurableOutputs n :=
    match defs n with
    | some e => if isMeas S (cloneOf d e) then [n] else []
    | none => []
  logprob n vs :=
    match defs n, vs with
    | some e, [v] =>
      match measOf S (cloneOf d e) with
      | some m => if m.buildable hasCdf then .ok [⟨v, m⟩] else .error .notImplemented
      | none => .error .notImplemented
    | _, _ => .error .notImplemented

/-- `conditional_logprob` (joint_logprob.py:24-226) on the model in which the variables with an owner are given by `defs`. -/
noncomputable def conditional (hasCdf : Di → Bool) (S : ℕ → Bool) (defs : ℕ → Option (Expr Di)) (rvs clones : List ℕ) (realized : Dict ℕ ℕ) : Except Err (Dict ℕ (Term Di) × List ℕ) :=
  conditionalLogprob (backend hasCdf S defs (rvValues rvs clones realized)) rvs clones realized

/-- `joint_logprob` (joint_logprob.py:229-296). -/
noncomputable def joint (hasCdf : Di → Bool) (S : ℕ → Bool) (defs : ℕ → Option (Expr Di)) (rvs clones : List ℕ) (realized : Dict ℕ ℕ) : Except Err (Option (JointExpr (Term Di) × List ℕ)) :=
  jointLogprob (backend hasCdf S defs (rvValues rvs clones realized)) rvs clones realized

/-- The outputs that graph conversion starts from: the clones of the nodes of all variables with values. -/
def outputs (defs : ℕ → Option (Expr Di)) (d : Dict ℕ ℕ) : List (Expr Di) := d.filterMap fun p => (defs p.1).map (cloneOf d)

/-- Value of a joint graph of scalar terms. -/
noncomputable def evalJoint (reg : Registry Di) (kd : Di → Kind) (ρ : ℕ → FVal) (ω : ℕ → Di → List FVal → FVal) : JointExpr (Term Di) → Except Err FVal
  | .sum t => t.eval reg kd ρ ω
  | .sumOfSums ts => IR.sumE (ts.map fun t => t.eval reg kd ρ ω)

end Verif.Full
