import Verif.Model.CondLogprob
import Verif.Model.Elemwise

/-!
# Graph conversion for models with derived variables

`construct_ir_fgraph` (`/repo/aeppl/rewriting.py:187-296`) with the elementwise rewrites of `/repo/aeppl/transforms.py:386-597` and
`add_independent_normals` (`/repo/aeppl/convolutions.py:8-48`), on graphs of scalar random variables, elementwise
operations and other deterministic operations.
-/

namespace Verif.IR
open Verif Cond

/-- Operations.  The first seven have measurable rewrites (transforms.py:386-504). -/
inductive Op
  | add | mul | sub | div | exp | log | reciprocal
  | other (f : List FVal → FVal)

/-- Which distributions are `NormalRV` (convolutions.py:22). -/
class Normals (Di : Type) where
  isNormal : Di → Bool

/-- convolutions.py:8, 12-13: additions of at least two inputs and subtractions. -/
def Op.sums : Op → ℕ → Bool
  | .add, n => 2 ≤ n
  | .sub, n => n = 2
  | _, _ => false

/-- `at.sqrt(at.add(*covs))` with `covs = [sigma ** 2, ...]` (convolutions.py:30, 39). -/
noncomputable def sqrtSumSq (l : List FVal) : FVal := FVal.sqrt ((l.map FVal.sq).foldr (· + ·) 0)

/-- The value of an operation. -/
noncomputable def Op.eval : Op → List FVal → FVal
  | .add, l => l.foldr (· + ·) 0
  | .mul, l => l.foldr (· * ·) 1
  | .sub, [a, b] => a - b
  | .div, [a, b] => a / b
  | .exp, [a] => FVal.exp a
  | .log, [a] => FVal.log a
  | .reciprocal, [a] => FVal.reciprocal a
  | .other f, l => f l
  | _, _ => .nan

/-- A graph.  Every node that can be given a value carries the identity of its output; `inp i` is a variable without owner; `valued` is a `ValuedVariable` node
(abstract.py:132-176).  A variable that is used several times occurs several times, with the same identity.  Simplifications: all variables are scalar; equal nodes are not
merged (rewriting.py:164), which matters only when two requested variables are equal nodes: `Model/Merge.lean`, `Model/SharedSource.lean`. -/
inductive Expr (Di : Type) where
  | const (x : FVal)
  | inp (i : ℕ)
  | app (id : ℕ) (op : Op) (n : ℕ) (args : Fin n → Expr Di)
  | rv (id : ℕ) (dist : Di) (n : ℕ) (args : Fin n → Expr Di)
  | valued (rv val : Expr Di)

variable {Di : Type}

/-- rewriting.py:270-274: every use of a variable with a value becomes its `ValuedVariable`; the replacement is the node made before cloning (line 254). -/
def replaceValued (vals : Dict ℕ ℕ) : Expr Di → Expr Di
  | .const x => .const x
  | .inp i => .inp i
  | .app id op n args =>
    match Dict.get? vals id with
    | some v => .valued (.app id op n args) (.inp v)
    | none => .app id op n fun i => replaceValued vals (args i)
  | .rv id dist n args =>
    match Dict.get? vals id with
    | some v => .valued (.rv id dist n args) (.inp v)
    | none => .rv id dist n fun i => replaceValued vals (args i)
  | .valued r v => .valued (replaceValued vals r) (replaceValued vals v)

/-- rewriting.py:246-254: the clone of the node of a variable with a value, the first input of one of the graph's outputs.  It is a different node, so that it is not itself replaced. -/
def cloneOf (vals : Dict ℕ ℕ) : Expr Di → Expr Di
  | .app id op n args => .app id op n fun i => replaceValued vals (args i)
  | .rv id dist n args => .rv id dist n fun i => replaceValued vals (args i)
  | e => e

/-- rewriting.py:299-302 `remove_ValuedVariable`, applied everywhere (joint_logprob.py:216-217). -/
def cleanup : Expr Di → Expr Di
  | .const x => .const x
  | .inp i => .inp i
  | .app id op n args => .app id op n fun i => cleanup (args i)
  | .rv id dist n args => .rv id dist n fun i => cleanup (args i)
  | .valued _ v => cleanup v

/-- Value of a graph, given the values `ρ` of its inputs and the sampler `ω` that computes the draw of a random variable left in the graph. -/
noncomputable def eval (ρ : ℕ → FVal) (ω : ℕ → Di → List FVal → FVal) : Expr Di → FVal
  | .const x => x
  | .inp i => ρ i
  | .app _ op _ args => op.eval (List.ofFn fun i => eval ρ ω (args i))
  | .rv id dist _ args => ω id dist (List.ofFn fun i => eval ρ ω (args i))
  | .valued r _ => eval ρ ω r

/-! ## The rewriter

The state is the set of the nodes converted so far.  A converted node is `Measurable`; its measurable input becomes an unmeasurable copy
(`assign_custom_measurable_outputs`, transforms.py:580-583), which leaves the other users of that input alone. -/

/-- `inp.owner and isinstance(inp.owner.op, MeasurableVariable) and not isinstance(inp.owner.op, ValuedVariable)` (transforms.py:536-538, 573-575). -/
def isMeas (S : ℕ → Bool) : Expr Di → Bool
  | .app id _ _ _ => S id
  | .rv _ _ _ _ => true
  | _ => false

/-- transforms.py:557-578: whether the walk from a variable, which goes beyond nodes that are neither measurable nor valued, meets an unvalued measurable variable
(the walk itself is `Model/Walk`, where it is shown to visit exactly the variables that can be reached). -/
def meets (S : ℕ → Bool) : Expr Di → Bool
  | .app id _ n args => S id || (List.finRange n).any fun i => meets S (args i)
  | .rv _ _ _ _ => true
  | _ => false

/-- convolutions.py:22: `inp.owner and isinstance(inp.owner.op, NormalRV)`; a sum of normal variables that has been rewritten is one (lines 34-46).  (`NormalRV` has two parameters.) -/
def isNormal [Normals Di] (S : ℕ → Bool) : Expr Di → Bool
  | .rv _ dist n _ => n == 2 && Normals.isNormal dist
  | .app id op n args => S id && op.sums n && (List.finRange n).all fun i => isNormal S (args i)
  | _ => false

/-- convolutions.py:8-48 `add_independent_normals`: whether it applies. -/
def sumApplies [Normals Di] (S : ℕ → Bool) : Expr Di → Bool
  | .app _ op n args => op.sums n && (List.finRange n).all fun i => isNormal S (args i)
  | _ => false

/-- The source of randomness below a measurable variable: its data type is that of the variable.  (For sums of normal variables, the first one.) -/
def source (S : ℕ → Bool) : Expr Di → Option Di
  | .app _ _ n args =>
    match (List.finRange n).filter fun i => isMeas S (args i) with
    | [i] => source S (args i)
    | _ => if h : 0 < n then source S (args ⟨0, h⟩) else none
  | .rv _ dist _ _ => some dist
  | _ => none

/-- The operations with a rewrite, by the number of inputs they have. -/
def Op.supported : Op → ℕ → Bool
  | .add, n => 2 ≤ n
  | .mul, n => 2 ≤ n
  | .sub, n => n = 2
  | .div, n => n = 2
  | .exp, n => n = 1
  | .log, n => n = 1
  | .reciprocal, n => n = 1
  | .other _, _ => false

/-- transforms.py:386-597: whether the rewrite of an elementwise node applies.  `isInt` tells whether the data type of a distribution begins with `int` (lines 547-548); the elementwise operations have
the type of their measurable input. -/
def elemApplies (isInt : Di → Bool) (S : ℕ → Bool) : Expr Di → Bool
  | .app _ op n args =>
    op.supported n &&
    match (List.finRange n).filter fun i => isMeas S (args i) with
    | [i] =>
      (match source S (args i) with
        | some dist => !isInt dist
        | none => false) &&
      !((List.finRange n).filter fun j => j ≠ i).any fun j => meets S (args j)
    | _ => false
  | _ => false

/-- Whether one of the rewrites of a node applies. -/
def canConvert [Normals Di] (isInt : Di → Bool) (S : ℕ → Bool) (e : Expr Di) : Bool := elemApplies isInt S e || sumApplies S e

/-- The nodes of a graph, down to the values. -/
inductive Sub : Expr Di → Expr Di → Prop
  | refl (e) : Sub e e
  | app {e id op n args} (i) : Sub e (args i) → Sub e (.app id op n args)
  | rv {e id dist n args} (i) : Sub e (args i) → Sub e (.rv id dist n args)

/-- One step of the equilibrium rewriter (rewriting.py:163-184): it converts some node of the graphs `es` whose rewrite applies.  The order in which nodes are visited is left open. -/
inductive Step [Normals Di] (isInt : Di → Bool) (es : List (Expr Di)) : (ℕ → Bool) → (ℕ → Bool) → Prop
  | convert {S : ℕ → Bool} {e : Expr Di} {id op n args} : e ∈ es → Sub (.app id op n args) e → S id = false → canConvert isInt S (.app id op n args) = true →
      Step isInt es S (fun v => v = id || S v)

/-- Any number of steps. -/
inductive Steps [Normals Di] (isInt : Di → Bool) (es : List (Expr Di)) : (ℕ → Bool) → (ℕ → Bool) → Prop
  | nil (S) : Steps isInt es S S
  | cons {S T U} : Step isInt es S T → Steps isInt es T U → Steps isInt es S U

/-- The rewriter stops: no rewrite applies any more. -/
def Final [Normals Di] (isInt : Di → Bool) (es : List (Expr Di)) (S : ℕ → Bool) : Prop := ∀ T, ¬ Step isInt es S T

/-! ## Log-probabilities -/

/-- A measurable elementwise node: the operation, the position of the measurable input, and all inputs (the one at that position is not used). -/
structure Layer (Di : Type) where
  op : Op
  n : ℕ
  idx : Fin n
  args : Fin n → Expr Di

/-- A measurable variable: a random variable and the elementwise nodes above it, innermost first. -/
structure Meas (Di : Type) where
  id : ℕ
  dist : Di
  n : ℕ
  args : Fin n → Expr Di
  layers : List (Layer Di)

/-- convolutions.py:29-30: the distribution, mean and standard deviation of a normal variable. -/
def Meas.params2 (m : Meas Di) : Option (Di × Expr Di × Expr Di) :=
  if h : m.n = 2 ∧ m.layers.isEmpty = true then some (m.dist, m.args ⟨0, by omega⟩, m.args ⟨1, by omega⟩) else none

/-- convolutions.py:29-46: the normal variable that a sum is replaced by. -/
noncomputable def normalSum (id : ℕ) (op : Op) (n : ℕ) (ps : Fin n → Option (Di × Expr Di × Expr Di)) : Option (Meas Di) :=
  if h : 0 < n ∧ ∀ i, (ps i).isSome then
    some ⟨id, ((ps ⟨0, h.1⟩).get (h.2 _)).1, 2, Fin.cons (.app id op n fun i => ((ps i).get (h.2 i)).2.1) fun _ => .app id (.other sqrtSumSq) n fun i => ((ps i).get (h.2 i)).2.2, []⟩
  else none

/-- The measurable variable that a node has been converted to, when the nodes in `S` are (transforms.py:580-597, convolutions.py:25-48). -/
noncomputable def measOf (S : ℕ → Bool) : Expr Di → Option (Meas Di)
  | .rv id dist n args => some ⟨id, dist, n, args, []⟩
  | .app id op n args =>
    if S id then
      match (List.finRange n).filter fun i => isMeas S (args i) with
      | [i] => (measOf S (args i)).map fun m => { m with layers := m.layers ++ [⟨op, n, i, args⟩] }
      | _ => normalSum id op n fun i => (measOf S (args i)).bind Meas.params2
    else none
  | _ => none

/-- The inputs of the transform of a node when it is evaluated (transforms.py:386-504); what is left of unvalued conversions is undone first (rewriting.py:286-292). -/
noncomputable def Layer.inputs (ev : Expr Di → FVal) (l : Layer Di) : List Arg := List.ofFn fun i => if i = l.idx then Arg.meas else .other (ev (l.args i))

/-- The node, with the values of its other inputs. -/
noncomputable def Layer.node (ev : Expr Di → FVal) (l : Layer Di) : Option ElemNode :=
  match l.op, l.inputs ev with
  | .add, as => some (.add as)
  | .mul, as => some (.mul as)
  | .sub, [a, b] => some (.sub a b)
  | .div, [a, b] => some (.div a b)
  | .exp, [a] => some (.exp a)
  | .log, [a] => some (.log a)
  | .reciprocal, [a] => some (.reciprocal a)
  | _, _ => none

/-- The nodes of a tower. -/
noncomputable def nodes (ev : Expr Di → FVal) (ls : List (Layer Di)) : Option (List ElemNode) := ls.mapM (Layer.node ev)

/-- A log-probability graph: that of a measurable variable at the value variable `value`. -/
structure Term (Di : Type) where
  value : ℕ
  meas : Meas Di

/-- Evaluation of a log-probability graph: transforms.py:364-383 for the elementwise nodes, and `kernel` (logprob.py) for the random variable.  The remaining `ValuedVariable`s are removed
(joint_logprob.py:216-217). -/
noncomputable def Term.eval (kernel : Di → FVal → List FVal → Except Err FVal) (ρ : ℕ → FVal) (ω : ℕ → Di → List FVal → FVal) (t : Term Di) : Except Err FVal :=
  let ev := fun e => IR.eval ρ ω (cleanup e)
  let base := fun v => kernel t.meas.dist v (List.ofFn fun i => ev (t.meas.args i))
  match nodes ev t.meas.layers with
  | none => .error .notImplemented
  | some ns =>
    match derivedLogprob ns base with
    | none => .error .notImplemented
    | some lp => lp (ρ t.value)

/-- The answers of graph conversion and `_logprob` dispatch, when the rewriter has ended with `S`: the clone of the node of a variable with a value is measurable if it is a random variable or
has been converted. -/
noncomputable def backend (S : ℕ → Bool) (defs : ℕ → Option (Expr Di)) (d : Dict ℕ ℕ) : Backend ℕ ℕ Unit (Term Di) where
  owner v := if (defs v).isSome then some v else none
  dtype _ := ()
  rewrite d := .ok (d.map fun p => some ⟨p.1, p.2⟩, d.map Prod.snd)
  measurableOutputs n :=
    match defs n with
    | some e => if isMeas S (cloneOf d e) then [n] else []
    | none => []
  logprob n vs :=
    match defs n, vs with
    | some e, [v] =>
      match measOf S (cloneOf d e) with
      | some m => .ok [⟨v, m⟩]
      | none => .error .notImplemented
    | _, _ => .error .notImplemented

/-- `conditional_logprob` on the model in which the variables with an owner are given by `defs`. -/
noncomputable def conditional (S : ℕ → Bool) (defs : ℕ → Option (Expr Di)) (rvs clones : List ℕ) (realized : Dict ℕ ℕ) : Except Err (Dict ℕ (Term Di) × List ℕ) :=
  conditionalLogprob (backend S defs (rvValues rvs clones realized)) rvs clones realized

/-- `joint_logprob`. -/
noncomputable def joint (S : ℕ → Bool) (defs : ℕ → Option (Expr Di)) (rvs clones : List ℕ) (realized : Dict ℕ ℕ) : Except Err (Option (JointExpr (Term Di) × List ℕ)) :=
  jointLogprob (backend S defs (rvValues rvs clones realized)) rvs clones realized

/-- The outputs that graph conversion starts from: the clones of the nodes of all variables with values. -/
def outputs (defs : ℕ → Option (Expr Di)) (d : Dict ℕ ℕ) : List (Expr Di) := d.filterMap fun p => (defs p.1).map (cloneOf d)

/-- Adding up evaluated terms; one that raises makes the whole evaluation raise. -/
noncomputable def sumE : List (Except Err FVal) → Except Err FVal
  | [] => .ok 0
  | .error e :: _ => .error e
  | .ok x :: l =>
    match sumE l with
    | .error e => .error e
    | .ok y => .ok (x + y)

/-- Value of a joint graph of scalar terms. -/
noncomputable def evalJoint (kernel : Di → FVal → List FVal → Except Err FVal) (ρ : ℕ → FVal) (ω : ℕ → Di → List FVal → FVal) : JointExpr (Term Di) → Except Err FVal
  | .sum t => t.eval kernel ρ ω
  | .sumOfSums ts => sumE (ts.map fun t => t.eval kernel ρ ω)

end Verif.IR
