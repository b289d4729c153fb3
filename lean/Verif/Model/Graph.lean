import Verif.Model.CondLogprob

/-! # Model graphs: expressions with random variables

Graph conversion for models made of (scalar) random variables and deterministic operations, on top of `Model/CondLogprob.lean`.
-/

namespace Verif.Graph
open Verif Cond

/-- A user graph.  `Di` are the distributions.  A random variable node carries the identity of its output variable; `inp i` is a
variable without owner (an input or a value variable); `valued` is a `ValuedVariable` node (abstract.py:132-176).
Simplifications: all variables are scalar; deterministic nodes compute a total function of their inputs. -/
inductive Expr (Di : Type) where
  | const (x : FVal)
  | inp (i : ℕ)
  | app (n : ℕ) (f : (Fin n → FVal) → FVal) (args : Fin n → Expr Di)
  | rv (id : ℕ) (dist : Di) (n : ℕ) (args : Fin n → Expr Di)
  | valued (rv val : Expr Di)

variable {Di : Type}

/-- rewriting.py:270-274 `fgraph.replace_all([(memo[rv], val) ...])`: every use of a valued random variable becomes its `ValuedVariable`.
The replacement is the node made before cloning (line 254), so its own inputs are not rewritten. -/
def replaceValued (vals : Dict ℕ ℕ) : Expr Di → Expr Di
  | .const x => .const x
  | .inp i => .inp i
  | .app n f args => .app n f fun i => replaceValued vals (args i)
  | .rv id dist n args =>
    match Dict.get? vals id with
    | some v => .valued (.rv id dist n args) (.inp v)
    | none => .rv id dist n fun i => replaceValued vals (args i)
  | .valued r v => .valued (replaceValued vals r) (replaceValued vals v)

/-- rewriting.py:299-302 `remove_ValuedVariable`, applied everywhere (joint_logprob.py:216-217). -/
def cleanup : Expr Di → Expr Di
  | .const x => .const x
  | .inp i => .inp i
  | .app n f args => .app n f fun i => cleanup (args i)
  | .rv id dist n args => .rv id dist n fun i => cleanup (args i)
  | .valued _ v => cleanup v

/-- Value of a graph, given the values `ρ` of its inputs and the sampler `ω` that computes the draw of a random variable left in the graph
from its generator (identified with the variable), its distribution and the values of its parameters. -/
def eval (ρ : ℕ → FVal) (ω : ℕ → Di → List FVal → FVal) : Expr Di → FVal
  | .const x => x
  | .inp i => ρ i
  | .app _ f args => f fun i => eval ρ ω (args i)
  | .rv id dist _ args => ω id dist (List.ofFn fun i => eval ρ ω (args i))
  | .valued r _ => eval ρ ω r

/-- A random variable of the model: distribution and parameter graphs. -/
structure RVDef (Di : Type) where
  dist : Di
  n : ℕ
  args : Fin n → Expr Di

/-- A log-probability graph: the distribution's kernel at a value graph and parameter graphs. -/
structure Term (Di : Type) where
  dist : Di
  value : Expr Di
  n : ℕ
  args : Fin n → Expr Di

/-- Evaluation of a log-probability graph; `kernel` are the formulas of logprob.py. -/
def Term.eval (kernel : (di : Di) → FVal → List FVal → Except Err FVal) (ρ : ℕ → FVal) (ω : ℕ → Di → List FVal → FVal) (t : Term Di) : Except Err FVal :=
  kernel t.dist (Graph.eval ρ ω t.value) (List.ofFn fun i => Graph.eval ρ ω (t.args i))

/-- The answers of graph conversion and `_logprob` dispatch for such a model: converting a random variable gives the clone of its node
(one measurable output, named like the variable itself), values are kept, and `_logprob` gets the rewritten inputs of the node.
The clean-up of the final graphs is applied to the term directly. -/
def backend (defs : ℕ → Option (RVDef Di)) (d : Dict ℕ ℕ) : Backend ℕ ℕ Unit (Term Di) where
  owner v := if (defs v).isSome then some v else none
  dtype _ := ()
  rewrite d := .ok (d.map fun p => some ⟨p.1, p.2⟩, d.map Prod.snd)
  measurableOutputs n := if (defs n).isSome then [n] else []
  logprob n vs :=
    match defs n, vs with
    | some r, [v] => .ok [⟨r.dist, cleanup (.inp v), r.n, fun i => cleanup (replaceValued d (r.args i))⟩]
    | _, _ => .error .notImplemented

/-- `conditional_logprob` on the model given by `defs`. -/
def conditional (defs : ℕ → Option (RVDef Di)) (rvs clones : List ℕ) (realized : Dict ℕ ℕ) : Except Err (Dict ℕ (Term Di) × List ℕ) :=
  conditionalLogprob (backend defs (rvValues rvs clones realized)) rvs clones realized

/-- `joint_logprob` on the model given by `defs`. -/
def joint (defs : ℕ → Option (RVDef Di)) (rvs clones : List ℕ) (realized : Dict ℕ ℕ) : Except Err (Option (JointExpr (Term Di) × List ℕ)) :=
  jointLogprob (backend defs (rvValues rvs clones realized)) rvs clones realized

/-- Adding up evaluated terms; one that raises makes the whole evaluation raise. -/
noncomputable def sumE : List (Except Err FVal) → Except Err FVal
  | [] => .ok 0
  | .error e :: _ => .error e
  | .ok x :: l =>
    match sumE l with
    | .error e => .error e
    | .ok y => .ok (x + y)

/-- Value of a joint graph of scalar terms. -/
noncomputable def evalJoint (kernel : (di : Di) → FVal → List FVal → Except Err FVal) (ρ : ℕ → FVal) (ω : ℕ → Di → List FVal → FVal) :
    JointExpr (Term Di) → Except Err FVal
  | .sum t => t.eval kernel ρ ω
  | .sumOfSums ts => sumE (ts.map fun t => t.eval kernel ρ ω)

end Verif.Graph
