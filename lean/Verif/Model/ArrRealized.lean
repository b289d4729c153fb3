import Verif.Model.ArrGraph

/-! # Realized values that are graphs, for models with array variables

As `Model/RealizedExpr.lean`, with the replacement written out on graphs. -/

namespace Verif.ArrGraph
open Verif Cond

variable {Di : Type}

/-- rewriting.py:289-292: each value clone is replaced by its value variable, `graphs x` being the graph that the value variable `x` is the output of (`none` if it has no owner).  The graph of the user is put in as it is.
Simplification: the replacement comes after `remove_ValuedVariable` (joint_logprob.py:216-217) instead of before; the graphs of users have no `ValuedVariable`s. -/
def putBack (graphs : ℕ → Option (Expr Di)) : Expr Di → Expr Di
  | .const x => .const x
  | .inp i => (graphs i).getD (.inp i)
  | .app n f args => .app n f fun i => putBack graphs (args i)
  | .rv id dist n args => .rv id dist n fun i => putBack graphs (args i)
  | .valued r v => .valued (putBack graphs r) (putBack graphs v)

/-- rewriting.py:289-292, in the value and the parameters of a term. -/
def Term.putBack (graphs : ℕ → Option (Expr Di)) (t : Term Di) : Term Di := ⟨t.dist, ArrGraph.putBack graphs t.value, t.n, fun i => ArrGraph.putBack graphs (t.args i)⟩

/-- joint_logprob.py:21-219 `conditional_logprob` with values that are graphs. -/
def conditionalGraphs (graphs : ℕ → Option (Expr Di)) (defs : ℕ → Option (RVDef Di)) (rvs clones : List ℕ) (realized : Dict ℕ ℕ) : Except Err (Dict ℕ (Term Di) × List ℕ) :=
  match conditionalLogprob (backend defs (rvValues rvs clones realized)) rvs clones realized with
  | .error e => .error e
  | .ok (terms, vvs) => .ok (terms.map fun p => (p.1, p.2.putBack graphs), vvs)

/-- joint_logprob.py:307-319 `joint_logprob` with values that are graphs. -/
def jointGraphs (graphs : ℕ → Option (Expr Di)) (defs : ℕ → Option (RVDef Di)) (rvs clones : List ℕ) (realized : Dict ℕ ℕ) : Except Err (Option (JointExpr (Term Di) × List ℕ)) :=
  match conditionalGraphs graphs defs rvs clones realized with
  | .error e => .error e
  | .ok ([], _) => .ok none
  | .ok ([(_, t)], vvs) => .ok (some (.sum t, vvs))
  | .ok (terms, vvs) => .ok (some (.sumOfSums (Dict.values terms), vvs))

end Verif.ArrGraph
