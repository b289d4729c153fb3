import Verif.Spec.Core

/-! # When `conditional_logprob` returns, and which error it raises otherwise -/

namespace Verif.Cond
open Verif

variable {V N D T : Type} [DecidableEq V] [DecidableEq N] [DecidableEq D]

/-- The valued outputs of a node, in the order of the request. -/
def boundTo (B : Backend V N D T) (os : List (ValuedOut V)) (n : N) : List (ValuedOut V) := os.filter fun o => B.owner o.rv = some n

/-- All measurable outputs of a node are valued, each once, and the node has log-probabilities for these values. -/
def Complete (B : Backend V N D T) (os : List (ValuedOut V)) (n : N) : Prop :=
  (B.measurableOutputs n).Perm ((boundTo B os n).map ValuedOut.rv) ∧ ∃ lps, B.logprob n ((boundTo B os n).map ValuedOut.val) = .ok lps

/-- The nodes of the valued outputs, in the order of their first output in the request. -/
def nodesOf (B : Backend V N D T) (os : List (ValuedOut V)) : List N := firstOcc (os.filterMap fun o => B.owner o.rv)

end Verif.Cond
