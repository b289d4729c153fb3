import Verif.Model.Full

/-! # Merging of equal nodes before graph conversion (`/repo/aeppl/rewriting.py:164`) -/

namespace Verif.Full
open Verif Cond

variable {Di : Type}

/-- A graph without the identities of its operation nodes: two nodes with the same operation and the same inputs are equal.  Random variables keep their identity (each has its own random number
generator), and so do variables with values (each has its own value variable). -/
def bare : Expr Di → Expr Di
  | .const x => .const x
  | .inp i => .inp i
  | .app _ k op n args => .app 0 k op n fun i => bare (args i)
  | .rv id dist n args => .rv id dist n fun i => bare (args i)
  | .valued r v => .valued r v

/-- The canonicalization that comes before the other rewrites (rewriting.py:164) merges the nodes of two requested variables when they are equal.  Simplification: its other effects (which preserve the
meaning of expressions) are not modelled. -/
def Merged (defs : ℕ → Option (Expr Di)) (d : Dict ℕ ℕ) (v w : ℕ) : Prop := (defs v).map (fun e => bare (cloneOf d e)) = (defs w).map fun e => bare (cloneOf d e)

open scoped Classical in
/-- The node that is left of those merged with the node of `v`: that of the variable requested first. -/
noncomputable def rep (defs : ℕ → Option (Expr Di)) (d : Dict ℕ ℕ) (v : ℕ) : ℕ :=
  if v ∈ Dict.keys d then ((Dict.keys d).find? fun w => decide (Merged defs d v w)).getD v else v

/-- As `backend`, with merging: the outputs of the graph (rewriting.py:260-267, 276-279) are made of the nodes that are left. -/
noncomputable def mergedBackend (hasCdf : Di → Bool) (S : ℕ → Bool) (defs : ℕ → Option (Expr Di)) (d : Dict ℕ ℕ) : Backend ℕ ℕ Unit (Term Di) :=
  { backend hasCdf S defs d with rewrite := fun d' => .ok (d'.map fun p => some ⟨rep defs d p.1, p.2⟩, d'.map Prod.snd) }

/-- `conditional_logprob` (joint_logprob.py:24-226), with merging. -/
noncomputable def conditionalM (hasCdf : Di → Bool) (S : ℕ → Bool) (defs : ℕ → Option (Expr Di)) (rvs clones : List ℕ) (realized : Dict ℕ ℕ) : Except Err (Dict ℕ (Term Di) × List ℕ) :=
  conditionalLogprob (mergedBackend hasCdf S defs (rvValues rvs clones realized)) rvs clones realized

/-- `joint_logprob` (joint_logprob.py:222-319), with merging. -/
noncomputable def jointM (hasCdf : Di → Bool) (S : ℕ → Bool) (defs : ℕ → Option (Expr Di)) (rvs clones : List ℕ) (realized : Dict ℕ ℕ) : Except Err (Option (JointExpr (Term Di) × List ℕ)) :=
  jointLogprob (mergedBackend hasCdf S defs (rvValues rvs clones realized)) rvs clones realized

end Verif.Full
