import Verif.Model.Full

/-! # Realized values that are graphs

`realized` may map a variable to a variable with an owner, e.g. `realized={Y_rv: 2 * y}` (tests/test_joint_logprob.py:242-246) or `y_obs = Y_rv.copy()` (joint_logprob.py:88-89, 279-280).  `construct_ir_fgraph` puts a
clone without owner in its place while it rewrites (rewriting.py:249-254), and puts the graph back at the end (rewriting.py:289-292).  That graph is the one of the user: the replacement of variables by their values
(rewriting.py:270-274) came before, and does not reach it. -/

namespace Verif.Full
open Verif Cond

variable {Di : Type}

/-- rewriting.py:289-292: the value clones are replaced by the value variables, `graphs x` being the graph that the value variable `x` is the output of (`none` if it has no owner).  What `x` then stands for is the value of
that graph.  Simplifications: a copy (`Y_rv.copy()`) is the variable itself; nodes of the graph have the identities they have in the model, so that a random variable drawn both there and in a parameter is drawn once (both
nodes use the same generator). -/
noncomputable def putBack (graphs : ℕ → Option (Expr Di)) (ρ : ℕ → FVal) (ω : ℕ → Di → List FVal → FVal) : ℕ → FVal := fun x =>
  match graphs x with
  | some e => eval ρ ω e
  | none => ρ x

/-- The value of the graph that `joint_logprob` returns (joint_logprob.py:307-319), when the values are those of `graphs`.  Everything before rewriting.py:289 sees inputs only (rewriting.py:249: `val.clone()` has no
owner), so that the terms are those of `joint`. -/
noncomputable def evalJointGraphs (reg : Registry Di) (kd : Di → Kind) (graphs : ℕ → Option (Expr Di)) (ρ : ℕ → FVal) (ω : ℕ → Di → List FVal → FVal) (j : JointExpr (Term Di)) : Except Err FVal :=
  evalJoint reg kd (putBack graphs ρ ω) ω j

end Verif.Full
