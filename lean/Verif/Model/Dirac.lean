import Verif.Model.Dists
import Verif.Model.Indices
import Mathlib.Data.Fintype.Basic

/-!
# Dirac deltas (`/repo/aeppl/dists.py:21-51`, `/repo/aeppl/rewriting.py:84-113`, `/repo/aeppl/logprob.py:652-659`)

Expressions are trees: sharing is not modelled, and the first output of an operator with several outputs stands for the others.
-/

namespace Verif

/-- The kinds of operators distinguished by `local_lift_DiracDelta`. -/
inductive OpKind
  | elemwise
  | broadcastTo
  | dimShuffle
  | subtensor
  | other
  deriving DecidableEq

/-- An operator with one input and `n` further ones; `sem` is what it computes (external). -/
structure DOp (n : ℕ) where
  kind : OpKind
  nout : ℕ
  sem : Arr FVal → (Fin n → Arr FVal) → Arr FVal

/-- Expressions. -/
inductive DExpr
  | leaf (v : Arr FVal)
  | dirac (rtol atol : ℝ) (x : DExpr)
  | app {n : ℕ} (op : DOp n) (first : DExpr) (rest : Fin n → DExpr)

namespace DExpr

/-- The value of an expression; dists.py:38-44 `DiracDelta.perform` returns the input. -/
def eval : DExpr → Arr FVal
  | leaf v => v
  | dirac _ _ x => x.eval
  | app op first rest => op.sem first.eval fun i => (rest i).eval

/-- rewriting.py:84-105 `local_lift_DiracDelta`; the decorator restricts it to the first four kinds of operators. -/
def localLift : DExpr → Option DExpr
  | app (n := n) op first rest =>
    if op.kind = .other then none
    else if 1 < op.nout then none
    else if op.kind = .elemwise ∧ n ≠ 0 then none
    else match first with
      | dirac rtol atol dd_val => some (dirac rtol atol (app op dd_val rest))
      | _ => none
  | _ => none

/-- rewriting.py:108-113 `local_remove_DiracDelta`. -/
def localRemove : DExpr → Option DExpr
  | dirac _ _ dd_val => some dd_val
  | _ => none

/-- One application of a local rewrite, anywhere in the expression. -/
inductive Step (rewrite : DExpr → Option DExpr) : DExpr → DExpr → Prop
  | here {e e' : DExpr} (h : rewrite e = some e') : Step rewrite e e'
  | dirac {r a : ℝ} {x x' : DExpr} (h : Step rewrite x x') : Step rewrite (dirac r a x) (dirac r a x')
  | first {n : ℕ} {op : DOp n} {x x' : DExpr} {rest : Fin n → DExpr} (h : Step rewrite x x') : Step rewrite (app op x rest) (app op x' rest)
  | rest {n : ℕ} {op : DOp n} {x : DExpr} {rest : Fin n → DExpr} (i : Fin n) {y : DExpr} (h : Step rewrite (rest i) y) :
    Step rewrite (app op x rest) (app op x (Function.update rest i y))

end DExpr

/-- logprob.py:652-659 `diracdelta_logprob` for arrays. -/
noncomputable def diracArrayLogprob (rtol atol : ℝ) (values const_value : Arr FVal) : Except Err (Arr FVal) := do
  match bshape [values.shape, const_value.shape] with
  | none => .error .valueError
  | some s => return ⟨s, fun c => diracLogprob rtol atol ((values.bcastTo s).get c) ((const_value.bcastTo s).get c)⟩

/-- The log-probability of an expression, which has to be a Dirac delta (other measurable variables are not expressions of this kind). -/
noncomputable def DExpr.logprob : DExpr → Arr FVal → Except Err (Arr FVal)
  | .dirac rtol atol x, values => diracArrayLogprob rtol atol values x.eval
  | _, _ => .error .notImplemented

end Verif
