import Verif.Model.CondLogprob
import Verif.Model.MixtureArray
import Verif.Model.Graph

/-! # Models with array variables

Graph conversion for models made of random variables and deterministic operations whose values are arrays, on top of
`Model/CondLogprob.lean`; the sums over entries of `joint_logprob`; log-probabilities of arrays of scalar variables and of
multivariate normal vectors.
-/

namespace Verif.ArrGraph
open Verif Cond

/-- A user graph, as in `Model/Graph.lean`, with arrays as values.  Simplification: deterministic nodes compute a total function of their
inputs. -/
inductive Expr (Di : Type) where
  | const (x : Arr FVal)
  | inp (i : ℕ)
  | app (n : ℕ) (f : (Fin n → Arr FVal) → Arr FVal) (args : Fin n → Expr Di)
  | rv (id : ℕ) (dist : Di) (n : ℕ) (args : Fin n → Expr Di)
  | valued (rv val : Expr Di)

variable {Di : Type}

/-- rewriting.py:270-274 `fgraph.replace_all([(memo[rv], val) ...])`: every use of a valued random variable becomes its `ValuedVariable`.
The replacement is the node made before cloning (line 254), so its own inputs are not rewritten. -/
def replaceValued (vals : Dict ℕ ℕ) : Expr Di → Expr Di
  | .const x => .const x
  | .inp i => .inp i
  | .app n f args => .app n f fun i => replaceValued vals (args i)
  | .rv id dist n args =>
    match Dict.get? vals id with
    | some v => .valued (.rv id dist n args) (.inp v)
    | none => .rv id dist n fun i => replaceValued vals (args i)
  | .valued r v => .valued (replaceValued vals r) (replaceValued vals v)

/-- rewriting.py:299-302 `remove_ValuedVariable`, applied everywhere (joint_logprob.py:216-217). -/
def cleanup : Expr Di → Expr Di
  | .const x => .const x
  | .inp i => .inp i
  | .app n f args => .app n f fun i => cleanup (args i)
  | .rv id dist n args => .rv id dist n fun i => cleanup (args i)
  | .valued _ v => cleanup v

/-- Value of a graph, given the values `ρ` of its inputs and the sampler `ω` of the random variables left in the graph. -/
def eval (ρ : ℕ → Arr FVal) (ω : ℕ → Di → List (Arr FVal) → Arr FVal) : Expr Di → Arr FVal
  | .const x => x
  | .inp i => ρ i
  | .app _ f args => f fun i => eval ρ ω (args i)
  | .rv id dist _ args => ω id dist (List.ofFn fun i => eval ρ ω (args i))
  | .valued r _ => eval ρ ω r

/-- A random variable of the model: distribution and parameter graphs. -/
structure RVDef (Di : Type) where
  dist : Di
  n : ℕ
  args : Fin n → Expr Di

/-- A log-probability graph: the distribution's kernel at a value graph and parameter graphs. -/
structure Term (Di : Type) where
  dist : Di
  value : Expr Di
  n : ℕ
  args : Fin n → Expr Di

/-- Evaluation of a log-probability graph: an array of log-probabilities.  `kernel` are the formulas of logprob.py. -/
def Term.eval (kernel : Di → Arr FVal → List (Arr FVal) → Except Err (Arr FVal)) (ρ : ℕ → Arr FVal) (ω : ℕ → Di → List (Arr FVal) → Arr FVal) (t : Term Di) : Except Err (Arr FVal) :=
  kernel t.dist (ArrGraph.eval ρ ω t.value) (List.ofFn fun i => ArrGraph.eval ρ ω (t.args i))

/-- The answers of graph conversion and `_logprob` dispatch (rewriting.py:187-296, joint_logprob.py:160-200) for such a model, as in `Graph.backend`. -/
def backend (defs : ℕ → Option (RVDef Di)) (d : Dict ℕ ℕ) : Backend ℕ ℕ Unit (Term Di) where
  owner v := if (defs v).isSome then some v else none
  dtype _ := ()
  rewrite d := .ok (d.map fun p => some ⟨p.1, p.2⟩, d.map Prod.snd)
  measurableOutputs n := if (defs n).isSome then [n] else []
  logprob n vs :=
    match defs n, vs with
    | some r, [v] => .ok [⟨r.dist, cleanup (.inp v), r.n, fun i => cleanup (replaceValued d (r.args i))⟩]
    | _, _ => .error .notImplemented

/-- joint_logprob.py:222-319 `joint_logprob` on the model given by `defs`. -/
def joint (defs : ℕ → Option (RVDef Di)) (rvs clones : List ℕ) (realized : Dict ℕ ℕ) : Except Err (Option (JointExpr (Term Di) × List ℕ)) :=
  jointLogprob (backend defs (rvValues rvs clones realized)) rvs clones realized

/-- joint_logprob.py:312-318: `at.sum` of the only factor, or the sum of the sums of the factors, over all entries of every factor. -/
noncomputable def evalJoint (kernel : Di → Arr FVal → List (Arr FVal) → Except Err (Arr FVal)) (ρ : ℕ → Arr FVal) (ω : ℕ → Di → List (Arr FVal) → Arr FVal) :
    JointExpr (Term Di) → Except Err FVal
  | .sum t => arrayJoint (t.eval kernel ρ ω)
  | .sumOfSums ts => Graph.sumE (ts.map fun t => arrayJoint (t.eval kernel ρ ω))

/-- The entry of an array that is paired with the coordinates `c` of a larger array (NumPy broadcasting). -/
def entryAt (a : Arr FVal) (c : List ℕ) : FVal := a.get (project c a.shape)

/-- What an elementwise formula gives at the coordinates `c`. -/
def entryLogprob (k : FVal → List FVal → Except Err FVal) (value : Arr FVal) (params : List (Arr FVal)) (c : List ℕ) : Except Err FVal :=
  k (entryAt value c) (params.map fun a => entryAt a c)

/-- Value of the elementwise log-probability graphs (logprob.py:127-543) on arrays: value and parameters are broadcast, the formula `k` is applied to each entry, and `CheckParameterValue`
raises if a condition fails anywhere.  Simplification: no zero-length axes (`at.all` would range over parameters that meet no value). -/
def elemwiseLogprob (k : FVal → List FVal → Except Err FVal) (value : Arr FVal) (params : List (Arr FVal)) : Except Err (Arr FVal) :=
  match bshape (value.shape :: params.map Arr.shape) with
  | none => .error .valueError
  | some s =>
    match (allCoords s).mapM (entryLogprob k value params) with
    | .error e => .error e
    | .ok _ => .ok ⟨s, fun c => match entryLogprob k value params c with | .ok x => x | .error _ => .nan⟩

/-- A float read as a real number. -/
def toReal : FVal → ℝ
  | .fin x => x
  | _ => 0

/-- logprob.py:580-611 `mvnormal_logprob`, for the row of `value - mu` at the coordinates `c`. -/
noncomputable def mvnormalRow (n last : ℕ) (chol : Matrix (Fin n) (Fin n) ℝ → Option (Matrix (Fin n) (Fin n) ℝ)) (value mu cov : Arr FVal) (c : List ℕ) : Except Err FVal :=
  mvnormalWith last chol (fun i => toReal (entryAt value (c ++ [(i : ℕ)]))) (fun i => toReal (entryAt mu (c ++ [(i : ℕ)]))) (fun i j => toReal (cov.get [i, j]))

/-- logprob.py:580-611 `mvnormal_logprob` on arrays: one log-probability for each row of `value - mu`, all rows with the same covariance.  Simplifications: entries are real numbers (others
are read as zero), and the classes of errors are not distinguished.  `SolveTriangular` (external) takes a vector or a matrix of the size of the covariance, so `value - mu` has one or two axes; the constant is
taken from the last axis of the value, which may be shorter if the value is broadcast. -/
noncomputable def mvnormalArr (chol : (n : ℕ) → Matrix (Fin n) (Fin n) ℝ → Option (Matrix (Fin n) (Fin n) ℝ)) (value : Arr FVal) : List (Arr FVal) → Except Err (Arr FVal)
  | [mu, cov] =>
    match bshape [value.shape, mu.shape], cov.shape, value.shape.getLast? with
    | some s, [n, n'], some last =>
      if s.length ≤ 2 ∧ s.getLast? = some n ∧ n' = n then
        match (allCoords s.dropLast).mapM (mvnormalRow n last (chol n) value mu cov) with
        | .error e => .error e
        | .ok _ => .ok ⟨s.dropLast, fun c => match mvnormalRow n last (chol n) value mu cov c with | .ok x => x | .error _ => .nan⟩
      else .error .valueError
    | _, _, _ => .error .valueError
  | _ => .error .valueError

end Verif.ArrGraph
