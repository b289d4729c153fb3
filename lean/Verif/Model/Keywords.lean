import Verif.Model.FVal
import Verif.Model.Dict

/-!
# Extra keyword arguments of log-probabilities

`/repo/aeppl/joint_logprob.py:26, 123, 188-193, 307-309` and the registered `_logprob` functions: which keyword arguments each of them hands to the log-probabilities that it calls.
-/

namespace Verif.Kwargs
open Verif

/-- `**kwargs`: names with the objects given for them. -/
abbrev Kw (O : Type) := Dict String O

/-- `kwargs.pop(name, None)`, the dictionary that is left (joint_logprob.py:123); also what `**kwargs` is for a function that names the argument (transforms.py:863). -/
def pop {O : Type} (name : String) (kw : Kw O) : Kw O := kw.filter fun p => p.1 ≠ name

/-- The log-probability and log-CDF functions registered for distributions (logprob.py:127-693, and those that a user registers): they get the keyword arguments and a value.
Simplification: parameters are part of the distribution. -/
structure Funs (Di O A : Type) where
  logprob : Di → Kw O → A → Except Err A
  logcdf : Di → Kw O → A → Except Err A

/-- The measurable variables that are made from other ones. -/
inductive Kind
  | valued | clip | round | elemwise | cumsum | makeVector | join | dimshuffle | mixture | scan
  deriving DecidableEq

/-- One call that a registered function makes for a variable that it is made from: which variable, `_logcdf` or `_logprob`, and at what value. -/
structure Query (n : ℕ) (A : Type) where
  part : Fin n
  cdf : Bool
  value : A

/-- Measurable variables.  `queries` and `combine` are the arithmetic of the registered function: the calls it makes and what it makes of their results (for a scan: a call for each variable and step).
`forward` etc. of a transform: `back` and `jac` are `backward` and `log_jac_det`, `add` is `+=` (transforms.py:869-881).  Any arithmetic is allowed. -/
inductive MVar (Di A : Type)
  | dist (d : Di)
  | node (kind : Kind) (n : ℕ) (parts : Fin n → MVar Di A) (queries : A → List (Query n A)) (combine : A → List A → Except Err A)
  | transformed (base : MVar Di A) (back : A → A) (addJac : A → A → Except Err A)

/-- The keyword arguments that a registered function hands on:
logprob.py:124 (`valued`), censoring.py:103-104 (`clip`), censoring.py:268-269 (`round`), transforms.py:379 (`elemwise`): all of them;
cumsum.py:42, tensor.py:32 (`makeVector`), tensor.py:56 and 69 (`join`), tensor.py:150 (`dimshuffle`), mixture.py:396 and 402 (`mixture`), scan.py:279 (`scan`): none. -/
def handed {O : Type} (kind : Kind) (kw : Kw O) : Kw O :=
  match kind with
  | .valued => kw
  | .clip => kw
  | .round => kw
  | .elemwise => kw
  | .cumsum => []
  | .makeVector => []
  | .join => []
  | .dimshuffle => []
  | .mixture => []
  | .scan => []

variable {Di O A : Type}

/-- `_logcdf` (logprob.py:98-106): only distributions have one. -/
def logcdfOf (F : Funs Di O A) (m : MVar Di A) (kw : Kw O) (v : A) : Except Err A :=
  match m with
  | .dist d => F.logcdf d kw v
  | _ => .error .notImplemented

/-- `logprob(rv, value, **kwargs)` (logprob.py:56-65) with the registered functions.  `truthy` is Python's `bool` for the `use_jacobian` of transforms.py:863, 877. -/
def logprobOf (F : Funs Di O A) (truthy : O → Bool) (m : MVar Di A) (kw : Kw O) (v : A) : Except Err A :=
  match m with
  | .dist d => F.logprob d kw v
  | .node kind _ parts queries combine => do
    let rs ← (queries v).mapM fun q =>
      if q.cdf then logcdfOf F (parts q.part) (handed kind kw) q.value else logprobOf F truthy (parts q.part) (handed kind kw) q.value
    combine v rs
  | .transformed base back addJac => do
    let lp ← logprobOf F truthy base (pop "use_jacobian" kw) (back v)
    if ((Dict.get? kw "use_jacobian").map truthy).getD true then addJac v lp else .ok lp

/-- `conditional_logprob(..., **kwargs)` (joint_logprob.py:123, 173-207): the log-probabilities of the variables at their values. -/
def conditionalKw (F : Funs Di O A) (truthy : O → Bool) (vars : List (MVar Di A × A)) (kw : Kw O) : Except Err (List A) :=
  let kw := pop "warn_missing_rvs" kw
  vars.mapM fun p => logprobOf F truthy p.1 kw p.2

/-- `logcdf(rv, value, **kwargs)` (logprob.py:68-77): the name of the variable is handed on as the keyword `name`, so that a second one is an error of Python. -/
def logcdfApi (F : Funs Di O A) (name : O) (m : MVar Di A) (kw : Kw O) (v : A) : Except Err A :=
  if (Dict.get? kw "name").isSome then .error .typeError else logcdfOf F m (("name", name) :: kw) v

end Verif.Kwargs
