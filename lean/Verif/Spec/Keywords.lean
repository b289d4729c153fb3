import Verif.Model.Keywords

/-!
# Specification: what keyword arguments are for
-/

namespace Verif.Kwargs
open Verif

variable {Di O A : Type}

/-- The log-probability of a variable with the given functions for the distributions that it is made from, and with or without the Jacobian terms of transformed values.  No keyword arguments here. -/
def density (lp cdf : Di → A → Except Err A) (jac : Bool) : MVar Di A → A → Except Err A
  | .dist d, v => lp d v
  | .node _ _ parts queries combine, v => do
    let rs ← (queries v).mapM fun q =>
      if q.cdf then
        match parts q.part with
        | .dist d => cdf d q.value
        | _ => .error .notImplemented
      else density lp cdf jac (parts q.part) q.value
    combine v rs
  | .transformed base back addJac, v => do
    let r ← density lp cdf jac base (back v)
    if jac then addJac v r else .ok r

/-- The arguments that are for aeppl and not for the distributions. -/
def own : List String := ["use_jacobian", "warn_missing_rvs"]

/-- The functions of the distributions do not look at aeppl's own arguments. -/
def Funs.Apart (F : Funs Di O A) : Prop :=
  ∀ d (kw kw' : Kw O), (∀ name, name ∉ own → Dict.get? kw name = Dict.get? kw' name) → F.logprob d kw = F.logprob d kw' ∧ F.logcdf d kw = F.logcdf d kw'

/-- Whether the caller wants the Jacobian terms; they do unless they say otherwise. -/
def wantsJacobian (truthy : O → Bool) (kw : Kw O) : Bool :=
  match Dict.get? kw "use_jacobian" with
  | some o => truthy o
  | none => true

/-- The claim: every distribution gets the caller's arguments. -/
def Reach (F : Funs Di O A) (truthy : O → Bool) (m : MVar Di A) : Prop :=
  ∀ (kw : Kw O) v, logprobOf F truthy m kw v = density (fun d => F.logprob d kw) (fun d => F.logcdf d kw) (wantsJacobian truthy kw) m v

/-- Variables made by clipping, rounding and elementwise functions only (and valued variables). -/
def Entrywise : MVar Di A → Prop
  | .dist _ => True
  | .node kind _ parts _ _ => kind ∈ [Kind.valued, .clip, .round, .elemwise] ∧ ∀ i, Entrywise (parts i)
  | .transformed _ _ _ => False

/-- The same, with at most one transform of the value, which is on the outside (transforms.py:181-209). -/
def Outer : MVar Di A → Prop
  | .transformed base _ _ => Entrywise base
  | m => Entrywise m

/-- The variables whose log-probability is put together from the log-probabilities of slices, pieces, components or steps. -/
def Assembled : MVar Di A → Prop
  | .node kind _ _ _ _ => kind ∈ [Kind.cumsum, .makeVector, .join, .dimshuffle, .mixture, .scan]
  | _ => False

/-- The variable, each distribution marked with whether every function between it and the outside is an entrywise one. -/
def mark (b : Bool) : MVar Di A → MVar (Bool × Di) A
  | .dist d => .dist (b, d)
  | .node kind n parts queries combine => .node kind n (fun i => mark (b && decide (kind ∈ [Kind.valued, .clip, .round, .elemwise])) (parts i)) queries combine
  | .transformed base back addJac => .transformed (mark b base) back addJac

/-- No transforms of values inside. -/
def Untransformed : MVar Di A → Prop
  | .dist _ => True
  | .node _ _ parts _ _ => ∀ i, Untransformed (parts i)
  | .transformed _ _ _ => False

/-- At most one, which is on the outside. -/
def OuterOnly : MVar Di A → Prop
  | .transformed base _ _ => Untransformed base
  | m => Untransformed m

end Verif.Kwargs
