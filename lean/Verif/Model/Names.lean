import Verif.Model.Full
import Verif.Model.Printing

/-! # Names of log-probabilities and of value variables, and `logprob` called on its own -/

namespace Verif.Full
open Verif Cond

variable {Di : Type}

/-- `if var.name:`: the name, unless it is `None` or empty. -/
def truthy : Option Text → Option Text
  | some (c :: cs) => some (c :: cs)
  | _ => none

/-- A name in an f-string: `None` is written out. -/
def nameText : Option Text → Text
  | some s => s
  | none => "None".toList

/-- joint_logprob.py:133-137: the name of the value variable made for a random variable (`clone` keeps the name). -/
def valueName (rv : Option Text) : Option Text :=
  match truthy rv with
  | some s => some (s ++ "_vv".toList)
  | none => rv

/-- rewriting.py:249-250: the name of the copy of a value variable. -/
def valCloneName (_val : Option Text) : Option Text := some "val_clone".toList

/-- transforms.py:214-222: the name of the value variable on the transformed scale. -/
def transName (value_var : Option Text) : Option Text :=
  match truthy value_var with
  | some s => some (s ++ "-trans".toList)
  | none => none

/-- The name of the value variable that is returned for a random variable: the one made for it, or (transforms.py:235 with rewriting.py:294, joint_logprob.py:205-206) the one on the transformed scale, made
from the copy of the former that is part of the graph. -/
def returnedName (transformed : Bool) (rv : Option Text) : Option Text := if transformed then transName (valCloneName (valueName rv)) else valueName rv

/-- mixture.py:299-300, 344-345. -/
def mixtureName (old : Option Text) : Option Text :=
  match truthy old with
  | some s => some (s ++ "-mixture".toList)
  | none => none

/-- The name of the output of the node that a variable has been converted to, when the nodes in `S` are: transforms.py:595, censoring.py:68, 212 keep the name, convolutions.py:36-48 makes a new variable without
one.  Clones of nodes keep the names of their outputs.  Simplification: canonicalization (rewriting.py:164) changes no names. -/
def measName (nm : ℕ → Option Text) (S : ℕ → Bool) : Expr Di → Option Text
  | .rv id _ _ _ => nm id
  | .app id _ (.elem _) n args =>
    if S id then
      match (List.finRange n).filter fun i => isMeas S (args i) with
      | [_] => nm id
      | _ => none
    else nm id
  | .app id _ .switch _ _ => if S id then mixtureName (nm id) else nm id
  | .app id _ .pick _ _ => if S id then mixtureName (nm id) else nm id
  | .app id _ _ _ _ => nm id
  | _ => none

/-- joint_logprob.py:201-202: the name of the log-probability of `v`.  (The graphs that `_logprob` makes have no names of their own.) -/
def termName (nm : ℕ → Option Text) (S : ℕ → Bool) (defs : ℕ → Option (Expr Di)) (d : Dict ℕ ℕ) (v : ℕ) : Option Text :=
  match truthy (nm v), defs v with
  | some _, some e => some (nameText (measName nm S (cloneOf d e)) ++ "_logprob".toList)
  | _, _ => none

/-- `conditional_logprob` (joint_logprob.py:24-226): the log-probabilities with their names. -/
noncomputable def conditionalNamed (hasCdf : Di → Bool) (S : ℕ → Bool) (nm : ℕ → Option Text) (defs : ℕ → Option (Expr Di)) (rvs clones : List ℕ) (realized : Dict ℕ ℕ) :
    Except Err (Dict ℕ (Term Di × Option Text)) :=
  match conditional hasCdf S defs rvs clones realized with
  | .error e => .error e
  | .ok (terms, _) => .ok (terms.map fun p => (p.1, p.2, termName nm S defs (rvValues rvs clones realized) p.1))

/-- logprob.py:56-96 `logprob(rv, value)` on a graph as written by the user: `_logprob` is registered for random variables (logprob.py) and for the nodes that graph conversion makes, and raises `NotImplementedError` for
all other operations; inputs and constants have no `owner`.  Lines 121-124 `valued_variable_logprob`: values given before are ignored.  Simplification: the random variables are of distributions with an implementation. -/
def logprobCall : Expr Di → ℕ → Except Err (Term Di)
  | .rv id dist n args, v => .ok ⟨v, .rv id dist n args⟩
  | .valued r _, v => logprobCall r v
  | .app .., _ => .error .notImplemented
  | _, _ => .error .attribute

/-- Evaluation of the graph that `logprob` returns: parameters that are random variables are drawn. -/
noncomputable def callEval (reg : Registry Di) (kd : Di → Kind) (ρ : ℕ → FVal) (ω : ℕ → Di → List FVal → FVal) (t : Term Di) : Except Err FVal :=
  t.meas.lp reg kd (Full.eval ρ ω) (ρ t.value)

end Verif.Full
