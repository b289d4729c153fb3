import Verif.Model.Dict
import Verif.Model.FVal

/-!
# `get_measurable_outputs` and `assign_custom_measurable_outputs` (`/repo/aeppl/abstract.py:17-122`)

`B` are ordinary op classes, `P` the attributes of an op instance, `F` measurable-outputs functions, `H` hash values.
-/

namespace Verif.Abstract
open Verif

/-- An op instance: of an ordinary class, or an instance of the class made by `assign_custom_measurable_outputs` from another op and a
function (that class's `id_obj` is the pair). -/
inductive AOp (B P F : Type)
  | plain (b : B) (p : P)
  | unmeasurable (op : AOp B P F) (fn : F)

/-- A class as a dictionary key: ordinary classes by identity; classes with metaclass `UnmeasurableMeta` are equal exactly if the hashes of
their `id_obj` are, and differ from every ordinary class (abstract.py:30-36). -/
inductive Key (B H : Type)
  | cls (b : B)
  | made (h : H)
  deriving DecidableEq

variable {B P F H : Type} [DecidableEq B] [DecidableEq F] [DecidableEq H]

/-- What the functions use from outside: Python's `hash` of the pair `id_obj`, the classes registered as `MeasurableVariable`, the classes
of an ordinary class's method resolution order (itself first), and the function of the generic `_get_measurable_outputs`
(abstract.py:54-56). -/
structure Env (B P F H : Type) where
  hash : AOp B P F → F → H
  isMeasurable : B → Bool
  mro : B → List B
  generic : F

/-- `_get_measurable_outputs.registry`. -/
abbrev Registry (B F H : Type) := Dict (Key B H) F

/-- `isinstance(op, MeasurableVariable)`: a made class is a subclass of the op's class. -/
def Env.measurable (E : Env B P F H) : AOp B P F → Bool
  | .plain b _ => E.isMeasurable b
  | .unmeasurable op _ => E.measurable op

/-- Dispatch of `_get_measurable_outputs` (`functools.singledispatch`) on the class of `op`: the first class of its method resolution order
with an entry; a made class comes before the class it was made from. -/
def Env.dispatch (E : Env B P F H) (reg : Registry B F H) : AOp B P F → F
  | .plain b _ => ((E.mro b).findSome? fun c => Dict.get? reg (.cls c)).getD E.generic
  | .unmeasurable op fn =>
    match Dict.get? reg (.made (E.hash op fn)) with
    | some g => g
    | none => E.dispatch reg op

/-- abstract.py:46-51 `get_measurable_outputs(op, node)`: the function applied to the node (`none`: the empty list). -/
def Env.getMeasurableOutputs (E : Env B P F H) (reg : Registry B F H) (op : AOp B P F) : Option F :=
  if E.measurable op then some (E.dispatch reg op) else none

/-- abstract.py:68-122 `assign_custom_measurable_outputs(node, fn)`, on the node's op: the op of the returned node and the registry. -/
def Env.assign (E : Env B P F H) (reg : Registry B F H) (op : AOp B P F) (fn : F) : Except Err (AOp B P F × Registry B F H) :=
  let create := (AOp.unmeasurable op fn, Dict.set reg (.made (E.hash op fn)) fn)
  match op with
  | .plain _ _ => .ok create
  | .unmeasurable op' fn' =>
    match Dict.get? reg (.made (E.hash op' fn')) with
    | some g => if g ≠ fn then .error .valueError else .ok (op, reg)
    | none => .ok create

/-- A history of calls, each on any op; a call that raises leaves the registry as it is. -/
def Env.run (E : Env B P F H) : List (AOp B P F × F) → Registry B F H → Registry B F H
  | [], reg => reg
  | (op, fn) :: calls, reg =>
    match E.assign reg op fn with
    | .ok (_, reg') => E.run calls reg'
    | .error _ => E.run calls reg

end Verif.Abstract
