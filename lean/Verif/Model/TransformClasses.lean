import Verif.Model.FVal
import Verif.Model.Dict

/-!
# The classes made for transformed variables

`_create_transformed_rv_op` (`/repo/aeppl/transforms.py:818-898`), its entries in the registries of `_logprob` and `_default_transformed_rv` (`functools.singledispatch`), and their use by `transform_values`
(`/repo/aeppl/transforms.py:192-209, 228-238`).
-/

namespace Verif.TClass
open Verif

/-- A class of ops: the class it is derived from, and its attribute `transform` (transforms.py:853).  Simplification: one parent; classes are numbered in the order in which they are made. -/
structure ClassInfo (T : Type) where
  parent : Option ℕ
  transform : Option T

/-- An op: its class and the attributes of the instance. -/
structure Op (P : Type) where
  cls : ℕ
  attrs : P

/-- What is registered with `_logprob` for a class: a function of a distribution, or the `transformed_logprob` of transforms.py:862-881 with the `rv_op` of its closure. -/
inductive Impl (K P : Type)
  | fn (k : K)
  | trans (rvOp : Op P)

/-- All classes, `_logprob.registry`, and `_default_transformed_rv.registry`; for the latter only the `new_op_type` in the closure of `class_transformed_rv` matters (transforms.py:885-890). -/
structure St (K P T : Type) where
  classes : List (ClassInfo T)
  lp : Dict ℕ (Impl K P)
  df : Dict ℕ ℕ

variable {K P T A : Type}

/-- The method resolution order of a class. -/
def chain (classes : List (ClassInfo T)) : ℕ → ℕ → List ℕ
  | 0, _ => []
  | f + 1, c =>
    c :: match (classes[c]?).bind ClassInfo.parent with
      | some p => chain classes f p
      | none => []

/-- `functools.singledispatch`: the entry of the first class of the method resolution order that has one. -/
def dispatch {α : Type} (classes : List (ClassInfo T)) (reg : ℕ → Option α) (c : ℕ) : Option α := (chain classes (c + 1) c).findSome? reg

/-- The attribute `transform` of an op. -/
def St.transformOf (s : St K P T) (c : ℕ) : Option T := dispatch s.classes (fun c => (s.classes[c]?).bind ClassInfo.transform) c

/-- `_create_transformed_rv_op(rv_op, transform, default=default)` (transforms.py:818-895): a class derived from that of `rv_op`, registered with `_logprob`, and with `_default_transformed_rv` for the class of
`rv_op` or only for itself (line 883); the result has the attributes of `rv_op` (lines 892-893).  Not modelled: names, `cls_dict_extra`. -/
def St.create (s : St K P T) (rvOp : Op P) (t : T) (default : Bool) : Op P × St K P T :=
  let new := s.classes.length
  (⟨new, rvOp.attrs⟩,
    { classes := s.classes ++ [⟨some rvOp.cls, some t⟩]
      lp := Dict.set s.lp new (.trans rvOp)
      df := Dict.set s.df (if default then rvOp.cls else new) new })

/-- A class that a user derives from another one, with or without a log-probability of its own. -/
def St.derive (s : St K P T) (parent : ℕ) (own : Option K) : St K P T :=
  { s with
    classes := s.classes ++ [⟨some parent, none⟩]
    lp := match own with
      | some k => Dict.set s.lp s.classes.length (.fn k)
      | none => s.lp }

/-- A request for the value of a variable: a transform, or `DEFAULT_TRANSFORM` (transforms.py:192-209). -/
inductive Req (T : Type)
  | explicit (t : T)
  | default

/-- transforms.py:192-209: the op of the transformed node and its transform, `none` if the value is left alone.  `new_op_type()` (line 887) has the attributes `fresh` of a new instance. -/
def St.request (fresh : P) (s : St K P T) (op : Op P) : Req T → Option (Op P × T) × St K P T
  | .explicit t =>
    let r := s.create op t false
    (some (r.1, t), r.2)
  | .default =>
    match dispatch s.classes (Dict.get? s.df) op.cls with
    | none => (none, s)
    | some d => ((s.transformOf d).map fun t => (⟨d, fresh⟩, t), s)

/-- The functions of the transforms and of the distributions; `kernel` gets the op and a value.  Simplification: the inputs of the node are fixed. -/
structure Funs (K P T A : Type) where
  kernel : K → P → A → Except Err A
  back : T → A → A
  jac : T → A → A
  add : A → A → A

/-- `_logprob(op, (value,), ...)` at a value that is not a `TransformedVariable`: the assertion of transforms.py:871 fails in a `transformed_logprob`. -/
def St.logprobPlain (F : Funs K P T A) (s : St K P T) (op : Op P) (a : A) : Except Err A :=
  match dispatch s.classes (Dict.get? s.lp) op.cls with
  | none => .error .notImplemented
  | some (.fn k) => F.kernel k op.attrs a
  | some (.trans _) => .error .assertion

/-- `_logprob(op, (transformed_variable(back, z),), ...)` (transforms.py:862-881): `back`, the first input of the `TransformedVariable`, is the result of `transform.backward` (lines 228-230) and itself not a
`TransformedVariable`.  Simplification: `use_jacobian=True` (C148 has the other case). -/
def St.logprobTrans (F : Funs K P T A) (s : St K P T) (op : Op P) (back z : A) : Except Err A :=
  match dispatch s.classes (Dict.get? s.lp) op.cls with
  | none => .error .notImplemented
  | some (.fn k) => F.kernel k op.attrs back
  | some (.trans rvOp) => do
    let lp ← s.logprobPlain F rvOp back
    match s.transformOf op.cls with
    | some t => .ok (F.add lp (F.jac t z))
    | none => .error .attribute

/-- The log-probability that a call of `joint_logprob` with a request for the value of one variable gets, at the value `z` on the transformed scale. -/
def St.ask (F : Funs K P T A) (fresh : P) (s : St K P T) (op : Op P) (req : Req T) (z : A) : Except Err A :=
  match s.request fresh op req with
  | (none, s') => s'.logprobPlain F op z
  | (some (o, t), s') => s'.logprobTrans F o (F.back t z) z

end Verif.TClass
