import Verif.Model.Cumsum
import Verif.Model.VecDists

/-! # Stacked and joined variables (`/repo/aeppl/tensor.py:19-117`) -/

namespace Verif

/-- The consecutive pieces of an array along an axis, from position `off` on. -/
def Arr.splitFrom {α : Type*} (axis : ℕ) (v : Arr α) : ℕ → List ℕ → List (Arr α)
  | _, [] => []
  | off, n :: sizes => ⟨v.shape.set axis n, fun c => v.get (c.set axis (off + c.getD axis 0))⟩ :: Arr.splitFrom axis v (off + n) sizes

/-- `at.split(v, splits_size=sizes, n_splits=len(sizes), axis=axis)` (external): the sizes must add up to the length of the axis. -/
def Arr.split {α : Type*} (axis : ℕ) (sizes : List ℕ) (v : Arr α) : Except Err (List (Arr α)) :=
  if sizes.sum = v.size axis then .ok (Arr.splitFrom axis v 0 sizes) else .error .valueError

/-- Entry of a concatenation: `i` is the position along the axis, counted from the start of `a`. -/
def Arr.joinGet {α : Type*} (axis : ℕ) (c : List ℕ) : ℕ → Arr α → List (Arr α) → α
  | i, a, [] => a.get (c.set axis i)
  | i, a, b :: l => if i < a.size axis then a.get (c.set axis i) else Arr.joinGet axis c (i - a.size axis) b l

/-- `at.concatenate(l, axis)` (external): a single array is returned as it is; otherwise the axis must exist and the shapes must agree
elsewhere.  The class of the error is not modelled. -/
def Arr.concatenate {α : Type*} (axis : ℤ) : List (Arr α) → Except Err (Arr α)
  | [] => .error .valueError
  | [a] => .ok a
  | a :: l =>
    match normAxis axis a.ndim with
    | .error e => .error e
    | .ok axis =>
      if l.all fun b => decide (b.shape.set axis 0 = a.shape.set axis 0) then
        .ok ⟨a.shape.set axis (((a :: l).map fun b => b.size axis).sum), fun c => Arr.joinGet axis c (c.getD axis 0) a l⟩
      else .error .valueError

/-- `at.atleast_1d`. -/
def Arr.atleast1d {α : Type*} (a : Arr α) : Arr α := if a.shape = [] then ⟨[1], fun _ => a.get []⟩ else a

/-- `[f(x, y) for x, y in zip(xs, ys)]`. -/
def zipM {α β γ : Type} (f : α → β → Except Err γ) : List α → List β → Except Err (List γ)
  | a :: as, b :: bs =>
    match f a b with
    | .error e => .error e
    | .ok x =>
      match zipM f as bs with
      | .error e => .error e
      | .ok xs => .ok (x :: xs)
  | _, _ => .ok []

/-- tensor.py:45-77 `logprob_join`; a base variable is its length along the axis and its log-probability (computed twice by the code). -/
def joinLogprob {α β : Type} (axis : ℤ) (base_vars : List (ℕ × (Arr α → Except Err (Arr β)))) (value : Arr α) : Except Err (Arr β) :=
  match normAxis axis value.ndim with
  | .error e => .error e
  | .ok a =>
    match value.split a (base_vars.map Prod.fst) with
    | .error e => .error e
    | .ok split_values =>
      match zipM (fun base_var split_value => base_var.2 split_value) base_vars split_values with
      | .error e => .error e
      | .ok [] => .error .valueError
      | .ok (logp :: logps) =>
        if logps.all fun l => decide (l.ndim = logp.ndim) then
          let base_vars_ndim_supp : ℤ := value.ndim - logp.ndim
          Arr.concatenate (axis - base_vars_ndim_supp) ((logp :: logps).map Arr.atleast1d)
        else .error .valueError

/-- tensor.py:26-33 `logprob_make_vector`, the list comprehension from index `i` on; an index past the end of the value raises. -/
def makeVectorLogprob {α β : Type} (i : ℕ) (value : List α) : List (α → Except Err β) → Except Err (List β)
  | [] => .ok []
  | lp :: base_vars =>
    match value[i]? with
    | none => .error .indexError
    | some v =>
      match lp v with
      | .error e => .error e
      | .ok x =>
        match makeVectorLogprob (i + 1) value base_vars with
        | .error e => .error e
        | .ok xs => .ok (x :: xs)

/-- A graph input of a `Join` or `MakeVector` node, as seen by the rewrite. -/
inductive StackInput where
  /-- An unvalued measurable variable. -/
  | measurable
  /-- A measurable variable that has been given a value. -/
  | valued
  /-- Anything else. -/
  | other
deriving DecidableEq

/-- tensor.py:79-114 `find_measurable_stacks`: whether the node is given a log-probability. -/
def findMeasurableStack (alreadyMeasurable : Bool) (base_vars : List StackInput) : Bool :=
  if alreadyMeasurable then false
  else base_vars.all fun b => decide (b = .measurable)

/-- The joint log-probability (joint_logprob.py:307-319) of a stack of random numbers, `logprob_make_vector` (tensor.py:26-33).  `find_measurable_stacks` only looks at the
inputs of the node itself, so the parameters of a base variable may contain random variables, in particular other base variables; nothing replaces them by the value of the stack,
they are drawn: `draws`. -/
noncomputable def stackJoint (base_vars : List ((ℕ → ℝ) → FVal → Except Err FVal)) (draws : ℕ → ℝ) (value : List FVal) : Except Err FVal := do
  let terms ← makeVectorLogprob 0 value (base_vars.map fun lp => lp draws)
  return fsum terms

end Verif
