import Verif.Model.ArrTransform
import Verif.Model.ArrDerived

/-! # Arrays of categorical and multinomial variables (`/repo/aeppl/logprob.py:546-577, 631-649`) -/

namespace Verif.ArrGraph
open Verif FVal

/-- `at.shape_padleft(a, k)`. -/
def padLeft {α : Type} (k : ℕ) (a : Arr α) : Arr α := ⟨List.replicate k 1 ++ a.shape, fun c => a.get (c.drop k)⟩

/-- logprob.py:559, 562 `p.dimshuffle((p.ndim - 1,) + tuple(range(p.ndim - 1)))`: the last axis goes to the front. -/
def lastToFront {α : Type} (a : Arr α) : Arr α := ⟨a.shape.getLastD 0 :: a.shape.dropLast, fun c => a.get (c.tail ++ [c.headD 0])⟩

/-- An integer index into an axis of length `n`: negative ones count from the end. -/
def resolveIndex (n : ℕ) (k : ℤ) : Except Err ℕ :=
  let j := if k < 0 then k + n else k
  if 0 ≤ j ∧ j < n then .ok j.toNat else .error .indexError

/-- The positions looked up by an array of indices, all in range or `IndexError`. -/
def lookup (K : ℕ) (s : List ℕ) (idx : List ℕ → ℤ) (get : List ℕ → ℕ → FVal) : Except Err (Arr FVal) :=
  match (allCoords s).mapM fun c => resolveIndex K (idx c) with
  | .error e => .error e
  | .ok _ => .ok ⟨s, fun c => match resolveIndex K (idx c) with
    | .ok j => get c j
    | .error _ => .nan⟩

/-- `at.take_along_axis(a, idx)` with its default `axis=0` (as in NumPy): the indices select along the first axis, the other axes are broadcast; arrays of different dimensions are a `ValueError`. -/
def takeAlongAxis (a : Arr FVal) (idx : Arr ℤ) : Except Err (Arr FVal) :=
  match a.shape, idx.shape with
  | K :: B, N :: I =>
    if B.length = I.length then
      match bshape [B, I] with
      | none => .error .indexError
      | some s => lookup K (N :: s) (fun c => idx.get (c.headD 0 :: project c.tail I)) fun c j => a.get (j :: project c.tail B)
    else .error .valueError
  | _, _ => .error .valueError

/-- logprob.py:551 `p / at.sum(p, axis=-1, keepdims=True)`. -/
noncomputable def normaliseArr (p : Arr FVal) : Arr FVal := ⟨p.shape, fun c => p.get c / fsum (rowAt (p.shape.getLastD 0) p c.dropLast)⟩

/-- logprob.py:553-557: the value with axes of length one in front. -/
def paddedValue (value : Arr ℤ) (p : Arr FVal) : Arr ℤ := if 1 < p.ndim then padLeft (p.ndim - value.ndim) value else value

/-- logprob.py:558-569, before the logarithm is taken.  `value` has been through `paddedValue`. -/
def selectProb (value : Arr ℤ) (p : Arr FVal) : Except Err (Arr FVal) :=
  if 1 < p.ndim then takeAlongAxis (lastToFront (padLeft (value.ndim - p.ndim) p)) value
  else lookup (p.shape.getLastD 0) value.shape value.get fun _ j => p.get [j]

/-- logprob.py:571-573. -/
noncomputable def maskOutside (K : ℕ) (value : Arr ℤ) (a : Arr FVal) : Arr FVal :=
  ⟨a.shape, fun c => switch (0 ≤ value.get (project c value.shape) ∧ value.get (project c value.shape) < K) (log (a.get c)) ninf⟩

open scoped Classical in
/-- logprob.py:546-577 `categorical_logprob` on arrays.  Simplifications: `p` has at least one axis, as `categorical` requires; the value is an array of integers. -/
noncomputable def categoricalArr (value : Arr ℤ) (p : Arr FVal) : Except Err (Arr FVal) :=
  let q := normaliseArr p
  let value := paddedValue value q
  match selectProb value q with
  | .error e => .error e
  | .ok a =>
    if (∀ c ∈ allCoords q.shape, ge (q.get c) 0) ∧ ∀ c ∈ allCoords q.shape, le (q.get c) 1 then .ok (maskOutside (q.shape.getLastD 0) value a)
    else .error .parameterValue

/-- `categorical_logprob` as the log-probability of a variable of a model: integers are held as numbers. -/
noncomputable def categoricalKernel (value : Arr FVal) : List (Arr FVal) → Except Err (Arr FVal)
  | [p] => categoricalArr ⟨value.shape, fun c => toIndex (value.get c)⟩ p
  | _ => .error .valueError

/-- logprob.py:631-649 `multinomial_logprob` on arrays: one log-probability for each row of counts.  Simplification: the last axes of value and probabilities have the same length. -/
noncomputable def multinomialArr (value : Arr FVal) : List (Arr FVal) → Except Err (Arr FVal)
  | [n, p] =>
    match bshape [value.shape.dropLast, n.shape, p.shape.dropLast] with
    | some s =>
      let K := value.shape.getLastD 0
      if value.shape ≠ [] ∧ p.shape.getLast? = some K then
        match (allCoords s).mapM fun c => multinomialLogprob (rowAt K value c) (entryAt n c) (rowAt K p c) with
        | .error e => .error e
        | .ok _ => .ok ⟨s, fun c => match multinomialLogprob (rowAt K value c) (entryAt n c) (rowAt K p c) with | .ok x => x | .error _ => .nan⟩
      else .error .valueError
    | none => .error .valueError
  | _ => .error .valueError

end Verif.ArrGraph
