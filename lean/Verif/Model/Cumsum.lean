import Verif.Model.Nd
import Verif.Model.FVal

/-! # Cumulative sums (`/repo/aeppl/cumsum.py`) -/

namespace Verif

/-- NumPy's reading of an axis: negative axes count from the end; out of range raises. -/
def normAxis (axis : ℤ) (ndim : ℕ) : Except Err ℕ :=
  if 0 ≤ axis ∧ axis < ndim then .ok axis.toNat
  else if axis < 0 ∧ -(ndim : ℤ) ≤ axis then .ok (axis + ndim).toNat
  else .error .valueError

/-- cumsum.py:28-40 the value whose log-probability is taken, on a normalised axis; `at.take(value, 0, axis)` raises when the axis is
empty. -/
def cumsumValueDiff {α : Type*} [Sub α] (axis : ℕ) (value : Arr α) : Except Err (Arr α) :=
  if value.size axis = 0 then .error .indexError
  else
    let value_diff := Arr.diff axis value
    .ok (Arr.concat2 axis (Arr.padAxis axis (Arr.take0 axis value)) value_diff)

/-- cumsum.py:47-77 `find_measurable_cumsums`: the axis of the measurable op, or `none` when the node is left alone (the conditions on the
base variable being measurable and unvalued are those of the caller). -/
def findMeasurableCumsum (add : Bool) (base_ndim : ℕ) (axis : Option ℤ) : Option ℤ :=
  if !add then none
  else if base_ndim > 1 ∧ axis.isNone then none
  else some (axis.getD 0)

/-- cumsum.py:23-44 `logprob_cumsum`; `lp` is the log-probability of the base variable.  Every use of the axis is normalised with respect to
the number of dimensions of `value` (`shape_padaxis` adds the dimension back before doing so). -/
def cumsumLogprob {α β : Type*} [Sub α] (axis : ℤ) (lp : Arr α → Except Err β) (value : Arr α) : Except Err β :=
  match normAxis axis value.ndim with
  | .error e => .error e
  | .ok axis =>
    match cumsumValueDiff axis value with
    | .error e => .error e
    | .ok v => lp v

end Verif
