import Verif.Model.Dists

/-!
# Clipping and rounding (`/repo/aeppl/censoring.py`)

`lp` and `lc` are the log-probability and log-CDF of the base variable.  Aesara evaluates all inputs of a `switch`, so an exception in
either of them surfaces whatever branch is selected.  One element of the arrays.
-/

namespace Verif
open FVal

/-- A bound given to `clip`: the clipped variable itself, a constant (`TensorConstant`), or another expression. -/
inductive ClipArg
  | base
  | const (v : FVal)
  | sym (v : FVal)

/-- A bound in the measurable graph: `const` tells whether it is a `TensorConstant`. -/
structure Bound where
  value : FVal
  const : Bool

/-- censoring.py:58 and 59 (`find_measurable_clips`): `±inf` replaces a bound that is the clipped variable itself. -/
def ClipArg.bound (inf : FVal) : ClipArg → Bound
  | .base => ⟨inf, true⟩
  | .const v => ⟨v, true⟩
  | .sym v => ⟨v, false⟩

/-- `np.isinf`. -/
def FVal.isInf (v : FVal) : Prop := v = pinf ∨ v = ninf

/-- censoring.py:81-143 `clip_logprob`; `isInt` is `base_rv.dtype.startswith("int")`.  Simplification: scalar bounds (for arrays the tests
111-113, 127-130 and the check 138-141 look at all entries at once). -/
noncomputable def clipLogprob (isInt : Bool) (lp lc : FVal → Except Err FVal) (lower_bound upper_bound : Bound) (value : FVal) :
    Except Err FVal := do
  let logprob ← lp value
  let logcdf ← lc value
  let is_upper_bounded : Prop := ¬ (upper_bound.const = true ∧ upper_bound.value.isInf)
  let logccdf := log1mexp logcdf
  let logccdf := if isInt then logaddexp logccdf logprob else logccdf
  let logprob := switch is_upper_bounded
    (switch (eq value upper_bound.value) logccdf (switch (gt value upper_bound.value) ninf logprob)) logprob
  let is_lower_bounded : Prop := ¬ (lower_bound.const = true ∧ lower_bound.value = ninf)
  let logprob := switch is_lower_bounded
    (switch (eq value lower_bound.value) logcdf (switch (lt value lower_bound.value) ninf logprob)) logprob
  switch (is_lower_bounded ∧ is_upper_bounded) (checkParam logprob [le lower_bound.value upper_bound.value]) (.ok logprob)

/-- `clip` of a base variable as found by `find_measurable_clips` (censoring.py:36-70). -/
noncomputable def measurableClip (isInt : Bool) (lp lc : FVal → Except Err FVal) (lower upper : ClipArg) (value : FVal) : Except Err FVal :=
  clipLogprob isInt lp lc (lower.bound ninf) (upper.bound pinf) value

/-- The three rounding operators (censoring.py:150-152). -/
inductive RoundOp
  | halfToEven
  | floor
  | ceil

/-- censoring.py:248-263 the interval whose probability is computed: `(value_upper, value_lower)`. -/
noncomputable def roundEdges (op : RoundOp) (value : FVal) : FVal × FVal :=
  match op with
  | .halfToEven =>
    let value := FVal.round value
    (value + fin (1 / 2), value - fin (1 / 2))
  | .floor =>
    let value := FVal.floor value
    (value + fin 1, value)
  | .ceil =>
    let value := FVal.ceil value
    (value, value - fin 1)

/-- censoring.py:216-275 `round_logprob`. -/
noncomputable def roundLogprob (op : RoundOp) (lc : FVal → Except Err FVal) (value : FVal) : Except Err FVal := do
  let logcdf_upper ← lc (roundEdges op value).1
  let logcdf_lower ← lc (roundEdges op value).2
  return logdiffexp logcdf_upper logcdf_lower

end Verif
