import Verif.Model.ElemwiseArray
import Verif.Model.Censoring

/-! # Clipping arrays (`/repo/aeppl/censoring.py:81-143`) -/

namespace Verif
open FVal

/-- `at.switch(cond, a, b)`: the three shapes are broadcast (one after the other, which gives the same). -/
noncomputable def Arr.switch (cond : Arr Prop) (a b : Arr FVal) : Except Err (Arr FVal) := do
  let ab ← a.op2 Prod.mk b
  cond.op2 (fun c (ab : FVal × FVal) => FVal.switch c ab.1 ab.2) ab

/-- A bound in the measurable graph (`Bound` of `Model/Censoring.lean`, for arrays): `const` tells whether it is a `TensorConstant`. -/
structure ArrBound where
  value : Arr FVal
  const : Bool

/-- `np.all(f(a))`. -/
def Arr.all {α : Type} (f : α → Prop) (a : Arr α) : Prop := ∀ c, InRange c a.shape → f (a.get c)

/-- censoring.py:111-113 `is_upper_bounded`. -/
def ArrBound.isUpper (b : ArrBound) : Prop := ¬ (b.const = true ∧ b.value.all FVal.isInf)

/-- censoring.py:127-130 `is_lower_bounded`. -/
def ArrBound.isLower (b : ArrBound) : Prop := ¬ (b.const = true ∧ b.value.all (· = ninf))

/-- censoring.py:116-120: `logccdf`. -/
noncomputable def clipCcdfArr (isInt : Bool) (logprob logcdf : Arr FVal) : Except Err (Arr FVal) :=
  if isInt then (logcdf.map log1mexp).op2 logaddexp logprob else .ok (logcdf.map log1mexp)

/-- censoring.py:116-126: the switches for the upper bound. -/
noncomputable def clipUpperArr (isInt : Bool) (logprob logcdf value upper_bound : Arr FVal) : Except Err (Arr FVal) := do
  let logccdf ← clipCcdfArr isInt logprob logcdf
  let above ← value.op2 gt upper_bound
  let inner ← above.switch ⟨[], fun _ => ninf⟩ logprob
  let at_bound ← value.op2 FVal.eq upper_bound
  at_bound.switch logccdf inner

/-- censoring.py:132-136: the switches for the lower bound. -/
noncomputable def clipLowerArr (logprob logcdf value lower_bound : Arr FVal) : Except Err (Arr FVal) := do
  let below ← value.op2 lt lower_bound
  let inner ← below.switch ⟨[], fun _ => ninf⟩ logprob
  let at_bound ← value.op2 FVal.eq lower_bound
  at_bound.switch logcdf inner

open Classical in
/-- censoring.py:138-141: `lower_bound <= upper_bound` everywhere, or an exception. -/
noncomputable def clipCheckArr (logprob lower_bound upper_bound : Arr FVal) : Except Err (Arr FVal) := do
  let le ← lower_bound.op2 le upper_bound
  if le.all id then .ok logprob else .error .parameterValue

open Classical in
/-- censoring.py:111-126: the part for the upper bound. -/
noncomputable def clipPartUpper (isInt : Bool) (logprob logcdf value : Arr FVal) (upper_bound : ArrBound) : Except Err (Arr FVal) :=
  if upper_bound.isUpper then clipUpperArr isInt logprob logcdf value upper_bound.value else .ok logprob

open Classical in
/-- censoring.py:127-136: the part for the lower bound. -/
noncomputable def clipPartLower (logprob logcdf value : Arr FVal) (lower_bound : ArrBound) : Except Err (Arr FVal) :=
  if lower_bound.isLower then clipLowerArr logprob logcdf value lower_bound.value else .ok logprob

open Classical in
/-- censoring.py:81-143 `clip_logprob` on arrays; `lp` and `lc` are `_logprob` and `_logcdf` of the clipped variable. -/
noncomputable def arrayClipLogprob (isInt : Bool) (lp lc : Arr FVal → Except Err (Arr FVal)) (lower_bound upper_bound : ArrBound) (value : Arr FVal) : Except Err (Arr FVal) := do
  let logprob ← lp value
  let logcdf ← lc value
  let logprob ← clipPartUpper isInt logprob logcdf value upper_bound
  let logprob ← clipPartLower logprob logcdf value lower_bound
  if lower_bound.isLower ∧ upper_bound.isUpper then clipCheckArr logprob lower_bound.value upper_bound.value else .ok logprob

end Verif
