import Verif.Model.ClipArray

/-! # Rounding arrays (`/repo/aeppl/censoring.py:216-275`) -/

namespace Verif

/-- censoring.py:216-275 `round_logprob` on arrays; `lc` is `_logcdf` of the rounded variable. -/
noncomputable def arrayRoundLogprob (op : RoundOp) (lc : Arr FVal → Except Err (Arr FVal)) (value : Arr FVal) : Except Err (Arr FVal) := do
  let logcdf_upper ← lc (value.map fun v => (roundEdges op v).1)
  let logcdf_lower ← lc (value.map fun v => (roundEdges op v).2)
  logcdf_upper.op2 logdiffexp logcdf_lower

end Verif
