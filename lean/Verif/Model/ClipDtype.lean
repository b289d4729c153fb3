import Verif.Model.Censoring
import Verif.Model.Walk

/-! # Data types in clipping (`/repo/aeppl/censoring.py:119`) -/

namespace Verif
open FVal

/-- censoring.py:119 `base_rv.dtype.startswith("int")`. -/
def startsWithInt (dtype : Walk.DType) : Bool := ['i', 'n', 't'].isPrefixOf dtype.name

/-- censoring.py:36-143: the log-probability of a clipped variable whose draws have the data type `dtype`. -/
noncomputable def clipOfType (dtype : Walk.DType) (lp lc : FVal → Except Err FVal) (lower upper : ClipArg) (value : FVal) : Except Err FVal :=
  measurableClip (startsWithInt dtype) lp lc lower upper value

end Verif
