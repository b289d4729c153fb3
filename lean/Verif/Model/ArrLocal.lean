import Verif.Model.ArrGraph

/-! # `logprob` of array variables -/

namespace Verif.ArrGraph
open Verif

variable {Di : Type}

/-- logprob.py:56-96 `logprob(rv, value)` on a random variable of the model: the kernel of its distribution at the parameter graphs as written by the userL. -/
def logprobCall (r : RVDef Di) (x : ℕ) : Term Di := ⟨r.dist, .inp x, r.n, r.args⟩

end Verif.ArrGraph
