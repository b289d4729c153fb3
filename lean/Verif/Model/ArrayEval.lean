import Verif.Model.Dists

/-! # Array evaluation of elementwise log-probability graphs -/

namespace Verif

/-- Evaluation of an elementwise log-probability graph (logprob.py:127-543) on arrays.  `es` lists the broadcast
elements: a value with its parameters.  The elementwise formula is `kernel`, and `at.all(cond)` in
`CheckParameterValue` fails iff it fails at one element, so an error at one element is an error of the whole graph.
Simplification: no zero-length dimension (otherwise `at.all` ranges over parameters that meet no value). -/
def arrayLogprob {P : Type*} (kernel : FVal → P → Except Err FVal) (es : List (FVal × P)) : Except Err (List FVal) :=
  es.mapM fun e => kernel e.1 e.2

end Verif
