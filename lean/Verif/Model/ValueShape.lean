import Verif.Model.ArrGraph

/-! # Values of other shapes than the variable -/

namespace Verif.ArrGraph
open Verif

/-- logprob.py:127-543, the elementwise log-probabilities as they are dispatched: `*inputs` are the inputs of the node that draws the variable, `rng, size, dtype, *params`, and only `inputs[3:]` are read (for
example logprob.py:142-143 `mu, sigma = inputs[3:]`).  Neither this nor `ValuedVariable.make_node` (abstract.py:151-164, which compares only data types) looks at the shape of the variable. -/
def rvLogprob (k : FVal → List FVal → Except Err FVal) (_size : List ℕ) (params : List (Arr FVal)) (value : Arr FVal) : Except Err (Arr FVal) := elemwiseLogprob k value params

end Verif.ArrGraph
