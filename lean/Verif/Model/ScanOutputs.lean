import Verif.Model.FVal

/-!
# Which outputs of a scan get which values (`/repo/aeppl/scan.py:231-313, 529-534` with `/repo/aeppl/joint_logprob.py:173-207`)

The outputs of the scan that are not random generators are numbered as in `node.outputs`; `V` are value series, `T` the series computed by the new scan.
-/

namespace Verif.ScanOut

/-- `measurable k` tells whether the inner-output of output `k` is made by a `MeasurableVariable`. -/
structure Node (V T : Type) where
  measurable : List Bool
  /-- The series of an output that is not converted, when the converted outputs have given values. -/
  series : ℕ → List (ℕ × V) → T
  /-- The series of log-probabilities of a converted output. -/
  logp : ℕ → List (ℕ × V) → T

variable {V T : Type}

/-- scan.py:231-252 `get_random_outer_outputs`: the measurable ones among the outputs. -/
def Node.randomOutputs (node : Node V T) : List ℕ := (List.range node.measurable.length).filter fun k => node.measurable.getD k false

/-- The outputs that stay in the new scan. -/
def Node.otherOutputs (node : Node V T) : List ℕ := (List.range node.measurable.length).filter fun k => !node.measurable.getD k false

/-- scan.py:530-534 `_get_measurable_outputs_MeasurableScan`: all outputs. -/
def Node.measurableOutputs (node : Node V T) : List ℕ := List.range node.measurable.length

/-- scan.py:266-313 `logprob_ScanRV`: the outputs of the new scan.  Line 272 pairs the random outputs with the values; the log-probabilities are appended to the outputs that
are left (`convert_outer_out_to_in`, 220-226), and line 313 returns all outputs of the new scan.  Without random outputs line 271 raises. -/
def Node.logprob (node : Node V T) (values : List V) : Except Err (List T) :=
  if node.randomOutputs = [] then .error .valueError
  else
    let value_map := List.zip node.randomOutputs values
    .ok (node.otherOutputs.map (fun k => node.series k value_map) ++ (value_map.map Prod.fst).map fun k => node.logp k value_map)

/-- joint_logprob.py:173-207 for one scan: `pairs` are the values, in the order in which they are bound to the node. -/
def Node.terms (node : Node V T) (values : List V) : Except Err (List (ℕ × T)) :=
  let outputs := node.measurableOutputs
  if outputs = [] then .error .densityNotFound
  else if outputs.length < values.length then .error .valueError
  else if outputs.length ≠ values.length then .error .assertion
  else
    match node.logprob values with
    | .error e => .error e
    | .ok rv_logprobs => .ok (List.zip outputs rv_logprobs)

end Verif.ScanOut
