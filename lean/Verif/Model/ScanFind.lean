import Verif.Model.FVal

/-!
# Which scans are converted (`/repo/aeppl/scan.py:316-361`)

Variables of the body of a scan are numbers.  `D` are draws, `V` values.
-/

namespace Verif.ScanFind

/-- An `Apply` node of the body: whether its op is a `MeasurableVariable`, its inputs and outputs, and what it computes of the values of the inputs and a draw (a node that is
not measurable does not use the draw, see `Body.Pure`).  The nodes that measurable functions are applied to (`assign_custom_measurable_outputs`) are instances of
`MeasurableVariable` as well (abstract.py:110-117). -/
structure Node (D V : Type) where
  measurable : Bool
  inputs : List ℕ
  outputs : List ℕ
  compute : List V → D → List V

/-- The body of a scan: the nodes in topological order, the inner-outputs, and which variables have type `RandomType` (states of generators). -/
structure Body (D V : Type) where
  nodes : List (Node D V)
  outputs : List ℕ
  isRandomType : ℕ → Bool

variable {D V : Type}

/-- A node is visited if one of its outputs is. -/
def Node.visited (n : Node D V) (vs : List ℕ) : Bool := n.outputs.any fun o => decide (o ∈ vs)

/-- `io_toposort` goes from the outputs backwards: the variables visited, when `vs` have been visited after the nodes `ns` (latest first). -/
def visit : List (Node D V) → List ℕ → List ℕ
  | [], vs => vs
  | n :: ns, vs => visit ns (if n.visited vs then n.inputs ++ vs else vs)

/-- scan.py:338-342: the outputs whose ancestors are visited. -/
def Body.targets (b : Body D V) : List ℕ := b.outputs.filter fun o => !b.isRandomType o

/-- scan.py:338-342 `io_toposort(.., clients=clients)`: the variables visited. -/
def Body.visitedVars (b : Body D V) : List ℕ := visit b.nodes.reverse b.targets

/-- scan.py:343-353, for one node: `clients[n]` are the outputs of `n` that were visited; some of them is not an inner-output. -/
def Body.blocks (b : Body D V) (n : Node D V) : Bool :=
  n.visited b.visitedVars && n.measurable && n.outputs.any fun o => decide (o ∈ b.visitedVars) && !decide (o ∈ b.outputs)

/-- scan.py:316-361 `find_measurable_scans`: whether a scan becomes a `MeasurableScan`.  The two early exits (the scan is one already, the graph has no `shape_feature`) are left
out. -/
def Body.converted (b : Body D V) : Bool := !b.nodes.any b.blocks

/-- scan.py:231-252 `get_random_outer_outputs`: the positions (among the outputs that are not states of generators) of those that are made by measurable nodes. -/
def Body.measurableOutputs (b : Body D V) : List Bool := b.targets.map fun o => b.nodes.any fun n => n.measurable && decide (o ∈ n.outputs)

/-- The values of the variables after a node has been computed. -/
def Node.run (n : Node D V) (d : D) (e : ℕ → V) (v : ℕ) : V := ((n.outputs.zip (n.compute (n.inputs.map e) d)).lookup v).getD (e v)

/-- The values of the variables after the nodes have been computed, each with its own draw. -/
def runAll : List (Node D V) → List D → (ℕ → V) → ℕ → V
  | n :: ns, d :: ds, e => runAll ns ds (n.run d e)
  | _, _, e => e

end Verif.ScanFind
