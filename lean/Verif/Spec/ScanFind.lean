import Verif.Model.ScanFind

/-! # What the body of a scan depends on -/

namespace Verif.ScanFind
variable {D V : Type}

/-- The body is a graph of the kind Aesara builds: the inputs of a node are not made by itself or by a later one, no variable is made by two nodes, and nodes that are not measurable do
not draw. -/
structure Body.WellFormed (b : Body D V) : Prop where
  order : b.nodes.Pairwise fun n m => ∀ i ∈ n.inputs, i ∉ m.outputs
  irrefl : ∀ n ∈ b.nodes, ∀ i ∈ n.inputs, i ∉ n.outputs
  unique : b.nodes.Pairwise fun n m => ∀ o ∈ n.outputs, o ∉ m.outputs
  pure : ∀ n ∈ b.nodes, n.measurable = false → ∀ x d d', n.compute x d = n.compute x d'

/-- The outputs that are not states of generators depend on `v`. -/
inductive Body.Needed (b : Body D V) : ℕ → Prop
  | output {o : ℕ} : o ∈ b.outputs → b.isRandomType o = false → b.Needed o
  | input {n : Node D V} {o i : ℕ} : n ∈ b.nodes → o ∈ n.outputs → b.Needed o → i ∈ n.inputs → b.Needed i

/-- `v` is made by a measurable node: it is drawn in the body. -/
def Body.Drawn (b : Body D V) (v : ℕ) : Prop := ∃ n ∈ b.nodes, n.measurable = true ∧ v ∈ n.outputs

end Verif.ScanFind
