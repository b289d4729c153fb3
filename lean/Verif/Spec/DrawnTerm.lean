import Verif.Spec.FullDensity

/-! # Nodes that occur in a graph -/

namespace Verif.Full

variable {Di : Type}

/-- The node `i` occurs in a graph, above or below variables with values. -/
def Uses (i : ℕ) : Expr Di → Prop
  | .const _ => False
  | .inp _ => False
  | .app id _ _ _ args => id = i ∨ ∃ j, Uses i (args j)
  | .rv id _ _ args => id = i ∨ ∃ j, Uses i (args j)
  | .valued r _ => Uses i r

end Verif.Full
