import Verif.Spec.ArrGraph

/-! # What a value computed from other variables should be, for models with array variables -/

namespace Verif.ArrGraph
open Verif

variable {Di : Type}

/-- The arrays `ρ'` are the inputs `ρ`, with each value that is given by a graph computed from the values of the variables in `valueVar`; the other random variables of the graph are drawn. -/
def Computed (valueVar : ℕ → Option ℕ) (graphs : ℕ → Option (Expr Di)) (ρ : ℕ → Arr FVal) (ω : ℕ → Di → List (Arr FVal) → Arr FVal) (ρ' : ℕ → Arr FVal) : Prop :=
  (∀ x, graphs x = none → ρ' x = ρ x) ∧ ∀ x e, graphs x = some e → ρ' x = evalGiven (fun v => (valueVar v).map ρ') ρ ω e

/-- The graph mentions no variable that has a value. -/
def Unrelated (valueVar : ℕ → Option ℕ) : Expr Di → Prop
  | .const _ => True
  | .inp _ => True
  | .app _ _ args => ∀ i, Unrelated valueVar (args i)
  | .rv id _ _ args => valueVar id = none ∧ ∀ i, Unrelated valueVar (args i)
  | .valued r _ => Unrelated valueVar r

end Verif.ArrGraph
