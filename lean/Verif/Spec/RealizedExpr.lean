import Verif.Spec.SameValues

/-! # What a value computed from other variables should be -/

namespace Verif.Full
open Verif

variable {Di : Type}

/-- The value of a graph when each variable `v` with a value variable `valueVar v` has its value. -/
noncomputable def worth (valueVar : ℕ → Option ℕ) (ρ : ℕ → FVal) (ω : ℕ → Di → List FVal → FVal) : Expr Di → FVal
  | .const x => x
  | .inp i => ρ i
  | .app id _ op _ args => ((valueVar id).map ρ).getD (op.eval (List.ofFn fun i => worth valueVar ρ ω (args i)))
  | .rv id dist _ args => ((valueVar id).map ρ).getD (ω id dist (List.ofFn fun i => worth valueVar ρ ω (args i)))
  | .valued r _ => worth valueVar ρ ω r

/-- The numbers `ρ'` are the inputs `ρ`, with each value that is given by a graph computed from the values of the other variables. -/
def Computed (valueVar : ℕ → Option ℕ) (graphs : ℕ → Option (Expr Di)) (ρ : ℕ → FVal) (ω : ℕ → Di → List FVal → FVal) (ρ' : ℕ → FVal) : Prop :=
  (∀ x, graphs x = none → ρ' x = ρ x) ∧ ∀ x e, graphs x = some e → ρ' x = worth valueVar ρ' ω e

/-- The graph mentions no variable that has a value. -/
def Unrelated (valueVar : ℕ → Option ℕ) (graphs : ℕ → Option (Expr Di)) : Expr Di → Prop
  | .const _ => True
  | .inp i => graphs i = none
  | .app id _ _ _ args => valueVar id = none ∧ ∀ i, Unrelated valueVar graphs (args i)
  | .rv id _ _ args => valueVar id = none ∧ ∀ i, Unrelated valueVar graphs (args i)
  | .valued r _ => Unrelated valueVar graphs r

end Verif.Full
