import Verif.Spec.Full

/-! # Requests that give the same variables the same values -/

namespace Verif.Full
open Verif

variable {Di : Type}

/-- The variable `v` has the value variable `x`: the one it is mapped to in `realized`, or else the one made for it. -/
def Given (rvs clones : List ℕ) (realized : Dict ℕ ℕ) (v x : ℕ) : Prop := (v, x) ∈ realized ∨ (∀ y, (v, y) ∉ realized) ∧ (v, x) ∈ rvs.zip clones

/-- The two requests have values for the same variables, and these are the same numbers. -/
def SameValues (ρ₁ ρ₂ : ℕ → FVal) (rvs₁ clones₁ : List ℕ) (realized₁ : Dict ℕ ℕ) (rvs₂ clones₂ : List ℕ) (realized₂ : Dict ℕ ℕ) : Prop :=
  ∀ v y, (∃ x, Given rvs₁ clones₁ realized₁ v x ∧ ρ₁ x = y) ↔ ∃ x, Given rvs₂ clones₂ realized₂ v x ∧ ρ₂ x = y

/-- The other inputs of the graph are the same numbers. -/
def SameInputs (ρ₁ ρ₂ : ℕ → FVal) : Expr Di → Prop
  | .const _ => True
  | .inp i => ρ₁ i = ρ₂ i
  | .app _ _ _ _ args => ∀ i, SameInputs ρ₁ ρ₂ (args i)
  | .rv _ _ _ args => ∀ i, SameInputs ρ₁ ρ₂ (args i)
  | .valued _ v => SameInputs ρ₁ ρ₂ v

end Verif.Full
