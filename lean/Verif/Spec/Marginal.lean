import Verif.Spec.Graph

/-! # Models of which some variables have no value -/

namespace Verif.Graph
open Verif MeasureTheory

variable {Di : Type}

/-- The random variables that a graph depends on directly are those of the model, with the model's definitions of them. -/
def Refers (l : List (ℕ × RVDef Di)) : Expr Di → Prop
  | .const _ => True
  | .inp _ => True
  | .app _ _ args => ∀ i, Refers l (args i)
  | .rv id dist n args => (id, (⟨dist, n, args⟩ : RVDef Di)) ∈ l
  | .valued r _ => Refers l r

/-- The run of the samplers that ends with the values `τ`: asked for a draw of a variable of `free`, at the parameters that it has when the variables have the values `τ`, the sampler answers
with the variable's value in `τ`.  What it answers at other parameters, or for other variables, is left open. -/
def Draws (ρ : ℕ → FVal) (free : List (ℕ × RVDef Di)) (τ : ℕ → ℝ) (ω : ℕ → Di → List FVal → FVal) : Prop :=
  ∀ p ∈ free, ω p.1 p.2.dist (params (asg τ) ρ p.2) = .fin (τ p.1)

/-- The variables of `l` that are requested or realized. -/
def withValue (l : List (ℕ × RVDef Di)) (rvs : List ℕ) (realized : Dict ℕ ℕ) : List (ℕ × RVDef Di) := l.filter fun p => decide (p.1 ∈ rvs ∨ p.1 ∈ Dict.keys realized)

/-- The other variables of `l`. -/
def withoutValue (l : List (ℕ × RVDef Di)) (rvs : List ℕ) (realized : Dict ℕ ℕ) : List (ℕ × RVDef Di) := l.filter fun p => !decide (p.1 ∈ rvs ∨ p.1 ∈ Dict.keys realized)

end Verif.Graph
