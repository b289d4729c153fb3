import Verif.Spec.FullDensity

/-! # Models with functions, clipping, rounding and mixtures of which some random variables have no value -/

namespace Verif.Full
open Verif MeasureTheory

variable {Di : Type}

/-- The run of the samplers that ends with the values `τ`: asked for a draw of a random variable of `free`, at the parameters that it has when the variables in `R` have the values `τ`, the sampler answers with the value
of the variable in `τ`.  What it answers at other parameters, or for other variables, is left open. -/
def DrawnAs (R : ℕ → Prop) (ρ : ℕ → FVal) (free : List (Source Di)) (τ : ℕ → ℝ) (ω : ℕ → Di → List FVal → FVal) : Prop :=
  ∀ s ∈ free, ω s.id s.dist (s.params (readAt R (Graph.asg τ) ρ)) = .fin (τ s.id)

/-- Expectation of `φ`: draw the random variables one after the other, from their laws at the parameters computed from the values of the variables in `R`, those drawn so far included. -/
noncomputable def drawE (law : Di → List FVal → Measure ℝ) (R : ℕ → Prop) (ρ : ℕ → FVal) : List (Source Di) → (ℕ → ℝ) → ((ℕ → ℝ) → ENNReal) → ENNReal
  | [], τ, φ => φ τ
  | s :: l, τ, φ => ∫⁻ x, drawE law R ρ l (Function.update τ s.id x) φ ∂(law s.dist (s.params (readAt R (Graph.asg τ) ρ)))

/-- The items that are requested or realized. -/
def valuedItems (l : List (Item Di)) (rvs : List ℕ) (realized : Dict ℕ ℕ) : List (Item Di) := l.filter fun it => decide (it.v ∈ rvs ∨ it.v ∈ Dict.keys realized)

/-- The other items. -/
def freeItems (l : List (Item Di)) (rvs : List ℕ) (realized : Dict ℕ ℕ) : List (Item Di) := l.filter fun it => !decide (it.v ∈ rvs ∨ it.v ∈ Dict.keys realized)

/-- The item is a random variable. -/
def Item.Random (it : Item Di) : Prop := ∃ s, it.tree = .rv s

end Verif.Full
