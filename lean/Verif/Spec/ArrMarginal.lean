import Verif.Spec.ArrGraph

/-! # Models with array variables of which some have no value; averages given the values of the others -/

namespace Verif.ArrGraph
open Verif MeasureTheory

variable {Di : Type} {X : ℕ → Type} [∀ i, MeasurableSpace (X i)]

/-- Every parameter vector that can be reached with positive density, by values outside of `N`, is a good one. -/
def ValidAt (arr : ∀ i, X i → Arr FVal) (kernel : Di → Arr FVal → List (Arr FVal) → Except Err (Arr FVal)) (law : ∀ i, Di → List (Arr FVal) → Measure (X i)) (ref : ∀ i, Measure (X i))
    (N : ∀ i, Set (X i)) (ρ : ℕ → Arr FVal) : List (ℕ × RVDef Di) → (∀ i, X i) → Prop
  | [], _ => True
  | (id, r) :: l, σ => GoodAt (arr id) (kernel r.dist) (law id r.dist (params (asg arr σ) ρ r)) (ref id) (params (asg arr σ) ρ r) ∧
      ∀ x, x ∉ N id → dens (arrayJoint (kernel r.dist (arr id x) (params (asg arr σ) ρ r))) ≠ 0 → ValidAt arr kernel law ref N ρ l (Function.update σ id x)

/-- The random variables that a graph depends on directly are those of the model, with the model's definitions of them. -/
def Refers (l : List (ℕ × RVDef Di)) : Expr Di → Prop
  | .const _ => True
  | .inp _ => True
  | .app _ _ args => ∀ i, Refers l (args i)
  | .rv id dist n args => (id, (⟨dist, n, args⟩ : RVDef Di)) ∈ l
  | .valued r _ => Refers l r

/-- The run of the samplers that ends with the values `τ`, as in `Graph.Draws`. -/
def Draws (arr : ∀ i, X i → Arr FVal) (ρ : ℕ → Arr FVal) (free : List (ℕ × RVDef Di)) (τ : ∀ i, X i) (ω : ℕ → Di → List (Arr FVal) → Arr FVal) : Prop :=
  ∀ p ∈ free, ω p.1 p.2.dist (params (asg arr τ) ρ p.2) = arr p.1 (τ p.1)

/-- The variables of `l` that are requested or realized. -/
def withValue (l : List (ℕ × RVDef Di)) (rvs : List ℕ) (realized : Dict ℕ ℕ) : List (ℕ × RVDef Di) := l.filter fun p => decide (p.1 ∈ rvs ∨ p.1 ∈ Dict.keys realized)

/-- The other variables of `l`. -/
def withoutValue (l : List (ℕ × RVDef Di)) (rvs : List ℕ) (realized : Dict ℕ ℕ) : List (ℕ × RVDef Di) := l.filter fun p => !decide (p.1 ∈ rvs ∨ p.1 ∈ Dict.keys realized)

/-- Average of `φ` over the values of the variables `free`, weighted by `g`; the other variables have their values in `σ`. -/
noncomputable def averageE (ref : ∀ i, Measure (X i)) (free : List (ℕ × RVDef Di)) (g φ : (∀ i, X i) → ENNReal) (σ : ∀ i, X i) : ENNReal :=
  refE ref free σ (fun τ => g τ * φ τ) / refE ref free σ g

end Verif.ArrGraph
