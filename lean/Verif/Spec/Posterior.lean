import Verif.Spec.Graph
import Verif.Spec.FullDensity

/-! # Averages over some of the variables of a model, given the values of the others -/

namespace Verif.Graph
open Verif MeasureTheory

variable {Di : Type}

/-- Average of `φ` over the values of the variables `free`, weighted by `g`; the other variables have their values in `σ`. -/
noncomputable def averageE (ref : Di → Measure ℝ) (free : List (ℕ × RVDef Di)) (g φ : (ℕ → ℝ) → ENNReal) (σ : ℕ → ℝ) : ENNReal :=
  refE ref free σ (fun τ => g τ * φ τ) / refE ref free σ g

end Verif.Graph

namespace Verif.Full
open Verif MeasureTheory

variable {Di : Type}

/-- Average of `φ` over the values of the variables `free`, weighted by `g`; the other variables have their values in `τ`. -/
noncomputable def averageE (W : World Di) (R : ℕ → Prop) (ρ : ℕ → FVal) (free : List (Item Di)) (g φ : (ℕ → ℝ) → ENNReal) (τ : ℕ → ℝ) : ENNReal :=
  refE W R ρ free τ (fun τ => g τ * φ τ) / refE W R ρ free τ g

/-- What is integrated over does not depend on the values of the variables: neither the values that an item can take nor where it has atoms. -/
def FixedRange (W : World Di) (R : ℕ → Prop) (ρ : ℕ → FVal) (l : List (Item Di)) : Prop :=
  ∀ it ∈ l, ∃ (c : Bool) (a s : Set ℝ), a.Countable ∧ MeasurableSet s ∧ ∀ τ : ℕ → ℝ, it.tree.cont W (readAt R (Graph.asg τ) ρ) = c ∧
    it.tree.atoms W (readAt R (Graph.asg τ) ρ) = a ∧ it.tree.range W (readAt R (Graph.asg τ) ρ) = s

end Verif.Full
