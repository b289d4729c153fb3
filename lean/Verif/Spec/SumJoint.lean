import Verif.Spec.SumDrawn

/-! # Forward sampling of models with sums of normal variables, and integrals over the values of the requested variables -/

namespace Verif.Full
open Verif MeasureTheory Set

variable {Di : Type}

/-- A requested variable, how it is made (sums of normal variables are single normal variables), and what is drawn for it. -/
structure SItem (Di : Type) where
  v : ℕ
  tree : RTree Di
  draws : List (Source Di)

/-- The requested variables are listed such that everything that one is made from, other than its own random variables, follows from the ones listed before. -/
def SListed [IR.Normals Di] (defs : ℕ → Option (Expr Di)) (kd : Di → Kind) (hasCdf : Di → Bool) (R : ℕ → Prop) : List (SItem Di) → List ℕ → Prop
  | [], _ => True
  | it :: l, seen => (∃ e, defs it.v = some e ∧ MadeOf R kd hasCdf e it.tree it.draws) ∧ it.tree.Surround (DetBy R (· ∈ seen)) ∧ (∀ s ∈ it.draws, ∀ i, DetBy R (· ∈ seen) (s.args i)) ∧
    SListed defs kd hasCdf R l (seen ++ [it.v])

/-- Values of graphs when the variables in `R`, other than `v` itself, have the values `τ`. -/
noncomputable def readOthers (R : ℕ → Prop) (v : ℕ) (τ : ℕ → ℝ) (ρ : ℕ → FVal) : Expr Di → FVal := readAt (fun w => R w ∧ w ≠ v) (Graph.asg τ) ρ

/-- Integral over the values that an item can take, against its reference measure. -/
noncomputable def SItem.integral (W : World Di) (R : ℕ → Prop) (ρ : ℕ → FVal) (it : SItem Di) (φ : (ℕ → ℝ) → ENNReal) (τ : ℕ → ℝ) : ENNReal :=
  ∫⁻ y in it.tree.range W (readOthers R it.v τ ρ), φ (Function.update τ it.v y) ∂(it.tree.ref W (readOthers R it.v τ ρ))

/-- Iterated integral. -/
noncomputable def sumRefE (W : World Di) (R : ℕ → Prop) (ρ : ℕ → FVal) (φ : (ℕ → ℝ) → ENNReal) : List (SItem Di) → (ℕ → ℝ) → ENNReal
  | [] => φ
  | it :: l => it.integral W R ρ (sumRefE W R ρ φ l)

/-- At all values that can be reached, everything is in order, and the normal variables in sums have finite means and positive standard deviations. -/
def SValid [IR.Normals Di] (reg : Registry Di) (W : World Di) (R : ℕ → Prop) (ρ : ℕ → FVal) : List (SItem Di) → (ℕ → ℝ) → Prop
  | [], _ => True
  | it :: l, τ => it.tree.Ok reg W (readOthers R it.v τ ρ) ∧ GoodNormals (readOthers R it.v τ ρ) it.draws ∧
    ∀ y ∈ it.tree.range W (readOthers R it.v τ ρ), SValid reg W R ρ l (Function.update τ it.v y)

end Verif.Full
