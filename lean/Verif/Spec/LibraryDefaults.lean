import Verif.Spec.Library
import Verif.Spec.IRTransform
import Verif.Spec.ArrTransform

/-! # Models whose values are on the scales of the default transforms -/

namespace Verif.Library
open Verif FVal MeasureTheory Set

/-- Parameters for which the default transform maps the support onto the real line: for Pareto variables the shape must be the scale, for half-Cauchy variables the location must be zero, and for von Mises variables there are none. -/
def Lib.Fits : Lib → List FVal → Prop
  | .pareto, [fin a, fin m] => a = m
  | .halfcauchy, [fin l, _] => l = 0
  | .vonmises, _ => False
  | _, _ => True

variable (asked : ℕ → Prop) (X : (ℕ → ℝ) → ℕ → FVal) (R : ℕ → Prop) (ρ : ℕ → FVal)

open scoped Classical in
/-- The values of an item: all real numbers, if it is a continuous random variable on the scale of its default transform. -/
noncomputable def lineOr (Y : ℕ → FVal) (it : IR.Item Lib) : Set ℝ :=
  if asked it.v ∧ it.layers = [] ∧ it.source.dist.kind = .float then univ else it.rangeAt Lib.supp R ρ Y

/-- Iterated integral over the values of the items; `X` gives their values on the own scale. -/
noncomputable def lineE : List (IR.Item Lib) → (ℕ → ℝ) → ((ℕ → ℝ) → ENNReal) → ENNReal
  | [], τ, φ => φ τ
  | it :: l, τ, φ => ∫⁻ z in lineOr asked R ρ (X τ) it, lineE l (Function.update τ it.v z) φ ∂it.source.dist.ref

/-- At all values, the parameters are in range, functions invertible, and default transforms fit. -/
def ValidDefaults : List (IR.Item Lib) → (ℕ → ℝ) → Prop
  | [], _ => True
  | it :: l, τ =>
    it.source.dist.Domain (it.params R (X τ) ρ) ∧
    IR.TowerOkOn (IR.readAt R (X τ) ρ) it.layers (it.source.dist.supp (it.params R (X τ) ρ)) ∧
    (asked it.v → it.layers = [] → it.source.dist.Fits (it.params R (X τ) ρ)) ∧
    ∀ z ∈ lineOr asked R ρ (X τ) it, ValidDefaults l (Function.update τ it.v z)

/-! ## Arrays -/

open ArrGraph

/-- At all values that can be reached, the parameters fit into the shape of the variable and are in range at every entry; where the default transform is asked for, it fits at every entry. -/
def ValidArrayDefaults (shape : ℕ → List ℕ) (ρ : ℕ → Arr FVal) : List (ℕ × RVDef Lib) → (∀ i, Fin (entries (shape i)) → ℝ) → Prop
  | [], _ => True
  | (id, r) :: l, σ => Fit (shape id) (params (asg (fun i => numbers (shape i)) σ) ρ r) ∧
    (∀ k : Fin (entries (shape id)), r.dist.Domain (paramsAt (params (asg (fun i => numbers (shape i)) σ) ρ r) (coord k))) ∧
    (asked id → ∀ k : Fin (entries (shape id)), r.dist.Fits (paramsAt (params (asg (fun i => numbers (shape i)) σ) ρ r) (coord k))) ∧
    ∀ x, (∀ k, x k ∈ r.dist.supp (paramsAt (params (asg (fun i => numbers (shape i)) σ) ρ r) (coord k))) → ValidArrayDefaults shape ρ l (Function.update σ id x)

/-- A scale for numbers, given the parameters: how draws get there. -/
def onLine (tr : Option IR.VTransform) (p : List FVal) (x : ℝ) : ℝ :=
  match tr with
  | none => x
  | some t => realOf (.ok (t.forward (.fin x) p))

open scoped Classical in
/-- The draws of an array variable, on the scale of the default transforms `default` if it was asked for. -/
noncomputable def lineDraw (default : Lib → Option IR.VTransform) (shape : ℕ → List ℕ) (i : ℕ) (d : Lib) (p : List (Arr FVal)) (x : Fin (entries (shape i)) → ℝ) (k : Fin (entries (shape i))) : ℝ :=
  if asked i then onLine (default d) (paramsAt p (coord k)) (x k) else x k

end Verif.Library
