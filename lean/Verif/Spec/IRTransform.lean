import Verif.Model.IRTransform
import Verif.Spec.IRDensity

/-! # Values of a model on transformed scales, and integrals over them -/

namespace Verif.IR
open Verif MeasureTheory Set

variable {Di : Type}

/-- The values of the items on their own scale: the values `τ` taken back, one item after the other; the transform of an item sees the parameters of its random variable. -/
noncomputable def takeBack (tr : ℕ → Option VTransform) (R : ℕ → Prop) (ρ : ℕ → FVal) (τ : ℕ → ℝ) : List (Item Di) → (ℕ → FVal) → ℕ → FVal
  | [], X => X
  | it :: l, X =>
    takeBack tr R ρ τ l (Function.update X it.v
      (match tr it.v with
      | none => .fin (τ it.v)
      | some t => t.backward (.fin (τ it.v)) (it.params R X ρ)))

/-- The values that the random variable and the functions of an item can give, when the variables before have the values `X`. -/
noncomputable def Item.rangeAt (supp : Di → List FVal → Set ℝ) (R : ℕ → Prop) (ρ X : ℕ → FVal) (it : Item Di) : Set ℝ :=
  towerMap (readAt R X ρ) it.layers '' supp it.source.dist (it.params R X ρ)

/-- The same on the transformed scale. -/
noncomputable def Item.transRange (tr : ℕ → Option VTransform) (supp : Di → List FVal → Set ℝ) (R : ℕ → Prop) (ρ X : ℕ → FVal) (it : Item Di) : Set ℝ :=
  match tr it.v with
  | none => it.rangeAt supp R ρ X
  | some t => (fun y => realOf (.ok (t.forward (.fin y) (it.params R X ρ)))) '' it.rangeAt supp R ρ X

/-- Iterated integral over the values that the items can take on the transformed scale; `X` gives their values on the own scale. -/
noncomputable def refT (tr : ℕ → Option VTransform) (X : (ℕ → ℝ) → ℕ → FVal) (ref : Di → Measure ℝ) (supp : Di → List FVal → Set ℝ) (R : ℕ → Prop) (ρ : ℕ → FVal) :
    List (Item Di) → (ℕ → ℝ) → ((ℕ → ℝ) → ENNReal) → ENNReal
  | [], τ, φ => φ τ
  | it :: l, τ, φ => ∫⁻ z in it.transRange tr supp R ρ (X τ), refT tr X ref supp R ρ l (Function.update τ it.v z) φ ∂(ref it.source.dist)

/-- The transform does not look at the inputs of the node. -/
structure VTransform.Plain (t : VTransform) : Prop where
  forward : ∀ y a b, t.forward y a = t.forward y b
  backward : ∀ y a b, t.backward y a = t.backward y b
  logJacDet : ∀ y a b, t.logJacDet y a = t.logJacDet y b

/-- The transform of an item is invertible, with the right Jacobian term, on the values that the item can take; the item is continuous. -/
def TransOk (isInt : Di → Bool) (tr : ℕ → Option VTransform) (supp : Di → List FVal → Set ℝ) (R : ℕ → Prop) (ρ X : ℕ → FVal) (it : Item Di) : Prop :=
  ∀ t, tr it.v = some t → isInt it.source.dist = false ∧ MeasurableSet (it.transRange tr supp R ρ X) ∧
    Inverts (t.at (it.params R X ρ)) (it.rangeAt supp R ρ X) (it.transRange tr supp R ρ X) ∧ LogJac (t.at (it.params R X ρ)) (it.transRange tr supp R ρ X)

/-- At all values that can be reached, the parameters are good, the functions invertible and the transforms smooth and invertible. -/
def ValidT (kernel : Di → FVal → List FVal → Except Err FVal) (law : Di → List FVal → Measure ℝ) (ref : Di → Measure ℝ) (supp : Di → List FVal → Set ℝ) (isInt : Di → Bool)
    (tr : ℕ → Option VTransform) (X : (ℕ → ℝ) → ℕ → FVal) (R : ℕ → Prop) (ρ : ℕ → FVal) : List (Item Di) → (ℕ → ℝ) → Prop
  | [], _ => True
  | it :: l, τ =>
    GoodOn (kernel it.source.dist) (law it.source.dist) (ref it.source.dist) (supp it.source.dist) (it.params R (X τ) ρ) ∧
    TowerOkOn (readAt R (X τ) ρ) it.layers (supp it.source.dist (it.params R (X τ) ρ)) ∧
    TransOk isInt tr supp R ρ (X τ) it ∧
    ∀ z ∈ it.transRange tr supp R ρ (X τ), ValidT kernel law ref supp isInt tr X R ρ l (Function.update τ it.v z)

/-- The inputs of a node. -/
def inputsOf : Expr Di → List (Expr Di)
  | .app _ _ _ args => List.ofFn args
  | .rv _ _ _ args => List.ofFn args
  | _ => []

/-- A value computed from the draws `σ`, on the transformed scale. -/
noncomputable def transValue (tr : ℕ → Option VTransform) (ρ : ℕ → FVal) (σ : ℕ → ℝ) (v : ℕ) (e : Expr Di) : ℝ :=
  match tr v with
  | none => realOf (.ok (evalAt (Graph.asg σ) ρ e))
  | some t => realOf (.ok (t.forward (evalAt (Graph.asg σ) ρ e) ((inputsOf e).map (evalAt (Graph.asg σ) ρ))))

open Classical in
/-- The values of the variables `ids` on the transformed scale. -/
noncomputable def transValues (tr : ℕ → Option VTransform) (defs : ℕ → Option (Expr Di)) (ρ : ℕ → FVal) (ids : List ℕ) (τ₀ σ : ℕ → ℝ) (v : ℕ) : ℝ :=
  if v ∈ ids then
    match defs v with
    | some e => transValue tr ρ σ v e
    | none => 0
  else τ₀ v

/-- Which transform is asked for, and for a default transform whether there is one: by request, a given one; or the one of the distribution of a random variable. -/
def Requested (reqs : Dict ℕ (Option (TransVals.Req VTransform))) (registered : Di → Option VTransform) (defs : ℕ → Option (Expr Di)) (tr : ℕ → Option VTransform) : Prop :=
  ∀ v t, tr v = some t ↔
    Dict.get? reqs v = some (some (.transform t)) ∨
    Dict.get? reqs v = some (some .default) ∧ ∃ id dist n args, defs v = some (.rv id dist n args) ∧ registered dist = some t

/-- The graph uses the variable `v`, one of those with values (`R`), and not only to compute another one of them. -/
def Uses (R : ℕ → Prop) (v : ℕ) : Expr Di → Prop
  | .app id _ _ args => (R id ∧ id = v) ∨ (¬ R id ∧ ∃ i, Uses R v (args i))
  | .rv id _ _ args => (R id ∧ id = v) ∨ (¬ R id ∧ ∃ i, Uses R v (args i))
  | _ => False

/-- The variable `w` is given through the variable `v`. -/
def Parent (defs : ℕ → Option (Expr Di)) (R : ℕ → Prop) (v w : ℕ) : Prop := ∃ e, defs w = some e ∧ ∃ a ∈ inputsOf e, Uses R v a

/-- The variables `ids` are given values in this order; `v` is given through one of them, and a variable that is given through `v` comes before it. -/
def ChildFirst (defs : ℕ → Option (Expr Di)) (ids : List ℕ) (v : ℕ) : Prop :=
  (∃ u, Parent defs (· ∈ ids) u v) ∧ ∃ p q w, ids = p ++ v :: q ∧ w ∈ p ∧ Parent defs (· ∈ ids) v w

/-- A call for the listed variables, with transforms `tr` and new value variables `tv`; the rewriter visits the variables in the order `order`.  The value variables are different from each other; a
transform of a function of a random variable, or of a variable that comes after one given through it, does not look at the inputs of the node. -/
structure Setting (isInt : Di → Bool) (defs : ℕ → Option (Expr Di)) (l : List (Item Di)) (rvs clones : List ℕ) (realized : Dict ℕ ℕ)
    (reqs : Dict ℕ (Option (TransVals.Req VTransform))) (registered : Di → Option VTransform) (tr : ℕ → Option VTransform) (tv : ℕ → ℕ) (order : List ℕ) : Prop where
  wf : WellFormed defs
  ne : l ≠ []
  nodup : (l.map (·.v)).Nodup
  listed : Listed defs isInt (· ∈ l.map (·.v)) l []
  length : clones.length = rvs.length
  mem : ∀ v, v ∈ l.map (·.v) ↔ v ∈ rvs ∨ v ∈ Dict.keys realized
  requested : Requested reqs registered defs tr
  keys : ∀ v ∈ Dict.keys reqs, v ∈ l.map (·.v)
  plain : ∀ it ∈ l, ∀ t, tr it.v = some t → it.layers ≠ [] → t.Plain
  inside : ∀ v t, tr v = some t → ChildFirst defs (Dict.keys (Cond.rvValues rvs clones realized)) v → t.Plain
  inj : ∀ v w y, Dict.get? (Cond.rvValues rvs clones realized) v = some y → Dict.get? (Cond.rvValues rvs clones realized) w = some y → v = w
  fresh : ∀ v w y, v ∈ l.map (·.v) → Dict.get? (Cond.rvValues rvs clones realized) w = some y → tv v ≠ y
  order : order.Perm (l.map (·.v))

/-- The environment in which the value variables have the values `τ` and the other inputs of the graphs the values `ρ`. -/
structure Env (defs : ℕ → Option (Expr Di)) (l : List (Item Di)) (d : Dict ℕ ℕ) (tr : ℕ → Option VTransform) (tv : ℕ → ℕ) (ρ : ℕ → FVal) (τ : ℕ → ℝ) (env : ℕ → FVal) : Prop where
  kept : ∀ v y, Dict.get? d v = some y → tr v = none → env y = .fin (τ v)
  new : ∀ v ∈ l.map (·.v), (tr v).isSome → env (tv v) = .fin (τ v)
  inputs : ∀ v e, v ∈ l.map (·.v) → defs v = some e → ∀ i, UsesInput i e → env i = ρ i ∧ ∀ w y, Dict.get? d w = some y → i ≠ y

end Verif.IR
