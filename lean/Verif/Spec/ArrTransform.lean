import Verif.Model.ArrTransform
import Verif.Spec.ArrGraph

/-! # Values of array variables on transformed scales, and integrals over them

A variable `id` takes values in a space `X id`, laid out as arrays by `arr id`; on the transformed scale in a space `Z id`, laid out by `arrZ id`.
-/

namespace Verif.ArrGraph
open Verif Cond MeasureTheory

variable {Di : Type} {X Z : ℕ → Type} [∀ i, MeasurableSpace (X i)] [∀ i, MeasurableSpace (Z i)]

/-- An array on the transformed scale. -/
def onScale : Option ATransform → Arr FVal → List (Arr FVal) → Arr FVal
  | none, a, _ => a
  | some t, a, p => t.forward a p

/-- An array taken back from the transformed scale. -/
def offScale : Option ATransform → Arr FVal → List (Arr FVal) → Arr FVal
  | none, a, _ => a
  | some t, a, p => t.backward a p

/-- The log-probabilities of a variable at a value on the transformed scale. -/
noncomputable def termAt (kernel : Arr FVal → List (Arr FVal) → Except Err (Arr FVal)) (tr : Option ATransform) (use_jacobian : Bool) (z : Arr FVal) (p : List (Arr FVal)) : Except Err (Arr FVal) :=
  match tr with
  | none => kernel z p
  | some t => transformedArr t p (fun v => kernel v p) use_jacobian z

/-- The values of the variables on their own scale: the values `τ` taken back, one variable after the other; the transform of a variable sees its parameters. -/
def takeBack (tr : ℕ → Option ATransform) (arrZ : ∀ i, Z i → Arr FVal) (ρ : ℕ → Arr FVal) (τ : ∀ i, Z i) : List (ℕ × RVDef Di) → (ℕ → Arr FVal) → ℕ → Arr FVal
  | [], A => A
  | (id, r) :: l, A => takeBack tr arrZ ρ τ l (Function.update A id (offScale (tr id) (arrZ id (τ id)) (params A ρ r)))

/-- Iterated integral over the values on the transformed scales, in the regions `reg` that the parameters allow; `A` holds the values on the own scales. -/
noncomputable def refT (tr : ℕ → Option ATransform) (arrZ : ∀ i, Z i → Arr FVal) (reg : ∀ i, Di → List (Arr FVal) → Set (Z i)) (ref : ∀ i, Measure (Z i)) (ρ : ℕ → Arr FVal) :
    List (ℕ × RVDef Di) → (ℕ → Arr FVal) → (∀ i, Z i) → ((∀ i, Z i) → ENNReal) → ENNReal
  | [], _, τ, φ => φ τ
  | (id, r) :: l, A, τ, φ =>
    ∫⁻ z in reg id r.dist (params A ρ r), refT tr arrZ reg ref ρ l (Function.update A id (offScale (tr id) (arrZ id z) (params A ρ r))) (Function.update τ id z) φ ∂(ref id)

/-- The draws `σ` on the transformed scales, by the maps `fwd`. -/
noncomputable def scaled (arr : ∀ i, X i → Arr FVal) (fwd : ∀ i, Di → List (Arr FVal) → X i → Z i) (ρ : ℕ → Arr FVal) (l : List (ℕ × RVDef Di)) (τ₀ : ∀ i, Z i) (σ : ∀ i, X i) (i : ℕ) : Z i :=
  match Dict.get? l i with
  | some r => fwd i r.dist (params (asg arr σ) ρ r) (σ i)
  | none => τ₀ i

/-- At the parameters `p`: `fwd` is the forward transform, `backward` undoes it, and the sum over the log-probability array with Jacobian terms is the log-density of the transformed draw with respect to
`ref`, on the region `reg`. -/
structure GoodT {Y W : Type} [MeasurableSpace Y] [MeasurableSpace W] (arr : Y → Arr FVal) (arrZ : W → Arr FVal) (kernel : Arr FVal → List (Arr FVal) → Except Err (Arr FVal)) (tr : Option ATransform)
    (fwd : Y → W) (reg : Set W) (law : Measure Y) (ref : Measure W) (p : List (Arr FVal)) : Prop where
  prob : IsProbabilityMeasure law
  forward : ∀ᵐ x ∂law, fwd x ∈ reg ∧ onScale tr (arr x) p = arrZ (fwd x)
  backward : ∀ᵐ x ∂law, offScale tr (arrZ (fwd x)) p = arr x
  meas : AEMeasurable (fun z => dens (arrayJoint (termAt kernel tr true (arrZ z) p))) (ref.restrict reg)
  dens : ∀ G : W → ENNReal, ∫⁻ x, G (fwd x) ∂law = ∫⁻ z in reg, dens (arrayJoint (termAt kernel tr true (arrZ z) p)) * G z ∂ref

/-- With probability one, the sampler meets only good parameters. -/
def ValidT (arr : ∀ i, X i → Arr FVal) (arrZ : ∀ i, Z i → Arr FVal) (kernel : Di → Arr FVal → List (Arr FVal) → Except Err (Arr FVal)) (tr : ℕ → Option ATransform)
    (fwd : ∀ i, Di → List (Arr FVal) → X i → Z i) (reg : ∀ i, Di → List (Arr FVal) → Set (Z i)) (law : ∀ i, Di → List (Arr FVal) → Measure (X i)) (ref : ∀ i, Measure (Z i))
    (ρ : ℕ → Arr FVal) : List (ℕ × RVDef Di) → (∀ i, X i) → Prop
  | [], _ => True
  | (id, r) :: l, σ =>
    GoodT (arr id) (arrZ id) (kernel r.dist) (tr id) (fwd id r.dist (params (asg arr σ) ρ r)) (reg id r.dist (params (asg arr σ) ρ r)) (law id r.dist (params (asg arr σ) ρ r)) (ref id)
        (params (asg arr σ) ρ r) ∧
      ∀ᵐ x ∂(law id r.dist (params (asg arr σ) ρ r)), ValidT arr arrZ kernel tr fwd reg law ref ρ l (Function.update σ id x)

/-- The inputs that a user graph reads. -/
def UsesInput (i : ℕ) : Expr Di → Prop
  | .const _ => False
  | .inp j => j = i
  | .app _ _ args => ∃ k, UsesInput i (args k)
  | .rv _ _ _ _ => False
  | .valued r _ => UsesInput i r

/-- Which transform is asked for, and for a default transform whether there is one. -/
def Requested (reqs : Dict ℕ (Option (TransVals.Req ATransform))) (registered : Di → Option ATransform) (l : List (ℕ × RVDef Di)) (tr : ℕ → Option ATransform) : Prop :=
  ∀ v t, tr v = some t ↔
    Dict.get? reqs v = some (some (.transform t)) ∨ Dict.get? reqs v = some (some .default) ∧ ∃ r, Dict.get? l v = some r ∧ registered r.dist = some t

/-- The variable `w` is given through the variable `v`. -/
def Parent (l : List (ℕ × RVDef Di)) (v w : ℕ) : Prop := ∃ r, Dict.get? l w = some r ∧ ∃ i, Mentions v (r.args i)

/-- The variables `ids` are given values in this order; `v` is given through another one, and a variable that is given through `v` comes before it. -/
def ChildFirst (l : List (ℕ × RVDef Di)) (ids : List ℕ) (v : ℕ) : Prop := (∃ u, Parent l u v) ∧ ∃ p q w, ids = p ++ v :: q ∧ w ∈ p ∧ Parent l v w

/-- A call for the variables of the model `l`, some requested and some realized, with transforms `tr` and new value variables `tv`; the rewriter visits the variables in the order `order`.  The value
variables are different from each other. -/
structure Setting (l : List (ℕ × RVDef Di)) (rvs clones : List ℕ) (realized : Dict ℕ ℕ) (reqs : Dict ℕ (Option (TransVals.Req ATransform))) (registered : Di → Option ATransform)
    (tr : ℕ → Option ATransform) (tv : ℕ → ℕ) (order : List ℕ) : Prop where
  ne : l ≠ []
  ordered : DependencyOrder l
  user : ∀ p ∈ l, ∀ i, User (p.2.args i)
  closed : ∀ p ∈ l, ∀ i id, Mentions id (p.2.args i) → id ∈ l.map Prod.fst
  length : clones.length = rvs.length
  mem : ∀ v, v ∈ l.map Prod.fst ↔ v ∈ rvs ∨ v ∈ Dict.keys realized
  requested : Requested reqs registered l tr
  keys : ∀ v ∈ Dict.keys reqs, v ∈ l.map Prod.fst
  inj : ∀ v w y, Dict.get? (rvValues rvs clones realized) v = some y → Dict.get? (rvValues rvs clones realized) w = some y → v = w
  fresh : ∀ v w y, v ∈ l.map Prod.fst → Dict.get? (rvValues rvs clones realized) w = some y → tv v ≠ y
  order : order.Perm (l.map Prod.fst)

/-- The environment in which the value variables have the values `τ` and the other inputs of the graphs the values `ρ`. -/
structure Env (l : List (ℕ × RVDef Di)) (d : Dict ℕ ℕ) (tr : ℕ → Option ATransform) (tv : ℕ → ℕ) (arrZ : ∀ i, Z i → Arr FVal) (ρ : ℕ → Arr FVal) (τ : ∀ i, Z i) (env : ℕ → Arr FVal) : Prop where
  kept : ∀ v y, Dict.get? d v = some y → tr v = none → env y = arrZ v (τ v)
  new : ∀ v ∈ l.map Prod.fst, (tr v).isSome → env (tv v) = arrZ v (τ v)
  inputs : ∀ p ∈ l, ∀ i k, UsesInput k (p.2.args i) → env k = ρ k ∧ ∀ w y, Dict.get? d w = some y → k ≠ y

end Verif.ArrGraph
