import Verif.Spec.ArrGraph
import Verif.Spec.SameValues

/-! # Requests for models with array variables -/

namespace Verif.ArrGraph
open Verif

variable {Di : Type}

/-- The variable `w` is met on the way back from `e`, going no further than the first variables with a value. -/
def Meets (R : ℕ → Prop) (w : ℕ) : Expr Di → Prop
  | .const _ => False
  | .inp _ => False
  | .app _ _ args => ∃ i, Meets R w (args i)
  | .rv id _ _ args => id = w ∨ ¬ R id ∧ ∃ i, Meets R w (args i)
  | .valued r _ => Meets R w r

/-- The input `x` is met on the way back from `e`, going no further than the first variables with a value. -/
def MeetsInput (R : ℕ → Prop) (x : ℕ) : Expr Di → Prop
  | .const _ => False
  | .inp i => i = x
  | .app _ _ args => ∃ i, MeetsInput R x (args i)
  | .rv id _ _ args => ¬ R id ∧ ∃ i, MeetsInput R x (args i)
  | .valued r _ => MeetsInput R x r

/-- Requests without repetitions for variables of the model. -/
structure Request (defs : ℕ → Option (RVDef Di)) (rvs clones : List ℕ) (realized : Dict ℕ ℕ) : Prop where
  len : clones.length = rvs.length
  nodup : rvs.Nodup
  keys : (Dict.keys realized).Nodup
  defined : ∀ v, v ∈ rvs ∨ v ∈ Dict.keys realized → (defs v).isSome

/-- The variables of a request. -/
def Asked (rvs : List ℕ) (realized : Dict ℕ ℕ) (v : ℕ) : Prop := v ∈ rvs ∨ v ∈ Dict.keys realized

/-- The two requests agree on `v`: it has no value in both, or the same array. -/
def SameAt (ρ₁ ρ₂ : ℕ → Arr FVal) (rvs₁ clones₁ : List ℕ) (realized₁ : Dict ℕ ℕ) (rvs₂ clones₂ : List ℕ) (realized₂ : Dict ℕ ℕ) (v : ℕ) : Prop :=
  ∀ y, (∃ x, Full.Given rvs₁ clones₁ realized₁ v x ∧ ρ₁ x = y) ↔ ∃ x, Full.Given rvs₂ clones₂ realized₂ v x ∧ ρ₂ x = y

/-- No variable of either request is requested in the other, or met on the way back from a variable of the other. -/
structure Separate (defs : ℕ → Option (RVDef Di)) (A B : ℕ → Prop) : Prop where
  disjoint : ∀ v, A v → ¬ B v
  left : ∀ v r w, A v → defs v = some r → B w → ∀ i, ¬ Meets A w (r.args i)
  right : ∀ v r w, B v → defs v = some r → A w → ∀ i, ¬ Meets B w (r.args i)

/-- The draws of the variables that are met on the way back from `e`, and have a value, are these values, when everything is drawn. -/
def DrawsAgree (ρ : ℕ → Arr FVal) (ω : ℕ → Di → List (Arr FVal) → Arr FVal) (rvs clones : List ℕ) (realized : Dict ℕ ℕ) : Expr Di → Prop
  | .const _ => True
  | .inp _ => True
  | .app _ _ args => ∀ i, DrawsAgree ρ ω rvs clones realized (args i)
  | .rv id dist _ args => (∀ x, Full.Given rvs clones realized id x → ω id dist (List.ofFn fun i => eval ρ ω (args i)) = ρ x) ∧
      (Asked rvs realized id ∨ ∀ i, DrawsAgree ρ ω rvs clones realized (args i))
  | .valued r _ => DrawsAgree ρ ω rvs clones realized r

end Verif.ArrGraph
