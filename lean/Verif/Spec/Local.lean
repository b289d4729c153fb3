import Verif.Spec.SameValues

/-! # What a variable is computed from -/

namespace Verif.Full
open Verif

variable {Di : Type}

/-- The node `w` is met on the way back from `e`, going no further than the first variables with a value. -/
inductive Reads (R : ℕ → Prop) (w : ℕ) : Expr Di → Prop
  | here {e} : nodeId e = some w → Reads R w e
  | app {id k op n args} (i) : ¬ R id → Reads R w (args i) → Reads R w (.app id k op n args)
  | rv {id dist n args} (i) : ¬ R id → Reads R w (args i) → Reads R w (.rv id dist n args)

/-- The node `w` is met on the way back from the inputs of the variable. -/
def Parent (R : ℕ → Prop) (w : ℕ) : Expr Di → Prop
  | .app _ _ _ _ args => ∃ i, Reads R w (args i)
  | .rv _ _ _ args => ∃ i, Reads R w (args i)
  | _ => False

/-- The two requests agree on `v`: it has no value in both, or the same number. -/
def SameAt (ρ₁ ρ₂ : ℕ → FVal) (rvs₁ clones₁ : List ℕ) (realized₁ : Dict ℕ ℕ) (rvs₂ clones₂ : List ℕ) (realized₂ : Dict ℕ ℕ) (v : ℕ) : Prop :=
  ∀ y, (∃ x, Given rvs₁ clones₁ realized₁ v x ∧ ρ₁ x = y) ↔ ∃ x, Given rvs₂ clones₂ realized₂ v x ∧ ρ₂ x = y

/-- Requests without repetitions for nodes of the graph. -/
structure Request (defs : ℕ → Option (Expr Di)) (rvs clones : List ℕ) (realized : Dict ℕ ℕ) : Prop where
  len : clones.length = rvs.length
  nodup : rvs.Nodup
  keys : (Dict.keys realized).Nodup
  defined : ∀ v, v ∈ rvs ∨ v ∈ Dict.keys realized → (defs v).isSome

/-- No variable of either request is requested in the other, or met on the way back from a variable of the other. -/
structure Separate (defs : ℕ → Option (Expr Di)) (A B : ℕ → Prop) : Prop where
  disjoint : ∀ v, A v → ¬ B v
  left : ∀ v e w, A v → defs v = some e → B w → ¬ Parent A w e
  right : ∀ v e w, B v → defs v = some e → A w → ¬ Parent B w e

end Verif.Full
