import Verif.Spec.FullDensity

/-! # Variables that are made in the same way -/

namespace Verif.Full

variable {Di : Type}

/-- The two variables are the same, or both are without a value and made by the same operation from inputs that are the same in this sense. -/
inductive SameIn (R : ℕ → Prop) : Expr Di → Expr Di → Prop
  | refl (e) : SameIn R e e
  | app {id id' k op n args args'} : ¬ R id → ¬ R id' → (∀ i, SameIn R (args i) (args' i)) → SameIn R (.app id k op n args) (.app id' k op n args')

/-- Two variables made by the same operation from the same inputs. -/
inductive SameNode (R : ℕ → Prop) : Expr Di → Expr Di → Prop
  | app {id id' k op n args args'} : (∀ i, SameIn R (args i) (args' i)) → SameNode R (.app id k op n args) (.app id' k op n args')

/-- No two of the variables in `R` are made in the same way. -/
def NoTwins (defs : ℕ → Option (Expr Di)) (R : ℕ → Prop) : Prop := ∀ v w e f, R v → R w → v ≠ w → defs v = some e → defs w = some f → ¬ SameNode R e f

end Verif.Full
