import Verif.Model.IR

/-! # Which variables of a model with derived variables have a density -/

namespace Verif.IR
open Verif

variable {Di : Type}

/-- The identity of a node's output. -/
def nodeId : Expr Di → Option ℕ
  | .app id _ _ _ => some id
  | .rv id _ _ _ => some id
  | _ => none

/-- A graph as written by the user, with nodes from `defs`: no `ValuedVariable`, and the identity determines the node. -/
def Closed (defs : ℕ → Option (Expr Di)) : Expr Di → Prop
  | .const _ => True
  | .inp _ => True
  | .app id op n args => defs id = some (.app id op n args) ∧ ∀ i, Closed defs (args i)
  | .rv id dist n args => defs id = some (.rv id dist n args) ∧ ∀ i, Closed defs (args i)
  | .valued _ _ => False

/-- `defs` are the nodes of a graph. -/
def WellFormed (defs : ℕ → Option (Expr Di)) : Prop := ∀ v e, defs v = some e → nodeId e = some v ∧ Closed defs e

/-- The variable is one of those with a value. -/
def HasValue (R : ℕ → Prop) (e : Expr Di) : Prop := ∃ id, nodeId e = some id ∧ R id

/-- The value of the variable follows from the values of the variables in `R`: every way down ends at one of them, or at a constant or input. -/
def Determined (R : ℕ → Prop) : Expr Di → Prop
  | .const _ => True
  | .inp _ => True
  | .app id _ _ args => R id ∨ ∀ i, Determined R (args i)
  | .rv id _ _ _ => R id
  | .valued _ _ => True

/-- The operations whose densities are known, and the number of their inputs. -/
inductive Supported : Op → ℕ → Prop
  | add {n} : 2 ≤ n → Supported .add n
  | mul {n} : 2 ≤ n → Supported .mul n
  | sub : Supported .sub 2
  | div : Supported .div 2
  | exp : Supported .exp 1
  | log : Supported .log 1
  | reciprocal : Supported .reciprocal 1

/-- Additions of at least two inputs, and subtractions. -/
inductive SumOp : Op → ℕ → Prop
  | add {n} : 2 ≤ n → SumOp .add n
  | sub : SumOp .sub 2

/-- The variable has no value and is a normal variable, or a sum or difference of such variables (the distribution is that of the first one). -/
inductive NormalVar [Normals Di] (R : ℕ → Prop) : Expr Di → Di → Prop
  | rv {id dist args} : Normals.isNormal dist = true → ¬ R id → NormalVar R (.rv id dist 2 args) dist
  | sum {id op n args} {dists : Fin n → Di} (h : 0 < n) : SumOp op n → ¬ R id → (∀ i, NormalVar R (args i) (dists i)) → NormalVar R (.app id op n args) (dists ⟨0, h⟩)

/-- The variable is a random variable with distribution `dist`, a sum or difference of normal variables without values, or a function with one input without value that is derived from a random variable of floating point type, while all other
inputs follow from given values. -/
inductive Derived [Normals Di] (R : ℕ → Prop) (isInt : Di → Bool) : Expr Di → Di → Prop
  | rv (id dist n args) : Derived R isInt (.rv id dist n args) dist
  | app {id op n args dist} (i : Fin n) : Supported op n → Derived R isInt (args i) dist → ¬ HasValue R (args i) → isInt dist = false → (∀ j, j ≠ i → Determined R (args j)) →
      Derived R isInt (.app id op n args) dist
  | normals {id op n args} {dists : Fin n → Di} (h : 0 < n) : SumOp op n → (∀ i, NormalVar R (args i) (dists i)) → Derived R isInt (.app id op n args) (dists ⟨0, h⟩)

end Verif.IR
