import Verif.Spec.IR
import Verif.Model.Full

/-! # Which variables of a model with elementwise functions, clipping, rounding and mixtures have a density -/

namespace Verif.Full
open Verif

variable {Di : Type}

/-- A graph as written by the user, with nodes from `defs`: no `ValuedVariable`, and the identity determines the node. -/
def Closed (defs : ℕ → Option (Expr Di)) : Expr Di → Prop
  | .const _ => True
  | .inp _ => True
  | .app id k op n args => defs id = some (.app id k op n args) ∧ ∀ i, Closed defs (args i)
  | .rv id dist n args => defs id = some (.rv id dist n args) ∧ ∀ i, Closed defs (args i)
  | .valued _ _ => False

/-- `defs` are the nodes of a graph. -/
def WellFormed (defs : ℕ → Option (Expr Di)) : Prop := ∀ v e, defs v = some e → nodeId e = some v ∧ Closed defs e

/-- The variable is one of those with a value. -/
def HasValue (R : ℕ → Prop) (e : Expr Di) : Prop := ∃ id, nodeId e = some id ∧ R id

/-- The value of the variable follows from the values of the variables in `R`. -/
def Determined (R : ℕ → Prop) : Expr Di → Prop
  | .const _ => True
  | .inp _ => True
  | .app id _ _ _ args => R id ∨ ∀ i, Determined R (args i)
  | .rv id _ _ _ => R id
  | .valued _ _ => True

/-- The variable has no value and is a normal variable, or a sum or difference of such variables. -/
inductive NormalVar [IR.Normals Di] (R : ℕ → Prop) : Expr Di → Prop
  | rv {id dist args} : IR.Normals.isNormal dist = true → ¬ R id → NormalVar R (.rv id dist 2 args)
  | sum {id k op n args} : IR.SumOp op n → ¬ R id → (∀ i, NormalVar R (args i)) → NormalVar R (.app id k (.elem op) n args)

/-- Variables with a density, by how they are made; `Derived R kd true` are the mixtures.  Elementwise functions have exactly one input that does not follow from given values, which is no mixture and whose type is no
integer, or are sums or differences of normal variables; clipped and rounded variables are no mixtures, and rounded ones are of floating point type; the components of a mixture are random variables, such functions, or mixtures. -/
inductive Derived [IR.Normals Di] (R : ℕ → Prop) (kd : Di → Kind) : Bool → Expr Di → Prop
  | rv (id dist n args) : Derived R kd false (.rv id dist n args)
  | elem {id k op n args} (i : Fin n) : IR.Supported op n → Derived R kd false (args i) → ¬ HasValue R (args i) → kindOf kd (args i) ≠ .int → (∀ j, j ≠ i → Determined R (args j)) →
      Derived R kd false (.app id k (.elem op) n args)
  | normals {id k op n args} : IR.SumOp op n → (∀ i, NormalVar R (args i)) → Derived R kd false (.app id k (.elem op) n args)
  | clip {id k args} : Derived R kd false (args 0) → ¬ HasValue R (args 0) → Derived R kd false (.app id k .clip 3 args)
  | round {id k r args} : Derived R kd false (args 0) → ¬ HasValue R (args 0) → kindOf kd (args 0) = .float → Derived R kd false (.app id k (.round r) 1 args)
  | switch {id k args b c} : Derived R kd b (args 1) → ¬ HasValue R (args 1) → Derived R kd c (args 2) → ¬ HasValue R (args 2) → Derived R kd true (.app id k .switch 3 args)
  | pick {id k m args} (b : Fin m → Bool) : 0 < m → (∀ i : Fin m, Derived R kd (b i) (args i.succ)) → (∀ i : Fin m, ¬ HasValue R (args i.succ)) → Derived R kd true (.app id k .pick (m + 1) args)

/-- A random variable whose CDF is known, or a sum of normal variables. -/
inductive CdfVar [IR.Normals Di] (R : ℕ → Prop) (hasCdf : Di → Bool) : Expr Di → Prop
  | rv {id dist n args} : hasCdf dist = true → CdfVar R hasCdf (.rv id dist n args)
  | normals {id k op n args} : IR.SumOp op n → (∀ i, NormalVar R (args i)) → CdfVar R hasCdf (.app id k (.elem op) n args)

/-- What is below a clip or a rounding is a random variable whose CDF is known, or a sum of normal variables. -/
inductive Buildable [IR.Normals Di] (R : ℕ → Prop) (hasCdf : Di → Bool) : Expr Di → Prop
  | rv (id dist n args) : Buildable R hasCdf (.rv id dist n args)
  | elem {id k op n args} (i : Fin n) : ¬ Determined R (args i) → Buildable R hasCdf (args i) → Buildable R hasCdf (.app id k (.elem op) n args)
  | normals {id k op n args} : IR.SumOp op n → (∀ i, NormalVar R (args i)) → Buildable R hasCdf (.app id k (.elem op) n args)
  | clip {id k args} : CdfVar R hasCdf (args 0) → Buildable R hasCdf (.app id k .clip 3 args)
  | round {id k r args} : CdfVar R hasCdf (args 0) → Buildable R hasCdf (.app id k (.round r) 1 args)
  | switch {id k args} : Buildable R hasCdf (args 1) → Buildable R hasCdf (args 2) → Buildable R hasCdf (.app id k .switch 3 args)
  | pick {id k m args} : (∀ i : Fin m, Buildable R hasCdf (args i.succ)) → Buildable R hasCdf (.app id k .pick (m + 1) args)

end Verif.Full
