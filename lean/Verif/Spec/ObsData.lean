import Verif.Model.ObsData

/-! # Which entries of an observed variable were replaced -/

namespace Verif.Obs
open Verif

/-- The array that the replacements started from. -/
def Var.base : Var → Arr FVal
  | .const d => d
  | .shared d => d
  | .inc _ x _ _ => x.base
  | .other v => v

/-- The entry `p` is selected by one of the assignments that made the variable. -/
def Var.Touched (shape : List ℕ) : Var → List ℕ → Prop
  | .inc _ x _ idx, p => x.Touched shape p ∨ ∃ R, npSelect (idx.map IndexVar.value) shape = .ok R ∧ ∃ c, InRange c R.shape ∧ R.get c = p
  | _, _ => False

/-- Made of a constant or a shared variable by assignments with integer arrays, all indices being constants or shared variables. -/
def Var.Extractable : Var → Prop
  | .const _ => True
  | .shared _ => True
  | .inc _ x _ idx => x.Extractable ∧ ∀ i ∈ idx, ∃ j, i = .known j
  | .other _ => False

/-- All indices select something of an array of that shape. -/
def Var.IndicesValid (shape : List ℕ) : Var → Prop
  | .inc _ x _ idx => x.IndicesValid shape ∧ ∃ R, npSelect (idx.map IndexVar.value) shape = .ok R
  | _ => True

/-- All assignments are `x[idx] = y`. -/
def Var.OnlySets : Var → Prop
  | .inc s x _ _ => s = true ∧ x.OnlySets
  | _ => True

/-- The same assignments to another array. -/
def Var.withBase (d : Arr FVal) : Var → Var
  | .inc s x y idx => .inc s (x.withBase d) y idx
  | _ => .const d

end Verif.Obs
