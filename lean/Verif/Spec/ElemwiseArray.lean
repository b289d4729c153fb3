import Verif.Model.ElemwiseArray
import Verif.Spec.Repeated
import Verif.Spec.Transform

/-! # Elementwise functions of arrays, entry by entry -/

namespace Verif
open Set

/-- The entry of an array that broadcasting puts at `c`. -/
def Arr.entry {α : Type} (a : Arr α) (c : List ℕ) : α := a.get (project c a.shape)

namespace ArrTransform

/-- The parameter, if there is one, can be broadcast into the shape `s` without changing it. -/
def Fits (s : List ℕ) : ArrTransform → Prop
  | .loc a => bshape [s, a.shape] = some s
  | .scale a => bshape [s, a.shape] = some s
  | _ => True

/-- What happens at the coordinates `c`. -/
noncomputable def at' (c : List ℕ) : ArrTransform → RVTransform
  | .loc a => .loc (a.entry c)
  | .scale a => .scale (a.entry c)
  | .exp => .exp
  | .log => .log
  | .reciprocal => .reciprocal

/-- The real function computed at the coordinates `c`. -/
noncomputable def fn (c : List ℕ) (t : ArrTransform) (x : ℝ) : ℝ :=
  match t with
  | .loc a => match a.entry c with | .fin a => x + a | _ => 0
  | .scale a => match a.entry c with | .fin a => x * a | _ => 0
  | .exp => Real.exp x
  | .log => Real.log x
  | .reciprocal => 1 / x

/-- The function at `c` is invertible on `D`. -/
def OkAt (c : List ℕ) (D : Set ℝ) : ArrTransform → Prop
  | .loc a => ∃ r : ℝ, a.entry c = .fin r
  | .scale a => ∃ r : ℝ, r ≠ 0 ∧ a.entry c = .fin r
  | .exp => True
  | .log => D ⊆ Ioi 0
  | .reciprocal => D ⊆ Ioi 0

end ArrTransform

/-- The function computed by a tower at the coordinates `c`, innermost layer first. -/
noncomputable def arrTowerFn (c : List ℕ) : List ArrTransform → ℝ → ℝ
  | [], x => x
  | t :: ts, x => arrTowerFn c ts (t.fn c x)

/-- Every layer is invertible on the values of the layer below. -/
def ArrTowerOk (c : List ℕ) : List ArrTransform → Set ℝ → Prop
  | [], _ => True
  | t :: ts, D => t.OkAt c D ∧ ArrTowerOk c ts (t.fn c '' D)

/-- `lp` works entry by entry on arrays of shape `s`: at `c` it is `g c`. -/
def EntrywiseFn (s : List ℕ) (lp : Arr FVal → Except Err (Arr FVal)) (g : List ℕ → FVal → FVal) : Prop :=
  ∀ x : Arr FVal, x.shape = s → ∃ out, lp x = .ok out ∧ out.shape = s ∧ ∀ c, InRange c s → out.get c = g c (x.get c)

end Verif
