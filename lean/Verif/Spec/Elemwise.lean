import Verif.Model.Elemwise
import Verif.Spec.Transform

/-! # The real functions that elementwise nodes compute, and where they are invertible -/

namespace Verif
open FVal Set

/-- Real value of an input when the measurable input is `x`. -/
noncomputable def Arg.real (x : ℝ) : Arg → ℝ
  | .meas => x
  | .other (.fin a) => a
  | .other _ => 0

/-- The function computed by a node, as a function of its measurable input. -/
noncomputable def ElemNode.fn (n : ElemNode) (x : ℝ) : ℝ :=
  match n with
  | .add l => (l.map (Arg.real x)).sum
  | .mul l => (l.map (Arg.real x)).prod
  | .sub a b => a.real x - b.real x
  | .div a b => a.real x / b.real x
  | .exp a => Real.exp (a.real x)
  | .log a => Real.log (a.real x)
  | .reciprocal a => 1 / a.real x

/-- The node has the measurable variable as exactly one of its inputs, all other inputs are finite and, for products, not zero. -/
inductive OneOf (P : ℝ → Prop) : List Arg → Prop
  | here {l : List ℝ} : (∀ a ∈ l, P a) → OneOf P (.meas :: l.map fun a => .other (.fin a))
  | there {a : ℝ} {l : List Arg} : P a → OneOf P l → OneOf P (.other (.fin a) :: l)

/-- Where a node is an invertible function of its measurable input, for values in `D`. -/
inductive ElemNode.Ok : ElemNode → Set ℝ → Prop
  | add {l D} : OneOf (fun _ => True) l → 2 ≤ l.length → Ok (.add l) D
  | mul {l D} : OneOf (fun a => a ≠ 0) l → 2 ≤ l.length → Ok (.mul l) D
  | sub (a : ℝ) (D) : Ok (.sub .meas (.other (.fin a))) D
  | rsub (a : ℝ) (D) : Ok (.sub (.other (.fin a)) .meas) D
  | div {a : ℝ} {D} : a ≠ 0 → Ok (.div .meas (.other (.fin a))) D
  | rdiv {a : ℝ} {D} : a ≠ 0 → D ⊆ Ioi 0 → Ok (.div (.other (.fin a)) .meas) D
  | exp (D) : Ok (.exp .meas) D
  | log {D} : D ⊆ Ioi 0 → Ok (.log .meas) D
  | reciprocal {D} : D ⊆ Ioi 0 → Ok (.reciprocal .meas) D

/-- A tower of nodes, each invertible on the values of the previous one. -/
def TowerOk : List ElemNode → Set ℝ → Prop
  | [], _ => True
  | n :: ns, D => n.Ok D ∧ TowerOk ns (n.fn '' D)

/-- The function computed by a tower. -/
noncomputable def towerFn : List ElemNode → ℝ → ℝ
  | [], x => x
  | n :: ns, x => towerFn ns (n.fn x)

end Verif
