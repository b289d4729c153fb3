import Verif.Model.Elemwise
import Mathlib.MeasureTheory.Measure.Lebesgue.Basic

/-! # Integrals over boxes -/

namespace Verif
open MeasureTheory

/-- Integral of a function of several reals over a product of sets. -/
noncomputable def boxE : List (Set ℝ) → (List ℝ → ENNReal) → ENNReal
  | [], φ => φ []
  | s :: ss, φ => ∫⁻ x in s, boxE ss fun xs => φ (x :: xs)

/-- The inputs of an elementwise node. -/
def ElemNode.args : ElemNode → List Arg
  | .add l | .mul l => l
  | .sub a b | .div a b => [a, b]
  | .exp a | .log a | .reciprocal a => [a]

/-- The number of inputs of a node that are the random variable below it. -/
def ElemNode.uses (n : ElemNode) : ℕ := n.args.countP fun a => match a with
  | .meas => true
  | .other _ => false

end Verif
