import Verif.Model.Elemwise
import Mathlib.Data.Set.Basic

/-! # Two log-probabilities that agree -/

namespace Verif
open FVal

/-- The derived log-probability exists, and gives the same result (or the same error) as `b` at all the given real numbers. -/
def AgreeOn (s : Set ℝ) (a : Option (FVal → Except Err FVal)) (b : FVal → Except Err FVal) : Prop := ∃ lp, a = some lp ∧ ∀ x ∈ s, lp (fin x) = b (fin x)

/-- Two derived log-probabilities exist and agree. -/
def AgreeBoth (s : Set ℝ) (a b : Option (FVal → Except Err FVal)) : Prop := ∃ lp, b = some lp ∧ AgreeOn s a lp

/-- `a + c * X`. -/
def affine (a c : ℝ) : List ElemNode := [.mul [.other (fin c), .meas], .add [.other (fin a), .meas]]

/-- `c * X`. -/
def scaledBy (c : ℝ) : List ElemNode := [.mul [.other (fin c), .meas]]

end Verif
