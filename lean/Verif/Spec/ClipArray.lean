import Verif.Model.ClipArray
import Verif.Spec.ElemwiseArray
import Verif.Spec.Censoring

/-! # Clipping arrays, entry by entry -/

namespace Verif

/-- The bound at the coordinates `c`. -/
def ArrBound.arg (b : ArrBound) (c : List ℕ) : ClipArg := if b.const then .const (b.value.entry c) else .sym (b.value.entry c)

/-- All entries of a lower bound are numbers or `-inf`. -/
def ArrBound.LowerOk (b : ArrBound) : Prop := b.value.all fun v => v = .ninf ∨ ∃ r : ℝ, v = .fin r

/-- All entries of an upper bound are numbers or `inf`. -/
def ArrBound.UpperOk (b : ArrBound) : Prop := b.value.all fun v => v = .pinf ∨ ∃ r : ℝ, v = .fin r

/-- The bounds are in order wherever they are compared. -/
def BoundsOrdered (lower upper : Arr FVal) (t : List ℕ) : Prop := ∀ c, InRange c t → FVal.le (lower.entry c) (upper.entry c)

end Verif
