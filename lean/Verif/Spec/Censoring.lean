import Verif.Spec.Cdf
import Verif.Model.Censoring
import Mathlib.MeasureTheory.Measure.Dirac

/-! # Clipped and rounded random variables -/

namespace Verif
open MeasureTheory

/-- Clipping with optional bounds. -/
noncomputable def clipTo (lo hi : Option ℝ) (x : ℝ) : ℝ :=
  let y := match lo with | some a => max a x | none => x
  match hi with | some b => min b y | none => y

/-- A unit atom at each bound. -/
noncomputable def atomAt : Option ℝ → Measure ℝ
  | some a => Measure.dirac a
  | none => 0

/-- The lower bound passed to `clip` stands for `lo`: a real number, or no bound (the variable itself, or `-inf`). -/
def LowerIs : ClipArg → Option ℝ → Prop
  | .base, o => o = none
  | .const v, some a | .sym v, some a => v = .fin a
  | .const v, none | .sym v, none => v = .ninf

/-- The same for the upper bound. -/
def UpperIs : ClipArg → Option ℝ → Prop
  | .base, o => o = none
  | .const v, some a | .sym v, some a => v = .fin a
  | .const v, none | .sym v, none => v = .pinf

/-- The bounds leave room: strictly between them if both are given. -/
def BoundsLt : Option ℝ → Option ℝ → Prop
  | some a, some b => a < b
  | _, _ => True

/-- `k` is `x` rounded to the nearest integer, halves to the even neighbour. -/
def NearestEven (x : ℝ) (k : ℤ) : Prop := |x - k| ≤ 1 / 2 ∧ (|x - k| = 1 / 2 → Even k)

/-- The values of `X` that a rounding operator sends to the integer `k`. -/
def roundsTo (op : RoundOp) (k : ℤ) : Set ℝ :=
  match op with
  | .halfToEven => {x | NearestEven x k}
  | .floor => {x | k ≤ x ∧ x < k + 1}
  | .ceil => {x | k - 1 < x ∧ x ≤ k}

open Classical in
/-- `P(clip(X, a, b) = k)` for an integer variable whose masses are `q`. -/
noncomputable def clipMass (lo hi : Option ℤ) (q : ℤ → ENNReal) (k : ℤ) : ENNReal :=
  ∑' j : ℤ, if clipTo (lo.map (↑)) (hi.map (↑)) j = k then q j else 0

end Verif
