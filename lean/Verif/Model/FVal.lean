import Mathlib.Analysis.SpecialFunctions.Log.Basic
import Mathlib.Analysis.SpecialFunctions.Pow.Real
import Mathlib.Analysis.SpecialFunctions.Gamma.Basic
import Mathlib.Analysis.SpecialFunctions.Trigonometric.Basic
import Mathlib.Algebra.Order.Round

/-!
# Numeric values of Aesara float scalars

`FVal` models a `float64` scalar as computed by Aesara/NumPy: an exact real number or one of the three
special values.  Simplifications (stated once for the whole numeric model):
no rounding error, no overflow or underflow of finite results, and a single zero (so `1/0 = +inf`).
Integer (`int64`) scalars are embedded as `fin (k : ℝ)`; integer overflow is not modelled.
-/

namespace Verif

/-- A floating point scalar: exact real plus the IEEE special values. -/
inductive FVal where
  | nan
  | ninf
  | fin (x : ℝ)
  | pinf

namespace FVal

/-- IEEE addition. -/
noncomputable def add : FVal → FVal → FVal
  | nan, _ => nan
  | _, nan => nan
  | fin a, fin b => fin (a + b)
  | fin _, pinf => pinf
  | fin _, ninf => ninf
  | pinf, ninf => nan
  | pinf, _ => pinf
  | ninf, pinf => nan
  | ninf, _ => ninf

/-- IEEE negation. -/
noncomputable def neg : FVal → FVal
  | nan => nan
  | fin a => fin (-a)
  | pinf => ninf
  | ninf => pinf

open Classical in
/-- Product of `+inf` with a finite number: the sign decides, `0 * inf = nan`. -/
noncomputable def infMul (a : ℝ) : FVal := if 0 < a then pinf else if a < 0 then ninf else nan

/-- IEEE multiplication. -/
noncomputable def mul : FVal → FVal → FVal
  | nan, _ => nan
  | _, nan => nan
  | fin a, fin b => fin (a * b)
  | fin a, pinf => infMul a
  | pinf, fin a => infMul a
  | fin a, ninf => infMul (-a)
  | ninf, fin a => infMul (-a)
  | pinf, pinf => pinf
  | ninf, ninf => pinf
  | pinf, ninf => ninf
  | ninf, pinf => ninf

open Classical in
/-- IEEE division, with an unsigned zero: `a/0 = ±inf` by the sign of `a`, `0/0 = nan`. -/
noncomputable def div : FVal → FVal → FVal
  | nan, _ => nan
  | _, nan => nan
  | fin a, fin b => if b = 0 then infMul a else fin (a / b)
  | fin _, pinf => fin 0
  | fin _, ninf => fin 0
  | pinf, fin b => if b < 0 then ninf else pinf
  | ninf, fin b => if b < 0 then pinf else ninf
  | _, _ => nan

noncomputable instance : Add FVal := ⟨add⟩
noncomputable instance : Neg FVal := ⟨neg⟩
noncomputable instance : Sub FVal := ⟨fun a b => a + -b⟩
noncomputable instance : Mul FVal := ⟨mul⟩
noncomputable instance : Div FVal := ⟨div⟩
instance : Coe ℝ FVal := ⟨fin⟩
noncomputable instance (n : ℕ) [n.AtLeastTwo] : OfNat FVal n := ⟨fin (OfNat.ofNat n)⟩
noncomputable instance : OfNat FVal 0 := ⟨fin 0⟩
noncomputable instance : OfNat FVal 1 := ⟨fin 1⟩

open Classical in
/-- `at.log`. -/
noncomputable def log : FVal → FVal
  | nan => nan
  | ninf => nan
  | pinf => pinf
  | fin x => if x < 0 then nan else if x = 0 then ninf else fin (Real.log x)

/-- `at.log1p`. -/
noncomputable def log1p (x : FVal) : FVal := log (1 + x)

/-- `at.exp`. -/
noncomputable def exp : FVal → FVal
  | nan => nan
  | ninf => fin 0
  | pinf => pinf
  | fin x => fin (Real.exp x)

open Classical in
/-- `at.sqrt`. -/
noncomputable def sqrt : FVal → FVal
  | nan => nan
  | ninf => nan
  | pinf => pinf
  | fin x => if x < 0 then nan else fin (Real.sqrt x)

/-- `at.abs`. -/
noncomputable def abs : FVal → FVal
  | nan => nan
  | ninf => pinf
  | pinf => pinf
  | fin x => fin |x|

/-- `at.pow(x, 2)` / `at.square(x)`: the infinities go to `+inf`. -/
noncomputable def sq : FVal → FVal
  | nan => nan
  | ninf => pinf
  | pinf => pinf
  | fin x => fin (x ^ 2)

open Classical in
/-- `at.pow(x, c)` for a finite exponent and a non-negative base (the only general power in the code,
used by the Weibull density); a negative finite base gives `nan` (non-integer exponents). -/
noncomputable def powr : FVal → FVal → FVal
  | fin x, fin c => if x < 0 then nan else if x = 0 ∧ c < 0 then pinf else fin (x ^ c)
  | pinf, fin c => if 0 < c then pinf else if c = 0 then fin 1 else fin 0
  | _, _ => nan

/-- `at.cos`. -/
noncomputable def cos : FVal → FVal
  | fin x => fin (Real.cos x)
  | _ => nan

/-- `at.reciprocal`. -/
noncomputable def reciprocal (x : FVal) : FVal := 1 / x

/-- `at.floor`. -/
noncomputable def floor : FVal → FVal
  | fin x => fin (⌊x⌋ : ℝ)
  | x => x

/-- `at.ceil`. -/
noncomputable def ceil : FVal → FVal
  | fin x => fin (⌈x⌉ : ℝ)
  | x => x

open Classical in
/-- Round half to even on the reals (`np.rint`): the default mode of `at.round`. -/
noncomputable def rint (x : ℝ) : ℤ :=
  if x - ⌊x⌋ < 1 / 2 then ⌊x⌋
  else if 1 / 2 < x - ⌊x⌋ then ⌊x⌋ + 1
  else if ⌊x⌋ % 2 = 0 then ⌊x⌋ else ⌊x⌋ + 1

/-- `at.round` (mode `half_to_even`). -/
noncomputable def round : FVal → FVal
  | fin x => fin (rint x : ℝ)
  | x => x

open Classical in
/-- `at.gammaln`: `log |Γ x|`, `+inf` at the poles `0, -1, -2, ...`. -/
noncomputable def gammaln : FVal → FVal
  | nan => nan
  | pinf => pinf
  | ninf => pinf
  | fin x => if Real.Gamma x = 0 then pinf else fin (Real.log |Real.Gamma x|)

/-! Comparisons: any comparison with `nan` is false. -/

/-- `at.lt`. -/
def lt : FVal → FVal → Prop
  | nan, _ => False
  | _, nan => False
  | fin a, fin b => a < b
  | ninf, ninf => False
  | ninf, _ => True
  | _, ninf => False
  | pinf, _ => False
  | fin _, pinf => True

/-- `at.le`. -/
def le : FVal → FVal → Prop
  | nan, _ => False
  | _, nan => False
  | fin a, fin b => a ≤ b
  | ninf, _ => True
  | _, pinf => True
  | pinf, _ => False
  | fin _, ninf => False

/-- `at.gt`. -/
def gt (a b : FVal) : Prop := lt b a
/-- `at.ge`. -/
def ge (a b : FVal) : Prop := le b a

/-- `at.eq`: note `nan ≠ nan`. -/
def eq : FVal → FVal → Prop
  | fin a, fin b => a = b
  | pinf, pinf => True
  | ninf, ninf => True
  | _, _ => False

/-- truth value of a numeric condition (`at.switch(value, ..)`): everything except zero is true. -/
def truthy : FVal → Prop
  | fin a => a ≠ 0
  | _ => True

open Classical in
/-- `at.switch`: both branches are computed, one is selected. -/
noncomputable def switch {α : Type*} (c : Prop) (a b : α) : α := if c then a else b

/-- `at.log1mexp x = log (1 - exp x)`. -/
noncomputable def log1mexp (x : FVal) : FVal := log (1 - exp x)

/-- `at.logaddexp x y = log (exp x + exp y)`. -/
noncomputable def logaddexp (x y : FVal) : FVal := log (exp x + exp y)

end FVal

/-- Errors that evaluating or building a log-probability graph can raise. -/
inductive Err where
  | parameterValue   -- `ParameterValueError` (logprob.py:18)
  | densityNotFound  -- `DensityNotFound` (joint_logprob.py:17)
  | valueError
  | typeError
  | indexError
  | keyError
  | assertion
  | attribute
  | notImplemented
  deriving DecidableEq, Repr

open Classical in
/-- `CheckParameterValue(msg)(res, *conds)` (logprob.py:22-29): returns `res` unless a condition is false. -/
noncomputable def checkParam (res : FVal) (conds : List Prop) : Except Err FVal :=
  if conds.foldr And True then .ok res else .error .parameterValue

end Verif
