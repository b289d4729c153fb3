import Verif.Model.FVal

/-! Simplification lemmas for `FVal`. -/

namespace Verif.FVal

@[simp] theorem add_fin (a b : ℝ) : (fin a + fin b : FVal) = fin (a + b) := rfl
@[simp] theorem neg_fin (a : ℝ) : (-fin a : FVal) = fin (-a) := rfl
@[simp] theorem neg_pinf : (-pinf : FVal) = ninf := rfl
@[simp] theorem neg_ninf : (-ninf : FVal) = pinf := rfl
@[simp] theorem neg_nan : (-nan : FVal) = nan := rfl
theorem sub_def (a b : FVal) : a - b = a + -b := rfl
@[simp] theorem sub_fin (a b : ℝ) : (fin a - fin b : FVal) = fin (a - b) := by
  simp [sub_def, sub_eq_add_neg]
@[simp] theorem mul_fin (a b : ℝ) : (fin a * fin b : FVal) = fin (a * b) := rfl
theorem div_fin (a : ℝ) {b : ℝ} (hb : b ≠ 0) : (fin a / fin b : FVal) = fin (a / b) := by
  show FVal.div _ _ = _
  simp [FVal.div, hb]
theorem div_fin_zero (a : ℝ) : (fin a / fin 0 : FVal) = infMul a := by
  show FVal.div _ _ = _
  simp [FVal.div]

@[simp] theorem ofNat_eq (n : ℕ) [n.AtLeastTwo] : (OfNat.ofNat n : FVal) = fin (OfNat.ofNat n) := rfl
@[simp] theorem zero_eq : (0 : FVal) = fin 0 := rfl
@[simp] theorem one_eq : (1 : FVal) = fin 1 := rfl

@[simp] theorem nan_add (a : FVal) : nan + a = nan := by cases a <;> rfl
@[simp] theorem add_nan (a : FVal) : a + nan = nan := by cases a <;> rfl
@[simp] theorem nan_sub (a : FVal) : nan - a = nan := by simp [sub_def]
@[simp] theorem sub_nan (a : FVal) : a - nan = nan := by simp [sub_def]
@[simp] theorem nan_mul (a : FVal) : nan * a = nan := by cases a <;> rfl
@[simp] theorem mul_nan (a : FVal) : a * nan = nan := by cases a <;> rfl
@[simp] theorem nan_div (a : FVal) : nan / a = nan := by cases a <;> rfl
@[simp] theorem div_nan (a : FVal) : a / nan = nan := by cases a <;> rfl

@[simp] theorem fin_add_ninf (a : ℝ) : fin a + ninf = ninf := rfl
@[simp] theorem fin_add_pinf (a : ℝ) : fin a + pinf = pinf := rfl
@[simp] theorem ninf_add_fin (a : ℝ) : ninf + fin a = ninf := rfl
@[simp] theorem pinf_add_fin (a : ℝ) : pinf + fin a = pinf := rfl
@[simp] theorem ninf_add_ninf : ninf + ninf = ninf := rfl
@[simp] theorem pinf_add_pinf : pinf + pinf = pinf := rfl
@[simp] theorem ninf_add_pinf : ninf + pinf = nan := rfl
@[simp] theorem pinf_add_ninf : pinf + ninf = nan := rfl
@[simp] theorem fin_sub_ninf (a : ℝ) : fin a - ninf = pinf := rfl
@[simp] theorem fin_sub_pinf (a : ℝ) : fin a - pinf = ninf := rfl
@[simp] theorem ninf_sub_fin (a : ℝ) : ninf - fin a = ninf := rfl
@[simp] theorem pinf_sub_fin (a : ℝ) : pinf - fin a = pinf := rfl
@[simp] theorem ninf_sub_ninf : ninf - ninf = nan := rfl
@[simp] theorem pinf_sub_pinf : pinf - pinf = nan := rfl
@[simp] theorem ninf_sub_pinf : ninf - pinf = ninf := rfl
@[simp] theorem pinf_sub_ninf : pinf - ninf = pinf := rfl
@[simp] theorem fin_mul_ninf (a : ℝ) : fin a * ninf = infMul (-a) := rfl
@[simp] theorem fin_mul_pinf (a : ℝ) : fin a * pinf = infMul a := rfl
@[simp] theorem ninf_mul_fin (a : ℝ) : ninf * fin a = infMul (-a) := rfl
@[simp] theorem pinf_mul_fin (a : ℝ) : pinf * fin a = infMul a := rfl
@[simp] theorem fin_div_pinf (a : ℝ) : fin a / pinf = fin 0 := rfl
@[simp] theorem fin_div_ninf (a : ℝ) : fin a / ninf = fin 0 := rfl

theorem infMul_pos {a : ℝ} (h : 0 < a) : infMul a = pinf := by simp [infMul, h]
theorem infMul_neg {a : ℝ} (h : a < 0) : infMul a = ninf := by simp [infMul, h, h.le]
@[simp] theorem infMul_zero : infMul 0 = nan := by simp [infMul]

theorem log_fin_pos {x : ℝ} (h : 0 < x) : log (fin x) = fin (Real.log x) := by
  simp [log, h.not_gt, h.ne']
@[simp] theorem log_zero : log (fin 0) = ninf := by simp [log]
theorem log_fin_neg {x : ℝ} (h : x < 0) : log (fin x) = nan := by simp [log, h]
@[simp] theorem log_nan : log nan = nan := rfl
@[simp] theorem log_pinf : log pinf = pinf := rfl
@[simp] theorem log_ninf : log ninf = nan := rfl
@[simp] theorem exp_fin (x : ℝ) : exp (fin x) = fin (Real.exp x) := rfl
@[simp] theorem exp_nan : exp nan = nan := rfl
@[simp] theorem exp_ninf : exp ninf = fin 0 := rfl
@[simp] theorem exp_pinf : exp pinf = pinf := rfl
@[simp] theorem abs_fin (x : ℝ) : abs (fin x) = fin |x| := rfl
@[simp] theorem sq_fin (x : ℝ) : sq (fin x) = fin (x ^ 2) := rfl
@[simp] theorem cos_fin (x : ℝ) : cos (fin x) = fin (Real.cos x) := rfl
@[simp] theorem floor_fin (x : ℝ) : floor (fin x) = fin (⌊x⌋ : ℝ) := rfl
@[simp] theorem ceil_fin (x : ℝ) : ceil (fin x) = fin (⌈x⌉ : ℝ) := rfl
@[simp] theorem round_fin (x : ℝ) : round (fin x) = fin (rint x : ℝ) := rfl
theorem sqrt_fin {x : ℝ} (h : 0 ≤ x) : sqrt (fin x) = fin (Real.sqrt x) := by
  simp [sqrt, h.not_gt]
theorem log1p_fin_pos {x : ℝ} (h : 0 < 1 + x) : log1p (fin x) = fin (Real.log (1 + x)) := by
  simp [log1p, log_fin_pos h]
theorem reciprocal_fin {x : ℝ} (h : x ≠ 0) : reciprocal (fin x) = fin (1 / x) := by
  simp [reciprocal, div_fin _ h]
theorem reciprocal_zero : reciprocal (fin 0) = pinf := by
  rw [reciprocal, one_eq, div_fin_zero, infMul_pos one_pos]
theorem gammaln_fin_pos {x : ℝ} (h : 0 < x) : gammaln (fin x) = fin (Real.log (Real.Gamma x)) := by
  have := Real.Gamma_pos_of_pos h
  simp [gammaln, this.ne', abs_of_pos this]

@[simp] theorem lt_fin (a b : ℝ) : lt (fin a) (fin b) ↔ a < b := Iff.rfl
@[simp] theorem le_fin (a b : ℝ) : le (fin a) (fin b) ↔ a ≤ b := Iff.rfl
@[simp] theorem gt_fin (a b : ℝ) : gt (fin a) (fin b) ↔ b < a := Iff.rfl
@[simp] theorem ge_fin (a b : ℝ) : ge (fin a) (fin b) ↔ b ≤ a := Iff.rfl
@[simp] theorem eq_fin (a b : ℝ) : eq (fin a) (fin b) ↔ a = b := Iff.rfl
@[simp] theorem truthy_fin (a : ℝ) : truthy (fin a) ↔ a ≠ 0 := Iff.rfl

@[simp] theorem fin_inj {a b : ℝ} : (fin a : FVal) = fin b ↔ a = b := by
  constructor
  · intro h; injection h
  · rintro rfl; rfl
@[simp] theorem fin_ne_nan (a : ℝ) : fin a ≠ nan := by intro h; cases h
@[simp] theorem ninf_ne_nan : ninf ≠ nan := by intro h; cases h
@[simp] theorem pinf_ne_nan : pinf ≠ nan := by intro h; cases h
@[simp] theorem fin_ne_ninf (a : ℝ) : fin a ≠ ninf := by intro h; cases h
@[simp] theorem fin_ne_pinf (a : ℝ) : fin a ≠ pinf := by intro h; cases h
@[simp] theorem nan_ne_ninf : nan ≠ ninf := by intro h; cases h
@[simp] theorem nan_ne_fin (a : ℝ) : nan ≠ fin a := by intro h; cases h
@[simp] theorem ninf_ne_fin (a : ℝ) : ninf ≠ fin a := by intro h; cases h
@[simp] theorem pinf_ne_fin (a : ℝ) : pinf ≠ fin a := by intro h; cases h
@[simp] theorem pinf_ne_ninf : pinf ≠ ninf := by intro h; cases h
@[simp] theorem ninf_ne_pinf : ninf ≠ pinf := by intro h; cases h

theorem switch_pos {α : Type*} {c : Prop} (h : c) (a b : α) : switch c a b = a := by
  simp [switch, h]
theorem switch_neg {α : Type*} {c : Prop} (h : ¬c) (a b : α) : switch c a b = b := by
  simp [switch, h]

end Verif.FVal

namespace Verif

theorem checkParam_ok {res : FVal} {conds : List Prop} (h : conds.foldr And True) :
    checkParam res conds = .ok res := by rw [checkParam, if_pos h]

theorem checkParam_err {res : FVal} {conds : List Prop} (h : ¬ conds.foldr And True) :
    checkParam res conds = .error .parameterValue := by
  rw [checkParam, if_neg h]

end Verif

open Lean.Parser.Tactic in
/-- `simp only` with the evaluation rules of `FVal` on finite arguments. -/
macro "fv" "[" ts:simpLemma,* "]" loc:(location)? : tactic =>
  `(tactic| simp only [Verif.FVal.ofNat_eq, Verif.FVal.zero_eq, Verif.FVal.one_eq, Verif.FVal.mul_fin, Verif.FVal.sub_fin, Verif.FVal.add_fin,
    Verif.FVal.neg_fin, Verif.FVal.sq_fin, Verif.FVal.exp_fin, Verif.FVal.abs_fin, Verif.FVal.cos_fin, Verif.FVal.lt_fin, Verif.FVal.le_fin, Verif.FVal.gt_fin,
    Verif.FVal.ge_fin, Verif.FVal.eq_fin, Except.ok.injEq, Verif.FVal.fin_inj, $ts,*] $[$loc]?)
