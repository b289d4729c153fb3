import Verif.Model.Elemwise
import Verif.Spec.SameVariable
import Verif.Lemmas.FVal

/-! # C137: different ways of writing a function of a variable -/

namespace Verif
open FVal Set

theorem add_zero' (v : FVal) : v + fin 0 = v := by cases v <;> simp
theorem add_fin_fin (v : FVal) (a b : ℝ) : v + fin a + fin b = v + fin (a + b) := by cases v <;> simp [add_assoc]

/-- Adding a number to a log-probability. -/
noncomputable def shiftBy (j : ℝ) (r : Except Err FVal) : Except Err FVal := r.map (· + fin j)

theorem shiftBy_zero (r : Except Err FVal) : shiftBy 0 r = r := by
  cases r with
  | error e => rfl
  | ok v => simp [shiftBy, Except.map, add_zero']
theorem shiftBy_shiftBy (a b : ℝ) (r : Except Err FVal) : shiftBy b (shiftBy a r) = shiftBy (a + b) r := by
  cases r with
  | error e => rfl
  | ok v => simp [shiftBy, Except.map, add_fin_fin]

section layers
variable (lp : FVal → Except Err FVal)

theorem layer_at {t : RVTransform} {y x j : ℝ} (hb : t.backward (fin y) = .ok (fin x)) (hj : t.logJacDet (fin y) = .ok (fin j)) : measurableElemwiseLogprob t lp (fin y) = shiftBy j (lp (fin x)) := by
  simp only [measurableElemwiseLogprob, hb, hj, bind, Except.bind, shiftBy]
  cases lp (fin x) <;> rfl

theorem loc_at (a y : ℝ) : measurableElemwiseLogprob (.loc (fin a)) lp (fin y) = lp (fin (y - a)) := by
  rw [layer_at lp (x := y - a) (j := 0) (by simp [RVTransform.loc]) (by simp [RVTransform.loc]), shiftBy_zero]
theorem scale_at {c : ℝ} (hc : c ≠ 0) (y : ℝ) : measurableElemwiseLogprob (.scale (fin c)) lp (fin y) = shiftBy (-Real.log |c|) (lp (fin (y / c))) :=
  layer_at lp (by simp [RVTransform.scale, div_fin _ hc]) (by simp [RVTransform.scale, log_fin_pos (abs_pos.2 hc)])
theorem exp_at {y : ℝ} (hy : 0 < y) : measurableElemwiseLogprob .exp lp (fin y) = shiftBy (-Real.log y) (lp (fin (Real.log y))) :=
  layer_at lp (by simp [RVTransform.exp, log_fin_pos hy]) (by simp [RVTransform.exp, log_fin_pos hy])
theorem log_at (y : ℝ) : measurableElemwiseLogprob .log lp (fin y) = shiftBy y (lp (fin (Real.exp y))) :=
  layer_at lp (by simp [RVTransform.log]) (by simp [RVTransform.log])
theorem reciprocal_at {y : ℝ} (hy : 0 < y) : measurableElemwiseLogprob .reciprocal lp (fin y) = shiftBy (-2 * Real.log y) (lp (fin (1 / y))) :=
  layer_at lp (by simp [RVTransform.reciprocal, reciprocal_fin hy.ne']) (by simp [RVTransform.reciprocal, log_fin_pos hy])

end layers

section nodes
variable (ns : List ElemNode) (lp : FVal → Except Err FVal) (v w : FVal)

theorem node_add : derivedLogprob (.add [.meas, .other v] :: ns) lp = derivedLogprob ns (measurableElemwiseLogprob (.loc v) lp) := rfl
theorem node_add' : derivedLogprob (.add [.other v, .meas] :: ns) lp = derivedLogprob ns (measurableElemwiseLogprob (.loc v) lp) := rfl
theorem node_add3 : derivedLogprob (.add [.other v, .meas, .other w] :: ns) lp = derivedLogprob ns (measurableElemwiseLogprob (.loc (v + w)) lp) := rfl
theorem node_mul : derivedLogprob (.mul [.meas, .other v] :: ns) lp = derivedLogprob ns (measurableElemwiseLogprob (.scale v) lp) := rfl
theorem node_mul' : derivedLogprob (.mul [.other v, .meas] :: ns) lp = derivedLogprob ns (measurableElemwiseLogprob (.scale v) lp) := rfl
theorem node_mul3 : derivedLogprob (.mul [.other v, .meas, .other w] :: ns) lp = derivedLogprob ns (measurableElemwiseLogprob (.scale (v * w)) lp) := rfl
theorem node_sub : derivedLogprob (.sub .meas (.other v) :: ns) lp = derivedLogprob ns (measurableElemwiseLogprob (.loc (-1 * v)) lp) := rfl
theorem node_sub' : derivedLogprob (.sub (.other v) .meas :: ns) lp = derivedLogprob ns (measurableElemwiseLogprob (.loc v) (measurableElemwiseLogprob (.scale (-1)) lp)) := rfl
theorem node_div : derivedLogprob (.div .meas (.other v) :: ns) lp = derivedLogprob ns (measurableElemwiseLogprob (.scale (FVal.reciprocal v)) lp) := rfl
theorem node_div' : derivedLogprob (.div (.other v) .meas :: ns) lp = derivedLogprob ns (measurableElemwiseLogprob (.scale v) (measurableElemwiseLogprob .reciprocal lp)) := rfl
theorem node_exp : derivedLogprob (.exp .meas :: ns) lp = derivedLogprob ns (measurableElemwiseLogprob .exp lp) := rfl
theorem node_log : derivedLogprob (.log .meas :: ns) lp = derivedLogprob ns (measurableElemwiseLogprob .log lp) := rfl
theorem node_reciprocal : derivedLogprob (.reciprocal .meas :: ns) lp = derivedLogprob ns (measurableElemwiseLogprob .reciprocal lp) := rfl
theorem node_nil : derivedLogprob [] lp = some lp := rfl

end nodes

/-- The layers of a tower of functions. -/
macro "nodes" : tactic => `(tactic| simp only [node_add, node_add', node_add3, node_mul, node_mul', node_mul3, node_sub, node_sub', node_div, node_div', node_exp, node_log, node_reciprocal, node_nil])

theorem agree_some {s : Set ℝ} {lp b : FVal → Except Err FVal} (h : ∀ x ∈ s, lp (fin x) = b (fin x)) : AgreeOn s (some lp) b := ⟨lp, rfl, h⟩
theorem agree_both {s : Set ℝ} {lp b : FVal → Except Err FVal} (h : ∀ x ∈ s, lp (fin x) = b (fin x)) : AgreeBoth s (some lp) (some b) := ⟨b, rfl, lp, rfl, h⟩

/-- **C137** (undoing) A function applied to a variable and then undone gives the log-probability of the variable itself: adding and subtracting, multiplying and dividing, the exponential and the logarithm, the reciprocal twice. -/
theorem C137_undone_partial (lp : FVal → Except Err FVal) :
    (∀ a : ℝ, AgreeOn univ (derivedLogprob [.add [.meas, .other (fin a)], .sub .meas (.other (fin a))] lp) lp) ∧
    (∀ a : ℝ, a ≠ 0 → AgreeOn univ (derivedLogprob [.mul [.meas, .other (fin a)], .div .meas (.other (fin a))] lp) lp) ∧
    (∀ a : ℝ, AgreeOn univ (derivedLogprob [.sub (.other (fin a)) .meas, .sub (.other (fin a)) .meas] lp) lp) ∧
    AgreeOn univ (derivedLogprob [.exp .meas, .log .meas] lp) lp ∧
    AgreeOn (Ioi 0) (derivedLogprob [.log .meas, .exp .meas] lp) lp ∧
    AgreeOn (Ioi 0) (derivedLogprob [.reciprocal .meas, .reciprocal .meas] lp) lp ∧
    ∀ a : ℝ, 0 < a → AgreeOn (Ioi 0) (derivedLogprob [.div (.other (fin a)) .meas, .div (.other (fin a)) .meas] lp) lp := by
  refine ⟨fun a => ?_, fun a ha => ?_, fun a => ?_, ?_, ?_, ?_, fun a ha => ?_⟩ <;> nodes <;> refine agree_some fun x hx => ?_
  · fv [loc_at]; congr 2; ring
  · rw [reciprocal_fin ha, scale_at _ (one_div_ne_zero ha), scale_at _ ha, shiftBy_shiftBy, abs_div, abs_one, Real.log_div one_ne_zero (abs_ne_zero.2 ha), Real.log_one,
      show -Real.log |a| + -(0 - Real.log |a|) = 0 by ring, shiftBy_zero]
    congr 2; field_simp
  · fv [loc_at]
    rw [scale_at _ (by norm_num), loc_at, scale_at _ (by norm_num), shiftBy_shiftBy]
    norm_num [shiftBy_zero]
    congr 2; ring
  · rw [log_at, exp_at _ (Real.exp_pos x), shiftBy_shiftBy, Real.log_exp, neg_add_cancel, shiftBy_zero]
  · rw [exp_at _ hx, log_at, shiftBy_shiftBy, Real.exp_log hx, add_neg_cancel, shiftBy_zero]
  · rw [reciprocal_at _ hx, reciprocal_at _ (one_div_pos.2 hx), shiftBy_shiftBy, one_div_one_div, Real.log_div one_ne_zero (ne_of_gt hx), Real.log_one, show -2 * (0 - Real.log x) + -2 * Real.log x = 0 by ring, shiftBy_zero]
  · have hx' : 0 < x / a := div_pos hx ha
    rw [scale_at _ ha.ne', reciprocal_at _ hx', scale_at _ ha.ne', reciprocal_at _ (div_pos (one_div_pos.2 hx') ha), shiftBy_shiftBy, shiftBy_shiftBy, shiftBy_shiftBy, abs_of_pos ha,
      show 1 / (1 / (x / a) / a) = x by field_simp]
    rw [show -2 * Real.log (1 / (x / a) / a) + (-Real.log a + (-2 * Real.log (x / a) + -Real.log a)) = 0 by
      rw [one_div_div, div_div, Real.log_div ha.ne' (mul_pos hx ha).ne', Real.log_mul (ne_of_gt hx) ha.ne', Real.log_div (ne_of_gt hx) ha.ne']; ring, shiftBy_zero]

/-- **C137** (several ways to write it) The same function of a variable, written in different ways, gives the same log-probability: subtraction and adding the negative, division and multiplying by the reciprocal, all at once or one after the
other, and the rules of the exponential and the logarithm. -/
theorem C137_rewritten_partial (lp : FVal → Except Err FVal) :
    (∀ a : ℝ, AgreeBoth univ (derivedLogprob [.sub .meas (.other (fin a))] lp) (derivedLogprob [.add [.meas, .other (fin (-a))]] lp)) ∧
    (∀ a : ℝ, AgreeBoth univ (derivedLogprob [.sub (.other (fin a)) .meas] lp) (derivedLogprob [.mul [.other (fin (-1)), .meas], .add [.other (fin a), .meas]] lp)) ∧
    (∀ a b : ℝ, AgreeBoth univ (derivedLogprob [.add [.other (fin a), .meas, .other (fin b)]] lp) (derivedLogprob [.add [.other (fin a), .meas], .add [.meas, .other (fin b)]] lp)) ∧
    (∀ a b : ℝ, a ≠ 0 → b ≠ 0 → AgreeBoth univ (derivedLogprob [.mul [.other (fin a), .meas, .other (fin b)]] lp) (derivedLogprob [.mul [.other (fin a), .meas], .mul [.meas, .other (fin b)]] lp)) ∧
    (∀ a : ℝ, a ≠ 0 → AgreeBoth univ (derivedLogprob [.div .meas (.other (fin a))] lp) (derivedLogprob [.mul [.other (fin (1 / a)), .meas]] lp)) ∧
    (∀ a b : ℝ, a ≠ 0 → AgreeBoth univ (derivedLogprob [.add [.meas, .other (fin b)], .mul [.other (fin a), .meas]] lp) (derivedLogprob [.mul [.other (fin a), .meas], .add [.meas, .other (fin (a * b))]] lp)) ∧
    (∀ a : ℝ, AgreeBoth (Ioi 0) (derivedLogprob [.add [.meas, .other (fin a)], .exp .meas] lp) (derivedLogprob [.exp .meas, .mul [.other (fin (Real.exp a)), .meas]] lp)) ∧
    (∀ a : ℝ, 0 < a → AgreeBoth univ (derivedLogprob [.mul [.other (fin a), .meas], .log .meas] lp) (derivedLogprob [.log .meas, .add [.meas, .other (fin (Real.log a))]] lp)) ∧
    AgreeBoth univ (derivedLogprob [.reciprocal .meas, .log .meas] lp) (derivedLogprob [.log .meas, .mul [.other (fin (-1)), .meas]] lp) ∧
    AgreeBoth (Ioi 0) (derivedLogprob [.mul [.other (fin (-1)), .meas], .exp .meas] lp) (derivedLogprob [.exp .meas, .reciprocal .meas] lp) := by
  refine ⟨fun a => ?_, fun a => ?_, fun a b => ?_, fun a b ha hb => ?_, fun a ha => ?_, fun a b ha => ?_, fun a => ?_, fun a ha => ?_, ?_, ?_⟩ <;> nodes <;> refine agree_both fun x hx => ?_
  · fv [loc_at]; congr 2; ring
  · fv [loc_at]
  · fv [loc_at]; congr 2; ring
  · fv []
    rw [scale_at _ (mul_ne_zero ha hb), scale_at _ hb, scale_at _ ha, shiftBy_shiftBy, abs_mul, Real.log_mul (abs_ne_zero.2 ha) (abs_ne_zero.2 hb), div_div, mul_comm b a, neg_add]
  · rw [reciprocal_fin ha]
  · rw [scale_at _ ha, loc_at, loc_at, scale_at _ ha]
    congr 3; field_simp
  · have h := div_pos hx (Real.exp_pos a)
    rw [exp_at _ hx, loc_at, scale_at _ (Real.exp_ne_zero a), exp_at _ h, shiftBy_shiftBy, abs_of_pos (Real.exp_pos a), Real.log_div (ne_of_gt hx) (Real.exp_ne_zero a), Real.log_exp]
    congr 1; ring
  · rw [log_at, scale_at _ ha.ne', loc_at, log_at, shiftBy_shiftBy, abs_of_pos ha, Real.exp_sub, Real.exp_log ha]
    congr 1; ring
  · rw [log_at, reciprocal_at _ (Real.exp_pos x), scale_at _ (by norm_num), log_at, shiftBy_shiftBy, shiftBy_shiftBy, Real.log_exp]
    rw [show x / -1 = -x by ring, Real.exp_neg, one_div]
    norm_num
    congr 1; ring
  · rw [exp_at _ hx, scale_at _ (by norm_num), reciprocal_at _ hx, exp_at _ (one_div_pos.2 hx), shiftBy_shiftBy, shiftBy_shiftBy, Real.log_div one_ne_zero (ne_of_gt hx), Real.log_one]
    rw [show Real.log x / -1 = 0 - Real.log x by ring]
    norm_num
    congr 1; ring

/-- **C137** fails for negative values of reciprocals: the reciprocal of a reciprocal is NaN there, whatever the log-probability of the variable is. -/
theorem C137_reciprocal_wrong {lp : FVal → Except Err FVal} {x : ℝ} (hx : x < 0) {v : FVal} (hv : lp (fin x) = .ok v) :
    AgreeOn {x} (derivedLogprob [.reciprocal .meas, .reciprocal .meas] lp) fun _ => .ok .nan := by
  nodes
  refine agree_some fun y hy => ?_
  cases hy
  have h1 : 1 / x < 0 := one_div_neg.2 hx
  simp only [measurableElemwiseLogprob, RVTransform.reciprocal, reciprocal_fin hx.ne, reciprocal_fin h1.ne, log_fin_neg hx, bind, Except.bind, one_div_one_div, hv, pure, Except.pure, mul_nan, add_nan]

/-- With a standard normal variable. -/
example := C137_undone_partial fun v => normalLogprob v (fin 0) (fin 1)
example := C137_rewritten_partial fun v => normalLogprob v (fin 0) (fin 1)
example := C137_reciprocal_wrong (lp := fun v => normalLogprob v (fin 0) (fin 1)) (x := -1) (by norm_num) (checkParam_ok (by simp))

end Verif
