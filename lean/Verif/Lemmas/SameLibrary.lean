import Verif.Props.SameVariable

/-! # Lemmas for C138: functions of variables of the library that are distributions of the library again -/

namespace Verif
open FVal Set

theorem shiftBy_check (j : ℝ) (r : FVal) (cs : List Prop) : shiftBy j (checkParam r cs) = checkParam (r + fin j) cs := by
  unfold checkParam
  split_ifs <;> rfl

theorem check_congr {r r' : FVal} {cs cs' : List Prop} (h : cs.foldr And True ↔ cs'.foldr And True) (hr : cs.foldr And True → r = r') : checkParam r cs = checkParam r' cs' := by
  unfold checkParam
  split_ifs with h1 h2 h2
  · rw [hr h1]
  · exact absurd (h.1 h1) h2
  · exact absurd (h.2 h2) h1
  · rfl

theorem switch_add (c : Prop) (a b : FVal) (j : ℝ) : switch c a b + fin j = switch c (a + fin j) (b + fin j) := by
  unfold switch
  split_ifs <;> rfl

theorem switch_congr {c c' : Prop} {a a' b b' : FVal} (h : c ↔ c') (ha : c → a = a') (hb : ¬ c → b = b') : switch c a b = switch c' a' b' := by
  unfold switch
  split_ifs with h1 h2 h2
  · exact ha h1
  · exact absurd (h.1 h1) h2
  · exact absurd (h.2 h2) h1
  · exact hb h1

theorem affine_agree {s : Set ℝ} {a c : ℝ} (hc : c ≠ 0) {lp lp' : FVal → Except Err FVal} (h : ∀ x ∈ s, shiftBy (-Real.log |c|) (lp (fin ((x - a) / c))) = lp' (fin x)) : AgreeOn s (derivedLogprob (affine a c) lp) lp' := by
  unfold affine
  nodes
  refine agree_some fun x hx => ?_
  rw [loc_at, scale_at _ hc, h x hx]

theorem check1 {p : Prop} : [p].foldr And True ↔ p := by simp
theorem check2 {p q : Prop} : [p, q].foldr And True ↔ p ∧ q := by simp

section affine
variable {a c : ℝ} (hc : c ≠ 0) (m s : ℝ)
include hc

theorem affine_normal : AgreeOn univ (derivedLogprob (affine a c) fun v => normalLogprob v (fin m) (fin s)) fun v => normalLogprob v (fin (a + c * m)) (fin (|c| * s)) := by
  refine affine_agree hc fun x _ => ?_
  have hc' := abs_pos.2 hc
  simp only [normalLogprob, shiftBy_check]
  refine check_congr (by fv [check1]; rw [mul_pos_iff_of_pos_left hc']) fun h => ?_
  fv [check1] at h
  have h2 : (0 : ℝ) ≤ 2 * Real.pi := by positivity
  have h3 : 0 < Real.sqrt (2 * Real.pi) := by positivity
  fv [half, sqrt_fin h2, log_fin_pos h3, log_fin_pos h, log_fin_pos (mul_pos hc' h), div_fin _ h.ne', div_fin _ (mul_pos hc' h).ne']
  rw [Real.log_mul hc'.ne' h.ne']
  have : ((x - a) / c - m) / s = (x - (a + c * m)) / (c * s) := by field_simp; ring
  have e : ((x - (a + c * m)) / (|c| * s)) ^ 2 = ((x - a) / c - m) ^ 2 / s ^ 2 := by rw [← div_pow, this, div_pow, div_pow, mul_pow, mul_pow, sq_abs]
  rw [e, div_pow]; ring

theorem affine_laplace : AgreeOn univ (derivedLogprob (affine a c) fun v => laplaceLogprob v (fin m) (fin s)) fun v => laplaceLogprob v (fin (a + c * m)) (fin (|c| * s)) := by
  refine affine_agree hc fun x _ => ?_
  have hc' := abs_pos.2 hc
  simp only [laplaceLogprob, shiftBy_check]
  refine check_congr (by fv [check1]; rw [mul_pos_iff_of_pos_left hc']) fun h => ?_
  fv [check1] at h
  have h1 : 0 < 2 * s := by positivity
  have h2 : 0 < 2 * (|c| * s) := by positivity
  fv [log_fin_pos h1, log_fin_pos h2, div_fin _ h.ne', div_fin _ (mul_pos hc' h).ne']
  rw [show 2 * (|c| * s) = |c| * (2 * s) by ring, Real.log_mul hc'.ne' h1.ne']
  have : |x - (a + c * m)| = |c| * |(x - a) / c - m| := by rw [← abs_mul]; congr 1; field_simp; ring
  rw [this, mul_div_mul_left _ _ hc'.ne']; ring

theorem affine_cauchy : AgreeOn univ (derivedLogprob (affine a c) fun v => cauchyLogprob v (fin m) (fin s)) fun v => cauchyLogprob v (fin (a + c * m)) (fin (|c| * s)) := by
  refine affine_agree hc fun x _ => ?_
  have hc' := abs_pos.2 hc
  simp only [cauchyLogprob, shiftBy_check]
  refine check_congr (by fv [check1]; rw [mul_pos_iff_of_pos_left hc']) fun h => ?_
  fv [check1] at h
  have hp : ∀ z : ℝ, 0 < 1 + z ^ 2 := fun z => by positivity
  fv [log_fin_pos Real.pi_pos, log_fin_pos h, log_fin_pos (mul_pos hc' h), div_fin _ h.ne', div_fin _ (mul_pos hc' h).ne', log1p_fin_pos (hp _)]
  have : ((x - a) / c - m) / s = (x - (a + c * m)) / (c * s) := by field_simp; ring
  rw [this, div_pow, div_pow, mul_pow, mul_pow, sq_abs, Real.log_mul hc'.ne' h.ne']; ring

theorem affine_logistic : AgreeOn univ (derivedLogprob (affine a c) fun v => logisticLogprob v (fin m) (fin s)) fun v => logisticLogprob v (fin (a + c * m)) (fin (|c| * s)) := by
  refine affine_agree hc fun x _ => ?_
  have hc' := abs_pos.2 hc
  simp only [logisticLogprob, shiftBy_check]
  refine check_congr (by fv [check1]; rw [mul_pos_iff_of_pos_left hc']) fun h => ?_
  fv [check1] at h
  have hp : ∀ z : ℝ, 0 < 1 + Real.exp z := fun z => by positivity
  fv [log_fin_pos h, log_fin_pos (mul_pos hc' h), div_fin _ h.ne', div_fin _ (mul_pos hc' h).ne', log1p_fin_pos (hp _)]
  rw [Real.log_mul hc'.ne' h.ne']
  rcases lt_or_gt_of_ne hc with h0 | h0
  · have e : (x - (a + c * m)) / (|c| * s) = -(((x - a) / c - m) / s) := by rw [abs_of_neg h0]; field_simp; ring
    rw [e]
    set z := ((x - a) / c - m) / s
    have : Real.log (1 + Real.exp (- -z)) = z + Real.log (1 + Real.exp (-z)) := by
      rw [neg_neg, show 1 + Real.exp z = Real.exp z * (1 + Real.exp (-z)) by rw [mul_add, ← Real.exp_add]; simp [add_comm], Real.log_mul (Real.exp_ne_zero z) (hp _).ne', Real.log_exp]
    rw [this]; ring
  · have e : (x - (a + c * m)) / (|c| * s) = ((x - a) / c - m) / s := by rw [abs_of_pos h0]; field_simp; ring
    rw [e]; ring

theorem affine_studentt {df : ℝ} (hdf : 0 < df) (hs : 0 < s) :
    AgreeOn univ (derivedLogprob (affine a c) fun v => studenttLogprob v (fin df) (fin m) (fin s)) fun v => studenttLogprob v (fin df) (fin (a + c * m)) (fin (|c| * s)) := by
  refine affine_agree hc fun x _ => ?_
  have hc' := abs_pos.2 hc
  simp only [studenttLogprob, shiftBy_check]
  refine check_congr (by fv [check1]; rw [mul_nonneg_iff_of_pos_left hc']) fun _ => ?_
  have h1 : 0 < Real.pi * df * s ^ 2 := by positivity
  have h2 : 0 < Real.pi * df * (|c| * s) ^ 2 := by positivity
  have h3 : (0 : ℝ) < (df + 1) / 2 := by positivity
  have h4 : (0 : ℝ) < df / 2 := by positivity
  have hp : ∀ z : ℝ, 0 < 1 + z ^ 2 / df := fun z => by positivity
  fv [half, div_fin _ hdf.ne', div_fin _ (two_ne_zero : (2 : ℝ) ≠ 0), div_fin _ hs.ne', div_fin _ (mul_pos hc' hs).ne', log_fin_pos h1, log_fin_pos h2, log1p_fin_pos (hp _), gammaln_fin_pos h3, gammaln_fin_pos h4]
  have : ((x - a) / c - m) / s = (x - (a + c * m)) / (c * s) := by field_simp; ring
  rw [this, show Real.pi * df * (|c| * s) ^ 2 = |c| ^ 2 * (Real.pi * df * s ^ 2) by ring, Real.log_mul (pow_pos hc' 2).ne' h1.ne', Real.log_pow, div_pow, div_pow, mul_pow, mul_pow, sq_abs]
  push_cast; ring

end affine

section positive
variable {a c : ℝ} (hc : 0 < c) (m s : ℝ)
include hc

theorem affine_ge (x m : ℝ) : m ≤ (x - a) / c ↔ a + c * m ≤ x := by rw [le_div_iff₀ hc]; constructor <;> intro h <;> nlinarith
theorem affine_le (x m : ℝ) : (x - a) / c ≤ m ↔ x ≤ a + c * m := by rw [div_le_iff₀ hc]; constructor <;> intro h <;> nlinarith
theorem affine_lt (x m : ℝ) : (x - a) / c < m ↔ x < a + c * m := by rw [div_lt_iff₀ hc]; constructor <;> intro h <;> nlinarith

theorem log_scaled (r : ℝ) : FVal.log (fin (c * r)) = FVal.log (fin r) + fin (Real.log c) := by
  rcases lt_trichotomy r 0 with h | rfl | h
  · rw [log_fin_neg h, log_fin_neg (mul_neg_of_pos_of_neg hc h)]; rfl
  · simp
  · rw [log_fin_pos h, log_fin_pos (mul_pos hc h), Real.log_mul hc.ne' h.ne', add_fin, add_comm]

theorem affine_uniform : AgreeOn univ (derivedLogprob (affine a c) fun v => uniformLogprob v (fin m) (fin s)) fun v => uniformLogprob v (fin (a + c * m)) (fin (a + c * s)) := by
  refine affine_agree hc.ne' fun x _ => ?_
  simp only [uniformLogprob, shiftBy, Except.map, switch_add]
  congr 1
  refine switch_congr (by fv [affine_ge hc, affine_le hc]) (fun _ => ?_) fun _ => rfl
  rw [sub_fin, sub_fin, show a + c * s - (a + c * m) = c * (s - m) by ring, log_scaled hc, abs_of_pos hc]
  cases FVal.log (fin (s - m)) <;> simp [add_comm]

theorem affine_halfnormal : AgreeOn univ (derivedLogprob (affine a c) fun v => halfnormalLogprob v (fin m) (fin s)) fun v => halfnormalLogprob v (fin (a + c * m)) (fin (c * s)) := by
  refine affine_agree hc.ne' fun x _ => ?_
  simp only [halfnormalLogprob, shiftBy_check, switch_add]
  refine check_congr (by fv [check1]; rw [mul_pos_iff_of_pos_left hc]) fun h => ?_
  fv [check1] at h
  refine switch_congr (by fv [affine_ge hc]) (fun _ => ?_) fun _ => rfl
  have h2 : (0 : ℝ) ≤ 2 / Real.pi := by positivity
  have h3 : 0 < Real.sqrt (2 / Real.pi) := by positivity
  fv [half, div_fin _ Real.pi_ne_zero, sqrt_fin h2, log_fin_pos h3, log_fin_pos h, log_fin_pos (mul_pos hc h), div_fin _ h.ne', div_fin _ (mul_pos hc h).ne']
  rw [Real.log_mul hc.ne' h.ne', abs_of_pos hc, show (x - (a + c * m)) / (c * s) = ((x - a) / c - m) / s by field_simp; ring]; ring

theorem affine_halfcauchy : AgreeOn univ (derivedLogprob (affine a c) fun v => halfcauchyLogprob v (fin m) (fin s)) fun v => halfcauchyLogprob v (fin (a + c * m)) (fin (c * s)) := by
  refine affine_agree hc.ne' fun x _ => ?_
  obtain ⟨lp, h1, h2⟩ := affine_cauchy (a := a) hc.ne' m s
  simp only [affine] at h1
  have e : ∀ x, shiftBy (-Real.log |c|) (cauchyLogprob (fin ((x - a) / c)) (fin m) (fin s)) = cauchyLogprob (fin x) (fin (a + c * m)) (fin (c * s)) := fun x => by
    have h3 : lp (fin x) = cauchyLogprob (fin x) (fin (a + c * m)) (fin (|c| * s)) := h2 x trivial
    rw [abs_of_pos hc] at h3
    rw [← h3]
    have : some lp = some (measurableElemwiseLogprob (.loc (fin a)) (measurableElemwiseLogprob (.scale (fin c)) fun v => cauchyLogprob v (fin m) (fin s))) := by rw [← h1]; nodes
    cases this
    rw [loc_at, scale_at _ hc.ne']
  simp only [halfcauchyLogprob, ← e x]
  cases h : cauchyLogprob (fin ((x - a) / c)) (fin m) (fin s) with
  | error e => rfl
  | ok v =>
    simp only [shiftBy, Except.map, bind, Except.bind, pure, Except.pure, switch_add]
    congr 1
    refine switch_congr (by fv [affine_ge hc]) (fun _ => ?_) fun _ => rfl
    fv [log_fin_pos (two_pos : (0 : ℝ) < 2)]
    cases v <;> simp [add_assoc]

theorem affine_gumbel : AgreeOn univ (derivedLogprob (affine a c) fun v => gumbelLogprob v (fin m) (fin s)) fun v => gumbelLogprob v (fin (a + c * m)) (fin (c * s)) := by
  refine affine_agree hc.ne' fun x _ => ?_
  simp only [gumbelLogprob, shiftBy_check]
  refine check_congr (by fv [check1]; rw [mul_pos_iff_of_pos_left hc]) fun h => ?_
  fv [check1] at h
  fv [log_fin_pos h, log_fin_pos (mul_pos hc h), div_fin _ h.ne', div_fin _ (mul_pos hc h).ne']
  rw [Real.log_mul hc.ne' h.ne', abs_of_pos hc, show (x - (a + c * m)) / (c * s) = ((x - a) / c - m) / s by field_simp; ring]; ring

theorem affine_triangular {l u : ℝ} (h1 : l < m) (h2 : m < u) :
    AgreeOn univ (derivedLogprob (affine a c) fun v => triangularLogprob v (fin l) (fin m) (fin u)) fun v => triangularLogprob v (fin (a + c * l)) (fin (a + c * m)) (fin (a + c * u)) := by
  refine affine_agree hc.ne' fun x _ => ?_
  simp only [triangularLogprob, shiftBy_check, switch_add]
  have hlm : 0 < m - l := sub_pos.2 h1
  have hmu : 0 < u - m := sub_pos.2 h2
  have hlu : 0 < u - l := by linarith
  refine check_congr ?_ fun _ => ?_
  · fv [check2]
    rw [add_le_add_iff_left, add_le_add_iff_left, mul_le_mul_iff_right₀ hc, mul_le_mul_iff_right₀ hc]
  refine switch_congr (by fv [affine_ge hc, affine_le hc]) (fun _ => switch_congr (by fv [affine_lt hc]) (fun _ => ?_) fun _ => ?_) fun _ => rfl
  · have e1 : (u - l) * (m - l) ≠ 0 := by positivity
    have e2 : (a + c * u - (a + c * l)) * (a + c * m - (a + c * l)) ≠ 0 := by
      rw [show (a + c * u - (a + c * l)) * (a + c * m - (a + c * l)) = c ^ 2 * ((u - l) * (m - l)) by ring]; positivity
    fv [div_fin _ e1, div_fin _ e2]
    rw [show 2 * ((x - a) / c - l) / ((u - l) * (m - l)) = c * (2 * (x - (a + c * l)) / ((a + c * u - (a + c * l)) * (a + c * m - (a + c * l)))) by
      rw [show (a + c * u - (a + c * l)) * (a + c * m - (a + c * l)) = c ^ 2 * ((u - l) * (m - l)) by ring]; field_simp; ring, log_scaled hc, add_fin_fin, abs_of_pos hc, add_neg_cancel, add_zero']
  · have e1 : (u - l) * (u - m) ≠ 0 := by positivity
    have e2 : (a + c * u - (a + c * l)) * (a + c * u - (a + c * m)) ≠ 0 := by
      rw [show (a + c * u - (a + c * l)) * (a + c * u - (a + c * m)) = c ^ 2 * ((u - l) * (u - m)) by ring]; positivity
    fv [div_fin _ e1, div_fin _ e2]
    rw [show 2 * (u - (x - a) / c) / ((u - l) * (u - m)) = c * (2 * (a + c * u - x) / ((a + c * u - (a + c * l)) * (a + c * u - (a + c * m)))) by
      rw [show (a + c * u - (a + c * l)) * (a + c * u - (a + c * m)) = c ^ 2 * ((u - l) * (u - m)) by ring]; field_simp; ring, log_scaled hc, add_fin_fin, abs_of_pos hc, add_neg_cancel, add_zero']

end positive

theorem scaled_agree {s : Set ℝ} {c : ℝ} (hc : 0 < c) {lp lp' : FVal → Except Err FVal} (h : ∀ x ∈ s, shiftBy (-Real.log c) (lp (fin (x / c))) = lp' (fin x)) : AgreeOn s (derivedLogprob (scaledBy c) lp) lp' := by
  unfold scaledBy
  nodes
  refine agree_some fun x hx => ?_
  rw [scale_at _ hc.ne', abs_of_pos hc, h x hx]

section scaled
variable {c : ℝ} (hc : 0 < c)
include hc

theorem scaled_nonneg {x : ℝ} : 0 ≤ x / c ↔ 0 ≤ x := by rw [le_div_iff₀ hc, zero_mul]

theorem scaled_exponential (s : ℝ) : AgreeOn univ (derivedLogprob (scaledBy c) fun v => exponentialLogprob v (fin s)) fun v => exponentialLogprob v (fin (c * s)) := by
  refine scaled_agree hc fun x _ => ?_
  simp only [exponentialLogprob, shiftBy_check, switch_add]
  refine check_congr (by fv [check1]; rw [mul_pos_iff_of_pos_left hc]) fun h => ?_
  fv [check1] at h
  refine switch_congr (by fv [scaled_nonneg hc]) (fun _ => ?_) fun _ => rfl
  fv [log_fin_pos h, log_fin_pos (mul_pos hc h), div_fin _ h.ne', div_fin _ (mul_pos hc h).ne']
  rw [Real.log_mul hc.ne' h.ne', div_div]; ring

theorem xlogy0_scaled {m x : ℝ} (hx : 0 ≤ x) : xlogy0 (fin m) (fin (x / c)) = switch (x = 0) (switch (m = 0) (fin 0) ninf) (fin (m * (Real.log x - Real.log c))) := by
  unfold xlogy0
  rcases hx.eq_or_lt with rfl | h
  · rw [switch_pos (by fv [zero_div]), switch_pos rfl]; rfl
  · rw [switch_neg (by fv [div_eq_zero_iff]; exact not_or.2 ⟨h.ne', hc.ne'⟩), switch_neg h.ne', log_fin_pos (div_pos h hc), Real.log_div h.ne' hc.ne', mul_fin]

theorem scaled_gamma {al s : ℝ} (ha : 0 < al) (hs : 0 < s) : AgreeOn univ (derivedLogprob (scaledBy c) fun v => gammaLogprob v (fin al) (fin s)) fun v => gammaLogprob v (fin al) (fin (c * s)) := by
  refine scaled_agree hc fun x _ => ?_
  have hcs := mul_pos hc hs
  have i1 : 0 < 1 / s := one_div_pos.2 hs
  have i2 : 0 < 1 / (c * s) := one_div_pos.2 hcs
  simp only [gammaLogprob, shiftBy_check, switch_add, reciprocal_fin hs.ne', reciprocal_fin hcs.ne']
  refine check_congr (by fv [check2]; simp [ha, i1, i2, hc, hs]) fun _ => ?_
  refine switch_congr (by fv [scaled_nonneg hc]) (fun hx => ?_) fun _ => rfl
  fv [scaled_nonneg hc] at hx
  have e : ∀ y : ℝ, 0 < y → xlogy0 (fin al) (fin y) = fin (al * Real.log y) := fun y hy => by rw [xlogy0, switch_neg (by fv [hy.ne']; simp), log_fin_pos hy, mul_fin]
  have e2 := xlogy0_scaled (c := 1) one_pos (m := al - 1) hx
  rw [div_one, Real.log_one, sub_zero] at e2
  fv [e _ i1, e _ i2, gammaln_fin_pos ha, xlogy0_scaled hc hx, e2]
  rcases hx.eq_or_lt with rfl | h
  · simp only [switch_pos]
    by_cases h1 : al - 1 = 0
    · rw [switch_pos h1]
      have : al = 1 := by linarith
      subst this
      fv []
      rw [Real.log_div one_ne_zero hs.ne', Real.log_div one_ne_zero hcs.ne', Real.log_mul hc.ne' hs.ne']; ring
    · rw [switch_neg h1]; rfl
  · simp only [switch_neg h.ne']
    fv []
    rw [Real.log_div one_ne_zero hs.ne', Real.log_div one_ne_zero hcs.ne', Real.log_mul hc.ne' hs.ne']
    field_simp; ring

theorem scaled_invgamma {al b : ℝ} (ha : 0 < al) (hb : 0 < b) : AgreeOn univ (derivedLogprob (scaledBy c) fun v => invgammaLogprob v (fin al) (fin b)) fun v => invgammaLogprob v (fin al) (fin (c * b)) := by
  refine scaled_agree hc fun x _ => ?_
  have hcb := mul_pos hc hb
  simp only [invgammaLogprob, shiftBy_check, switch_add]
  refine check_congr (by fv [check2]; simp [ha, hb, hcb, hc]) fun _ => ?_
  refine switch_congr (by fv [scaled_nonneg hc]) (fun hx => ?_) fun _ => rfl
  fv [scaled_nonneg hc] at hx
  have e : ∀ y : ℝ, 0 < y → xlogy0 (fin al) (fin y) = fin (al * Real.log y) := fun y hy => by rw [xlogy0, switch_neg (by fv [hy.ne']; simp), log_fin_pos hy, mul_fin]
  have e2 := xlogy0_scaled (c := 1) one_pos (m := -al - 1) hx
  rw [div_one, Real.log_one, sub_zero] at e2
  fv [e _ hb, e _ hcb, gammaln_fin_pos ha, xlogy0_scaled hc hx, e2]
  rcases hx.eq_or_lt with rfl | h
  · simp only [switch_pos, zero_div, div_fin_zero, infMul_pos hb, infMul_pos hcb]
    rw [switch_neg (by linarith)]
    rfl
  · simp only [switch_neg h.ne', div_fin _ (div_pos h hc).ne', div_fin _ h.ne']
    fv []
    rw [Real.log_mul hc.ne' hb.ne']
    field_simp; ring

theorem scaled_pareto (al m : ℝ) : AgreeOn univ (derivedLogprob (scaledBy c) fun v => paretoLogprob v (fin al) (fin m)) fun v => paretoLogprob v (fin al) (fin (c * m)) := by
  refine scaled_agree hc fun x _ => ?_
  simp only [paretoLogprob, shiftBy_check, switch_add]
  refine check_congr (by fv [check2]; rw [mul_pos_iff_of_pos_left hc]) fun h => ?_
  fv [check2] at h
  obtain ⟨ha, hm⟩ := h
  refine switch_congr (by fv []; rw [le_div_iff₀ hc, mul_comm]) (fun hx => ?_) fun _ => rfl
  fv [] at hx
  have hxc : 0 < x / c := hm.trans_le hx
  have hx0 : 0 < x := by rwa [div_pos_iff_of_pos_right hc] at hxc
  have e : ∀ k y : ℝ, 0 < y → xlogy0 (fin k) (fin y) = fin (k * Real.log y) := fun k y hy => by rw [xlogy0, switch_neg (by fv [hy.ne']; simp), log_fin_pos hy, mul_fin]
  fv [e _ _ hm, e _ _ (mul_pos hc hm), e _ _ hxc, e _ _ hx0, log_fin_pos ha]
  rw [Real.log_mul hc.ne' hm.ne', Real.log_div hx0.ne' hc.ne']; ring

theorem scaled_wald {m s : ℝ} : AgreeOn univ (derivedLogprob (scaledBy c) fun v => waldLogprob v (fin m) (fin s)) fun v => waldLogprob v (fin (c * m)) (fin (c * s)) := by
  refine scaled_agree hc fun x _ => ?_
  simp only [waldLogprob, shiftBy_check, switch_add]
  refine check_congr (by fv [check2]; rw [mul_pos_iff_of_pos_left hc, mul_pos_iff_of_pos_left hc]) fun h => ?_
  fv [check2] at h
  obtain ⟨hm, hs⟩ := h
  refine switch_congr (by fv [div_pos_iff_of_pos_right hc]) (fun hx => ?_) fun _ => rfl
  fv [div_pos_iff_of_pos_right hc] at hx
  have h2 : (2 * Real.pi : ℝ) ≠ 0 := by positivity
  have p1 : 0 < s / (2 * Real.pi) := by positivity
  have p2 : 0 < c * s / (2 * Real.pi) := by positivity
  fv [half, div_fin _ h2, div_fin _ hx.ne', div_fin _ (div_pos hx hc).ne', div_fin _ hm.ne', div_fin _ (mul_pos hc hm).ne', log_fin_pos p1, log_fin_pos p2, log_fin_pos hx, log_fin_pos (div_pos hx hc)]
  rw [mul_div_assoc c s, Real.log_mul hc.ne' p1.ne', Real.log_div hx.ne' hc.ne']
  field_simp; ring

theorem scaled_lognormal (m s : ℝ) : AgreeOn univ (derivedLogprob (scaledBy c) fun v => lognormalLogprob v (fin m) (fin s)) fun v => lognormalLogprob v (fin (m + Real.log c)) (fin s) := by
  refine scaled_agree hc fun x _ => ?_
  simp only [lognormalLogprob, shiftBy_check, switch_add]
  refine check_congr Iff.rfl fun h => ?_
  fv [check1] at h
  refine switch_congr (by fv [div_pos_iff_of_pos_right hc]) (fun hx => ?_) fun _ => rfl
  fv [div_pos_iff_of_pos_right hc] at hx
  have h2 : (0 : ℝ) < 2 * Real.pi := by positivity
  fv [half, log_fin_pos h2, log_fin_pos h, log_fin_pos hx, log_fin_pos (div_pos hx hc), div_fin _ h.ne']
  rw [Real.log_div hx.ne' hc.ne']; ring

end scaled

section functions

theorem xlogy0_pos (k : ℝ) {y : ℝ} (hy : 0 < y) : xlogy0 (fin k) (fin y) = fin (k * Real.log y) := by
  rw [xlogy0, switch_neg (by fv [hy.ne']; simp), log_fin_pos hy, mul_fin]

theorem half_log : Real.log (Real.sqrt (2 * Real.pi)) = 1 / 2 * Real.log (2 * Real.pi) := by rw [Real.log_sqrt (by positivity)]; ring

theorem exp_normal (m s : ℝ) : AgreeOn (Ioi 0) (derivedLogprob [.exp .meas] fun v => normalLogprob v (fin m) (fin s)) fun v => lognormalLogprob v (fin m) (fin s) := by
  nodes
  refine agree_some fun x hx => ?_
  have hx : 0 < x := hx
  rw [exp_at _ hx]
  simp only [normalLogprob, lognormalLogprob, shiftBy_check]
  refine check_congr Iff.rfl fun h => ?_
  fv [check1] at h
  rw [switch_pos (by fv [hx])]
  have h2 : (0 : ℝ) < 2 * Real.pi := by positivity
  have h3 : 0 < Real.sqrt (2 * Real.pi) := by positivity
  fv [half, sqrt_fin h2.le, log_fin_pos h2, log_fin_pos h3, log_fin_pos h, log_fin_pos hx, div_fin _ h.ne', half_log]
  ring

theorem log_lognormal (m s : ℝ) : AgreeOn univ (derivedLogprob [.log .meas] fun v => lognormalLogprob v (fin m) (fin s)) fun v => normalLogprob v (fin m) (fin s) := by
  nodes
  refine agree_some fun x _ => ?_
  have hx : 0 < Real.exp x := Real.exp_pos x
  rw [log_at]
  simp only [normalLogprob, lognormalLogprob, shiftBy_check]
  refine check_congr Iff.rfl fun h => ?_
  fv [check1] at h
  rw [switch_pos (by fv []; exact hx)]
  have h2 : (0 : ℝ) < 2 * Real.pi := by positivity
  have h3 : 0 < Real.sqrt (2 * Real.pi) := by positivity
  fv [half, sqrt_fin h2.le, log_fin_pos h2, log_fin_pos h3, log_fin_pos h, log_fin_pos hx, div_fin _ h.ne', half_log, Real.log_exp]
  ring

theorem reciprocal_lognormal (m s : ℝ) : AgreeOn (Ioi 0) (derivedLogprob [.reciprocal .meas] fun v => lognormalLogprob v (fin m) (fin s)) fun v => lognormalLogprob v (fin (-m)) (fin s) := by
  nodes
  refine agree_some fun x hx => ?_
  have hx : 0 < x := hx
  have hi : 0 < 1 / x := one_div_pos.2 hx
  rw [reciprocal_at _ hx]
  simp only [lognormalLogprob, shiftBy_check]
  refine check_congr Iff.rfl fun h => ?_
  fv [check1] at h
  rw [switch_pos (by fv []; exact hi), switch_pos (by fv []; exact hx)]
  have h2 : (0 : ℝ) < 2 * Real.pi := by positivity
  fv [half, log_fin_pos h2, log_fin_pos h, log_fin_pos hx, log_fin_pos hi, div_fin _ h.ne']
  rw [one_div x, Real.log_inv]; ring

theorem reciprocal_gamma {al s : ℝ} (ha : 0 < al) (hs : 0 < s) : AgreeOn (Ioi 0) (derivedLogprob [.reciprocal .meas] fun v => gammaLogprob v (fin al) (fin s)) fun v => invgammaLogprob v (fin al) (fin (1 / s)) := by
  nodes
  refine agree_some fun x hx => ?_
  have hx : 0 < x := hx
  have hi : 0 < 1 / x := one_div_pos.2 hx
  have hb : 0 < 1 / s := one_div_pos.2 hs
  rw [reciprocal_at _ hx]
  simp only [gammaLogprob, invgammaLogprob, shiftBy_check, reciprocal_fin hs.ne']
  refine check_congr Iff.rfl fun _ => ?_
  rw [switch_pos (by fv []; exact hi.le), switch_pos (by fv []; exact hx.le)]
  fv [xlogy0_pos _ hb, xlogy0_pos _ hi, xlogy0_pos _ hx, gammaln_fin_pos ha, div_fin _ hx.ne']
  rw [one_div x, Real.log_inv]; field_simp; ring

theorem reciprocal_invgamma {al b : ℝ} (ha : 0 < al) (hb : 0 < b) : AgreeOn (Ioi 0) (derivedLogprob [.reciprocal .meas] fun v => invgammaLogprob v (fin al) (fin b)) fun v => gammaLogprob v (fin al) (fin (1 / b)) := by
  nodes
  refine agree_some fun x hx => ?_
  have hx : 0 < x := hx
  have hi : 0 < 1 / x := one_div_pos.2 hx
  have hs : 0 < 1 / b := one_div_pos.2 hb
  rw [reciprocal_at _ hx]
  simp only [gammaLogprob, invgammaLogprob, shiftBy_check, reciprocal_fin hs.ne', one_div_one_div]
  refine check_congr Iff.rfl fun _ => ?_
  rw [switch_pos (by fv []; exact hi.le), switch_pos (by fv []; exact hx.le)]
  fv [xlogy0_pos _ hb, xlogy0_pos _ hi, xlogy0_pos _ hx, gammaln_fin_pos ha, div_fin _ hi.ne']
  rw [one_div x, Real.log_inv]; field_simp; ring

theorem reciprocal_cauchy (s : ℝ) (hs : 0 < s) : AgreeOn (Ioi 0) (derivedLogprob [.reciprocal .meas] fun v => cauchyLogprob v (fin 0) (fin s)) fun v => cauchyLogprob v (fin 0) (fin (1 / s)) := by
  nodes
  refine agree_some fun x hx => ?_
  have hx : 0 < x := hx
  have hs' : 0 < 1 / s := one_div_pos.2 hs
  rw [reciprocal_at _ hx]
  simp only [cauchyLogprob, shiftBy_check]
  refine check_congr (by fv [check1]; simp [hs]) fun _ => ?_
  have p1 : (0 : ℝ) < 1 + ((1 / x - 0) / s) ^ 2 := by positivity
  have p2 : (0 : ℝ) < 1 + ((x - 0) / (1 / s)) ^ 2 := by positivity
  fv [log_fin_pos Real.pi_pos, log_fin_pos hs, log_fin_pos hs', div_fin _ hs.ne', div_fin _ hs'.ne', log1p_fin_pos p1, log1p_fin_pos p2]
  rw [one_div s, Real.log_inv]
  have e : 1 + ((1 / x - 0) / s) ^ 2 = (1 + ((x - 0) / s⁻¹) ^ 2) / (x ^ 2 * s ^ 2) := by field_simp; ring
  have q : 0 < 1 + ((x - 0) / s⁻¹) ^ 2 := by positivity
  rw [e, Real.log_div q.ne' (by positivity), Real.log_mul (by positivity) (by positivity), Real.log_pow, Real.log_pow]; push_cast; ring

theorem exp_exponential {s : ℝ} (hs : 0 < s) : AgreeOn (Ioi 0) (derivedLogprob [.exp .meas] fun v => exponentialLogprob v (fin s)) fun v => paretoLogprob v (fin (1 / s)) (fin 1) := by
  nodes
  refine agree_some fun x hx => ?_
  have hx : 0 < x := hx
  have hi : 0 < 1 / s := one_div_pos.2 hs
  rw [exp_at _ hx]
  simp only [exponentialLogprob, paretoLogprob, shiftBy_check, switch_add]
  refine check_congr (by fv [check1, check2]; simp [hs]) fun _ => ?_
  refine switch_congr (by fv []; rw [Real.log_nonneg_iff hx]) (fun _ => ?_) fun _ => rfl
  fv [log_fin_pos hs, log_fin_pos hi, xlogy0_pos _ hx, xlogy0_pos _ one_pos, div_fin _ hs.ne']
  rw [one_div s, Real.log_inv, Real.log_one]; field_simp; ring

theorem log_pareto {al m : ℝ} (ha : 0 < al) (hm : 0 < m) :
    AgreeBoth univ (derivedLogprob [.log .meas] fun v => paretoLogprob v (fin al) (fin m)) (derivedLogprob [.add [.other (fin (Real.log m)), .meas]] fun v => exponentialLogprob v (fin (1 / al))) := by
  nodes
  refine agree_both fun x _ => ?_
  have hi : 0 < 1 / al := one_div_pos.2 ha
  rw [log_at, loc_at]
  simp only [exponentialLogprob, paretoLogprob, shiftBy_check, switch_add]
  refine check_congr (by fv [check1, check2]; simp [ha, hm]) fun _ => ?_
  refine switch_congr (by fv []; rw [sub_nonneg, Real.log_le_iff_le_exp hm]) (fun _ => ?_) fun _ => rfl
  fv [log_fin_pos ha, log_fin_pos hi, xlogy0_pos _ hm, xlogy0_pos _ (Real.exp_pos x), div_fin _ hi.ne', Real.log_exp]
  rw [one_div al, Real.log_inv]; field_simp; ring

theorem log_exponential (s : ℝ) (hs : 0 < s) :
    AgreeOn univ (derivedLogprob [.log .meas, .mul [.other (fin (-1)), .meas]] fun v => exponentialLogprob v (fin s)) fun v => gumbelLogprob v (fin (-Real.log s)) (fin 1) := by
  nodes
  refine agree_some fun x _ => ?_
  rw [scale_at _ (by norm_num), log_at, shiftBy_shiftBy]
  simp only [exponentialLogprob, gumbelLogprob, shiftBy_check, switch_add]
  refine check_congr (by fv [check1]; simp [hs]) fun _ => ?_
  rw [switch_pos (by fv []; exact (Real.exp_pos _).le)]
  fv [log_fin_pos hs, log_fin_pos one_pos, div_fin _ hs.ne', div_fin _ (one_ne_zero (α := ℝ))]
  rw [div_one, div_neg, div_one, Real.log_one, neg_sub, show -Real.log s - x = -x - Real.log s by ring, Real.exp_sub, Real.exp_log hs]
  simp; ring

theorem log_uniform : AgreeOn univ (derivedLogprob [.log .meas, .mul [.other (fin (-1)), .meas]] fun v => uniformLogprob v (fin 0) (fin 1)) fun v => exponentialLogprob v (fin 1) := by
  nodes
  refine agree_some fun x _ => ?_
  rw [scale_at _ (by norm_num), log_at, shiftBy_shiftBy]
  simp only [exponentialLogprob, uniformLogprob, shiftBy, Except.map, switch_add, checkParam]
  rw [if_pos (by fv [check1]; simp)]
  congr 1
  refine switch_congr (by fv []; rw [div_neg, div_one, Real.exp_le_one_iff, neg_nonpos]; simp [(Real.exp_pos _).le]) (fun _ => ?_) fun _ => rfl
  fv [sub_zero, log_fin_pos one_pos, div_fin _ (one_ne_zero (α := ℝ))]
  rw [Real.log_one]; simp; ring

theorem exp_uniform : AgreeOn (Ioi 0) (derivedLogprob [.mul [.other (fin (-1)), .meas], .exp .meas] fun v => exponentialLogprob v (fin 1)) fun v => uniformLogprob v (fin 0) (fin 1) := by
  nodes
  refine agree_some fun x hx => ?_
  have hx : 0 < x := hx
  rw [exp_at _ hx, scale_at _ (by norm_num), shiftBy_shiftBy]
  simp only [exponentialLogprob, uniformLogprob, shiftBy, Except.map, switch_add, checkParam]
  rw [if_pos (by fv [check1]; simp)]
  simp only
  congr 1
  rw [switch_add]
  refine switch_congr (by fv []; rw [div_neg, div_one, neg_nonneg, Real.log_nonpos_iff hx.le]; simp [hx.le]) (fun _ => ?_) fun _ => rfl
  fv [sub_zero, log_fin_pos one_pos, div_fin _ (one_ne_zero (α := ℝ))]
  rw [Real.log_one]; simp; ring

theorem reflect_uniform {a c : ℝ} (hc : c < 0) (m s : ℝ) : AgreeOn univ (derivedLogprob (affine a c) fun v => uniformLogprob v (fin m) (fin s)) fun v => uniformLogprob v (fin (a + c * s)) (fin (a + c * m)) := by
  refine affine_agree hc.ne fun x _ => ?_
  simp only [uniformLogprob, shiftBy, Except.map, switch_add]
  congr 1
  refine switch_congr ?_ (fun _ => ?_) fun _ => rfl
  · fv []
    rw [le_div_iff_of_neg hc, div_le_iff_of_neg hc]
    constructor <;> rintro ⟨h1, h2⟩ <;> constructor <;> nlinarith
  rw [sub_fin, sub_fin, show a + c * m - (a + c * s) = -c * (s - m) by ring, log_scaled (neg_pos.2 hc), abs_of_neg hc]
  cases FVal.log (fin (s - m)) <;> simp [add_comm]

theorem fadd_comm (a b : FVal) : a + b = b + a := by cases a <;> cases b <;> simp [add_comm]

theorem reflect_beta (al be : ℝ) : AgreeOn univ (derivedLogprob [.sub (.other (fin 1)) .meas] fun v => betaLogprob v (fin al) (fin be)) fun v => betaLogprob v (fin be) (fin al) := by
  nodes
  refine agree_some fun x _ => ?_
  have e : (x - 1) / -1 = 1 - x := by ring
  have l1 : FVal.log1p (-fin (1 - x)) = FVal.log (fin x) := by rw [neg_fin, FVal.log1p, show (1 : FVal) = fin 1 from rfl, add_fin]; congr 2; ring
  have l2 : FVal.log1p (-fin x) = FVal.log (fin (1 - x)) := by rw [neg_fin, FVal.log1p, show (1 : FVal) = fin 1 from rfl, add_fin]; congr 2
  rw [loc_at, show (-1 : FVal) = fin (-1) from rfl, scale_at _ (by norm_num), e, abs_neg, abs_one, Real.log_one, neg_zero, shiftBy_zero]
  simp only [betaLogprob, l1, l2]
  refine check_congr (by fv [check2]; exact and_comm) fun _ => switch_congr (by fv []; constructor <;> rintro ⟨h1, h2⟩ <;> constructor <;> linarith) (fun _ => ?_) fun _ => rfl
  congr 1
  · exact fadd_comm _ _
  · rw [fadd_comm (gammaln _) (gammaln _), fadd_comm (fin al) (fin be)]

theorem reflect_vonmises (m k : ℝ) : AgreeOn univ (derivedLogprob [.mul [.other (fin (-1)), .meas]] fun v => vonmisesLogprob v (fin m) (fin k)) fun v => vonmisesLogprob v (fin (-m)) (fin k) := by
  nodes
  refine agree_some fun x _ => ?_
  rw [scale_at _ (by norm_num), abs_neg, abs_one, Real.log_one, neg_zero, shiftBy_zero]
  simp only [vonmisesLogprob]
  refine check_congr Iff.rfl fun _ => switch_congr ?_ (fun _ => ?_) fun _ => rfl
  · fv []
    rw [div_neg, div_one]
    constructor <;> rintro ⟨h1, h2⟩ <;> constructor <;> linarith
  · congr 2
    fv []
    rw [div_neg, div_one, show -m - x = -(m - -x) by ring, Real.cos_neg]

end functions

end Verif
