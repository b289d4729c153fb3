import Verif.Lemmas.SameLibrary

/-! # C138: functions of variables of the library that are distributions of the library again -/

namespace Verif
open FVal Set

/-- **C138** (location and scale) `a + c * X` for `c ≠ 0` has the log-probability of the same family with the location `a + c * m` and the scale `|c| * s`, at every real number, and raises the same errors. -/
theorem C138_location_scale (a : ℝ) {c : ℝ} (hc : c ≠ 0) (m s : ℝ) :
    AgreeOn univ (derivedLogprob (affine a c) fun v => normalLogprob v (fin m) (fin s)) (fun v => normalLogprob v (fin (a + c * m)) (fin (|c| * s))) ∧
    AgreeOn univ (derivedLogprob (affine a c) fun v => laplaceLogprob v (fin m) (fin s)) (fun v => laplaceLogprob v (fin (a + c * m)) (fin (|c| * s))) ∧
    AgreeOn univ (derivedLogprob (affine a c) fun v => cauchyLogprob v (fin m) (fin s)) (fun v => cauchyLogprob v (fin (a + c * m)) (fin (|c| * s))) ∧
    AgreeOn univ (derivedLogprob (affine a c) fun v => logisticLogprob v (fin m) (fin s)) (fun v => logisticLogprob v (fin (a + c * m)) (fin (|c| * s))) ∧
    (∀ df : ℝ, 0 < df → 0 < s → AgreeOn univ (derivedLogprob (affine a c) fun v => studenttLogprob v (fin df) (fin m) (fin s)) (fun v => studenttLogprob v (fin df) (fin (a + c * m)) (fin (|c| * s)))) :=
  ⟨affine_normal hc m s, affine_laplace hc m s, affine_cauchy hc m s, affine_logistic hc m s, fun df hd hs => affine_studentt hc m s hd hs⟩

example := C138_location_scale 1 (c := -2) (by norm_num) 3 4

/-- **C138** (increasing affine functions) `a + c * X` for `c > 0` of the distributions that are not symmetric. -/
theorem C138_increasing (a : ℝ) {c : ℝ} (hc : 0 < c) (m s : ℝ) :
    AgreeOn univ (derivedLogprob (affine a c) fun v => uniformLogprob v (fin m) (fin s)) (fun v => uniformLogprob v (fin (a + c * m)) (fin (a + c * s))) ∧
    AgreeOn univ (derivedLogprob (affine a c) fun v => halfnormalLogprob v (fin m) (fin s)) (fun v => halfnormalLogprob v (fin (a + c * m)) (fin (c * s))) ∧
    AgreeOn univ (derivedLogprob (affine a c) fun v => halfcauchyLogprob v (fin m) (fin s)) (fun v => halfcauchyLogprob v (fin (a + c * m)) (fin (c * s))) ∧
    AgreeOn univ (derivedLogprob (affine a c) fun v => gumbelLogprob v (fin m) (fin s)) (fun v => gumbelLogprob v (fin (a + c * m)) (fin (c * s))) ∧
    (∀ l u : ℝ, l < m → m < u → AgreeOn univ (derivedLogprob (affine a c) fun v => triangularLogprob v (fin l) (fin m) (fin u))
      (fun v => triangularLogprob v (fin (a + c * l)) (fin (a + c * m)) (fin (a + c * u)))) :=
  ⟨affine_uniform hc m s, affine_halfnormal hc m s, affine_halfcauchy hc m s, affine_gumbel hc m s, fun _ _ h1 h2 => affine_triangular hc m h1 h2⟩

example := C138_increasing 1 (c := 2) (by norm_num) 3 4

/-- **C138** (changing the unit) `c * X` for `c > 0` of the distributions of positive numbers. -/
theorem C138_unit {c : ℝ} (hc : 0 < c) (m s : ℝ) :
    AgreeOn univ (derivedLogprob (scaledBy c) fun v => exponentialLogprob v (fin s)) (fun v => exponentialLogprob v (fin (c * s))) ∧
    (0 < m → 0 < s → AgreeOn univ (derivedLogprob (scaledBy c) fun v => gammaLogprob v (fin m) (fin s)) (fun v => gammaLogprob v (fin m) (fin (c * s)))) ∧
    (0 < m → 0 < s → AgreeOn univ (derivedLogprob (scaledBy c) fun v => invgammaLogprob v (fin m) (fin s)) (fun v => invgammaLogprob v (fin m) (fin (c * s)))) ∧
    AgreeOn univ (derivedLogprob (scaledBy c) fun v => paretoLogprob v (fin m) (fin s)) (fun v => paretoLogprob v (fin m) (fin (c * s))) ∧
    AgreeOn univ (derivedLogprob (scaledBy c) fun v => waldLogprob v (fin m) (fin s)) (fun v => waldLogprob v (fin (c * m)) (fin (c * s))) ∧
    AgreeOn univ (derivedLogprob (scaledBy c) fun v => lognormalLogprob v (fin m) (fin s)) (fun v => lognormalLogprob v (fin (m + Real.log c)) (fin s)) :=
  ⟨scaled_exponential hc s, fun h1 h2 => scaled_gamma hc h1 h2, fun h1 h2 => scaled_invgamma hc h1 h2, scaled_pareto hc m s, scaled_wald hc, scaled_lognormal hc m s⟩

example := C138_unit (c := 2) (by norm_num) 3 4

/-- **C138** (reflecting) `a + c * Uniform` for `c < 0` exchanges the bounds, `1 - Beta` exchanges the parameters, `-VonMises` changes the sign of the mean. -/
theorem C138_reflected :
    (∀ a c m s : ℝ, c < 0 → AgreeOn univ (derivedLogprob (affine a c) fun v => uniformLogprob v (fin m) (fin s)) (fun v => uniformLogprob v (fin (a + c * s)) (fin (a + c * m)))) ∧
    (∀ al be : ℝ, AgreeOn univ (derivedLogprob [.sub (.other (fin 1)) .meas] fun v => betaLogprob v (fin al) (fin be)) (fun v => betaLogprob v (fin be) (fin al))) ∧
    (∀ m k : ℝ, AgreeOn univ (derivedLogprob [.mul [.other (fin (-1)), .meas]] fun v => vonmisesLogprob v (fin m) (fin k)) (fun v => vonmisesLogprob v (fin (-m)) (fin k))) :=
  ⟨fun _ _ m s hc => reflect_uniform hc m s, reflect_beta, reflect_vonmises⟩

example := C138_reflected.1 1 (-2) 3 4 (by norm_num)

/-- **C138** (logarithms) The logarithm of a log-normal variable is normal, the logarithm of a Pareto variable is a shifted exponential one, minus the logarithm of an exponential variable is a Gumbel one, minus the logarithm of a uniform variable is exponential: everywhere. -/
theorem C138_logarithm :
    (∀ m s : ℝ, AgreeOn univ (derivedLogprob [.log .meas] fun v => lognormalLogprob v (fin m) (fin s)) (fun v => normalLogprob v (fin m) (fin s))) ∧
    (∀ al m : ℝ, 0 < al → 0 < m → AgreeBoth univ (derivedLogprob [.log .meas] fun v => paretoLogprob v (fin al) (fin m))
      (derivedLogprob [.add [.other (fin (Real.log m)), .meas]] fun v => exponentialLogprob v (fin (1 / al)))) ∧
    (∀ s : ℝ, 0 < s → AgreeOn univ (derivedLogprob [.log .meas, .mul [.other (fin (-1)), .meas]] fun v => exponentialLogprob v (fin s)) (fun v => gumbelLogprob v (fin (-Real.log s)) (fin 1))) ∧
    AgreeOn univ (derivedLogprob [.log .meas, .mul [.other (fin (-1)), .meas]] fun v => uniformLogprob v (fin 0) (fin 1)) (fun v => exponentialLogprob v (fin 1)) :=
  ⟨log_lognormal, fun _ _ h1 h2 => log_pareto h1 h2, log_exponential, log_uniform⟩

example := C138_logarithm.2.1 2 3 (by norm_num) (by norm_num)

/-- **C138** (exponentials and reciprocals) The same for the exponential function and the reciprocal, at positive values.  Missing: the other values, where the results are `nan` (`C138_exponential_wrong`, `C138_reciprocal_wrong`). -/
theorem C138_exponential_partial :
    (∀ m s : ℝ, AgreeOn (Ioi 0) (derivedLogprob [.exp .meas] fun v => normalLogprob v (fin m) (fin s)) (fun v => lognormalLogprob v (fin m) (fin s))) ∧
    (∀ s : ℝ, 0 < s → AgreeOn (Ioi 0) (derivedLogprob [.exp .meas] fun v => exponentialLogprob v (fin s)) (fun v => paretoLogprob v (fin (1 / s)) (fin 1))) ∧
    AgreeOn (Ioi 0) (derivedLogprob [.mul [.other (fin (-1)), .meas], .exp .meas] fun v => exponentialLogprob v (fin 1)) (fun v => uniformLogprob v (fin 0) (fin 1)) ∧
    (∀ m s : ℝ, AgreeOn (Ioi 0) (derivedLogprob [.reciprocal .meas] fun v => lognormalLogprob v (fin m) (fin s)) (fun v => lognormalLogprob v (fin (-m)) (fin s))) ∧
    (∀ al s : ℝ, 0 < al → 0 < s → AgreeOn (Ioi 0) (derivedLogprob [.reciprocal .meas] fun v => gammaLogprob v (fin al) (fin s)) (fun v => invgammaLogprob v (fin al) (fin (1 / s)))) ∧
    (∀ al b : ℝ, 0 < al → 0 < b → AgreeOn (Ioi 0) (derivedLogprob [.reciprocal .meas] fun v => invgammaLogprob v (fin al) (fin b)) (fun v => gammaLogprob v (fin al) (fin (1 / b)))) ∧
    (∀ s : ℝ, 0 < s → AgreeOn (Ioi 0) (derivedLogprob [.reciprocal .meas] fun v => cauchyLogprob v (fin 0) (fin s)) (fun v => cauchyLogprob v (fin 0) (fin (1 / s)))) :=
  ⟨exp_normal, fun _ hs => exp_exponential hs, exp_uniform, reciprocal_lognormal, fun _ _ h1 h2 => reciprocal_gamma h1 h2, fun _ _ h1 h2 => reciprocal_invgamma h1 h2, reciprocal_cauchy⟩

example := C138_exponential_partial.2.2.2.2.1 2 3 (by norm_num) (by norm_num)

/-- **C138** (negation) At zero and at negative values the exponential of a normal variable has the log-probability `nan`, and the log-normal distribution has `-inf`. -/
theorem C138_exponential_wrong (m : ℝ) {s : ℝ} (hs : 0 < s) :
    AgreeOn (Iic 0) (derivedLogprob [.exp .meas] fun v => normalLogprob v (fin m) (fin s)) (fun _ => .ok .nan) ∧
    ∀ x ∈ Iic (0 : ℝ), lognormalLogprob (fin x) (fin m) (fin s) = .ok ninf := by
  constructor
  · nodes
    refine agree_some fun x hx => ?_
    have hx : x ≤ 0 := hx
    rcases hx.lt_or_eq with h | rfl
    · simp only [measurableElemwiseLogprob, RVTransform.exp, log_fin_neg h, bind, Except.bind, normalLogprob, checkParam]
      rw [if_pos (by fv [check1]; exact hs)]
      simp only [neg_nan, add_nan]
      rfl
    · simp only [measurableElemwiseLogprob, RVTransform.exp, FVal.log_zero, bind, Except.bind, normalLogprob, checkParam]
      rw [if_pos (by fv [check1]; exact hs)]
      have h3 : 0 < Real.sqrt (2 * Real.pi) := by positivity
      have h2 : (0 : ℝ) ≤ 2 * Real.pi := by positivity
      have e : (ninf : FVal) / fin s = ninf := by
        show (if s < 0 then _ else _) = _
        rw [if_neg (not_lt.2 hs.le)]
      have e' : FVal.sq ninf = pinf := rfl
      fv [half, sqrt_fin h2, log_fin_pos h3, log_fin_pos hs, FVal.log_zero, e, e', infMul_neg (show -(1 / 2 : ℝ) < 0 by norm_num), ninf_sub_fin, fin_mul_pinf, neg_ninf, ninf_add_pinf]
      rfl
  · intro x hx
    have hx : x ≤ 0 := hx
    rw [lognormalLogprob, checkParam_ok (by fv [check1]; exact hs), switch_neg (by fv []; exact not_lt.2 hx)]

example := C138_exponential_wrong 1 (s := 2) (by norm_num)

/-- **C138** (negation) At negative values the reciprocal of a Cauchy variable has the log-probability `nan`, and the Cauchy distribution is finite. -/
theorem C138_reciprocal_wrong {s : ℝ} (hs : 0 < s) :
    AgreeOn (Iio 0) (derivedLogprob [.reciprocal .meas] fun v => cauchyLogprob v (fin 0) (fin s)) (fun _ => .ok .nan) ∧
    ∀ x ∈ Iio (0 : ℝ), ∃ r : ℝ, cauchyLogprob (fin x) (fin 0) (fin (1 / s)) = .ok (fin r) := by
  have hs' : 0 < 1 / s := one_div_pos.2 hs
  constructor
  · nodes
    refine agree_some fun x hx => ?_
    have hx : x < 0 := hx
    simp only [measurableElemwiseLogprob, RVTransform.reciprocal, reciprocal_fin hx.ne, log_fin_neg hx, bind, Except.bind, cauchyLogprob, checkParam]
    rw [if_pos (by fv [check1]; exact hs)]
    simp only [mul_nan, add_nan]
    rfl
  · intro x _
    have p2 : (0 : ℝ) < 1 + ((x - 0) / (1 / s)) ^ 2 := by positivity
    refine ⟨-Real.log Real.pi - Real.log (1 / s) - Real.log (1 + ((x - 0) / (1 / s)) ^ 2), ?_⟩
    rw [cauchyLogprob, checkParam_ok (by fv [check1]; simp [hs])]
    fv [log_fin_pos Real.pi_pos, log_fin_pos hs', div_fin _ hs'.ne', log1p_fin_pos p2]

example := C138_reciprocal_wrong (s := 2) (by norm_num)

end Verif
