import Verif.Lemmas.Dist1
import Verif.Lemmas.Fold

/-!
# C09-C11, C13-C18: continuous scalar distributions
-/

namespace Verif
open FVal MeasureTheory ProbabilityTheory ENNReal Set

/-- **C09** For `σ > 0`, `exp (normal logprob)` is the density of the Gaussian law `N(μ, σ²)`; never NaN, never raises,
and finite everywhere. -/
theorem C09_normal (μ : ℝ) {σ : ℝ} (hσ : 0 < σ) :
    IsLogDensity (fun x => normalLogprob (fin x) (fin μ) (fin σ)) (gaussianReal μ (σ ^ 2).toNNReal) ∧
    ∀ x, ∃ r, normalLogprob (fin x) (fin μ) (fin σ) = .ok (fin r) := by
  refine ⟨?_, fun x => ⟨_, normal_eval x μ hσ⟩⟩
  rw [gaussianReal_of_var_ne_zero _ (toNNReal_sq_ne hσ)]
  refine IsLogDensity.of_withDensity (fun x => ?_) (.of_forall fun x => ?_)
  · rw [normal_eval x μ hσ]; exact clean_fin _
  · rw [normal_eval x μ hσ, dens_log (gaussianPDFReal_pos _ _ _ (toNNReal_sq_ne hσ))]; rfl

example := C09_normal 1 (σ := 2) (by norm_num)

/-- **C10** For `a < b`, `exp (uniform logprob)` is the density of the uniform law on `[a, b]`, and the
log-probability is `-inf` exactly outside `[a, b]`. -/
theorem C10_uniform {a b : ℝ} (hab : a < b) :
    IsLogDensity (fun x => uniformLogprob (fin x) (fin a) (fin b)) (ProbabilityTheory.cond volume (Icc a b)) ∧
    ∀ x, IsNegInf (uniformLogprob (fin x) (fin a) (fin b)) ↔ x ∉ Icc a b := by
  have hv : volume (Icc a b) = ENNReal.ofReal (b - a) := Real.volume_Icc
  have hlaw : ProbabilityTheory.cond volume (Icc a b)
      = volume.withDensity ((Icc a b).indicator fun _ => ENNReal.ofReal (b - a)⁻¹) := by
    rw [withDensity_indicator measurableSet_Icc, withDensity_const, ProbabilityTheory.cond, hv,
      ENNReal.ofReal_inv_of_pos (sub_pos.2 hab)]
  constructor
  · rw [hlaw]
    refine IsLogDensity.of_withDensity (fun x => ?_) (.of_forall fun x => ?_)
    · by_cases h : a ≤ x ∧ x ≤ b
      · rw [uniform_eval_in hab h.1 h.2]; exact clean_fin _
      · rw [uniform_eval_out h]; exact clean_ninf
    · by_cases h : a ≤ x ∧ x ≤ b
      · rw [uniform_eval_in hab h.1 h.2, dens_log (inv_pos.2 (sub_pos.2 hab)), indicator_of_mem (mem_Icc.2 h)]
      · rw [uniform_eval_out h, indicator_of_notMem (by simpa using h)]; rfl
  · intro x
    by_cases h : a ≤ x ∧ x ≤ b
    · rw [uniform_eval_in hab h.1 h.2]; simp [IsNegInf, h]
    · rw [uniform_eval_out h]; simpa [IsNegInf] using h

example := C10_uniform (a := -1) (b := 3) (by norm_num)

/-- **C11** For `σ > 0`, `exp (half-normal logprob)` is the density of `l + σ * |Z|`, `Z` standard normal; `-inf`
exactly below `l`. -/
theorem C11_halfnormal (l : ℝ) {σ : ℝ} (hσ : 0 < σ) :
    IsLogDensity (fun x => halfnormalLogprob (fin x) (fin l) (fin σ))
      ((gaussianReal 0 1).map fun z => l + σ * |z|) ∧
    ∀ x, IsNegInf (halfnormalLogprob (fin x) (fin l) (fin σ)) ↔ x < l := by
  have hmap : (gaussianReal 0 1).map (fun z => l + σ * |z|) =
      (gaussianReal l (σ ^ 2).toNNReal).map (fun x => l + |x - l|) := by
    have h1 : gaussianReal l (σ ^ 2).toNNReal = (gaussianReal 0 1).map (fun z => l + σ * z) := by
      have h2 := gaussianReal_map_const_mul (μ := 0) (v := 1) σ
      have h3 := gaussianReal_map_const_add (μ := σ * 0) (v := NNReal.mk (σ ^ 2) (sq_nonneg _) * 1) l
      rw [← h2, Measure.map_map (by fun_prop) (by fun_prop)] at h3
      rw [show (fun z => l + σ * z) = ((fun x => l + x) ∘ fun x => σ * x) from rfl, h3]
      congr 1
      · ring
      · ext; simp [sq_nonneg]
    rw [h1, Measure.map_map (by fun_prop) (by fun_prop)]
    congr 1
    funext z
    simp [abs_mul, abs_of_pos hσ]
  refine ⟨⟨fun x => ?_, fun s hs => ?_⟩, fun x => ?_⟩
  · rcases le_or_gt l x with h | h
    · rw [halfnormal_eval_ge hσ h]; exact clean_fin _
    · rw [halfnormal_eval_lt hσ h]; exact clean_ninf
  · rw [hmap, gaussianReal_of_var_ne_zero _ (toNNReal_sq_ne hσ), map_fold_withDensity l _ hs]
    · refine lintegral_congr fun x => ?_
      rcases le_or_gt l x with h | h
      · rw [halfnormal_eval_ge hσ h, dens_log, indicator_of_mem (mem_Ici.2 h), ENNReal.ofReal_mul (by norm_num)]
        · simp [gaussianPDF]
        · have := gaussianPDFReal_pos l (σ ^ 2).toNNReal x (toNNReal_sq_ne hσ)
          positivity
      · rw [halfnormal_eval_lt hσ h, indicator_of_notMem (by simpa using h)]; rfl
    · intro x
      simp only [gaussianPDF, gaussianPDFReal]
      congr 4
      ring
  · rcases le_or_gt l x with h | h
    · rw [halfnormal_eval_ge hσ h]; simp [IsNegInf, h]
    · rw [halfnormal_eval_lt hσ h]; simp [IsNegInf, h]

example := C11_halfnormal 1 (σ := 1 / 2) (by norm_num)

/-- **C13** For `μ > 0`, `exp (exponential logprob)` is the density of the exponential law with mean `μ`
(rate `1/μ`); `-inf` exactly on negative values. -/
theorem C13_exponential {μ : ℝ} (hμ : 0 < μ) :
    IsLogDensity (fun x => exponentialLogprob (fin x) (fin μ)) (expMeasure μ⁻¹) ∧
    ∀ x, IsNegInf (exponentialLogprob (fin x) (fin μ)) ↔ x < 0 := by
  have hlaw : expMeasure μ⁻¹ = volume.withDensity (exponentialPDF μ⁻¹) := rfl
  constructor
  · rw [hlaw]
    refine IsLogDensity.of_withDensity (fun x => ?_) (.of_forall fun x => ?_)
    · rcases le_or_gt 0 x with h | h
      · rw [exponential_eval_nonneg hμ h]; exact clean_fin _
      · rw [exponential_eval_neg hμ h]; exact clean_ninf
    · rcases le_or_gt 0 x with h | h
      · rw [exponential_eval_nonneg hμ h, dens_log (by positivity), exponentialPDF_of_nonneg h]
      · rw [exponential_eval_neg hμ h, exponentialPDF_of_neg h]; rfl
  · intro x
    rcases le_or_gt 0 x with h | h
    · rw [exponential_eval_nonneg hμ h]; simp [IsNegInf, h]
    · rw [exponential_eval_neg hμ h]; simp [IsNegInf, h]

example := C13_exponential (μ := 3) (by norm_num)

/-- **C14** For `b > 0`, `exp (Laplace logprob)` is the density of the Laplace law: the equal-weight mixture of
`μ + b E` and `μ - b E` with `E` standard exponential. -/
theorem C14_laplace (μ : ℝ) {b : ℝ} (hb : 0 < b) :
    IsLogDensity (fun x => laplaceLogprob (fin x) (fin μ) (fin b))
      ((2 : ℝ≥0∞)⁻¹ • (expMeasure 1).map (fun e => μ + b * e) +
        (2 : ℝ≥0∞)⁻¹ • (expMeasure 1).map (fun e => μ - b * e)) := by
  have hlaw : expMeasure 1 = volume.withDensity (exponentialPDF 1) := rfl
  have hm : Measurable (exponentialPDF 1) := (measurable_exponentialPDFReal 1).ennreal_ofReal
  refine ⟨fun x => ?_, fun s hs => ?_⟩
  · rw [laplace_eval x μ hb]; exact clean_fin _
  · have e1 : (expMeasure 1).map (fun e => μ + b * e) s =
        ∫⁻ y in s, ENNReal.ofReal |b⁻¹| * exponentialPDF 1 ((y - μ) / b) := by
      rw [hlaw]
      refine map_withDensity_of_inverse_univ (h := fun y => (y - μ) / b) (h' := fun _ => b⁻¹) (by fun_prop)
        (fun y => ?_) (fun y => by field_simp; ring) ?_ hs
      · have := ((hasDerivAt_id y).sub_const μ).div_const b
        simpa using this
      · rw [show range (fun y => (y - μ) / b) = univ from
          eq_univ_of_forall fun x => ⟨μ + b * x, by simp [hb.ne']⟩]
        simp
    have e2 : (expMeasure 1).map (fun e => μ - b * e) s =
        ∫⁻ y in s, ENNReal.ofReal |-b⁻¹| * exponentialPDF 1 ((μ - y) / b) := by
      rw [hlaw]
      refine map_withDensity_of_inverse_univ (h := fun y => (μ - y) / b) (h' := fun _ => -b⁻¹) (by fun_prop)
        (fun y => ?_) (fun y => by field_simp; ring) ?_ hs
      · have := ((hasDerivAt_id y).const_sub μ).div_const b
        simpa [neg_div] using this
      · rw [show range (fun y => (μ - y) / b) = univ from
          eq_univ_of_forall fun x => ⟨μ - b * x, by simp [hb.ne']⟩]
        simp
    rw [Measure.add_apply, Measure.smul_apply, Measure.smul_apply, e1, e2, smul_eq_mul, smul_eq_mul,
      ← lintegral_const_mul' _ _ (by simp), ← lintegral_const_mul' _ _ (by simp), ← lintegral_add_left]
    · refine lintegral_congr_ae (ae_restrict_of_ae (ae_of_forall_ne μ fun x hx => ?_))
      beta_reduce
      rw [laplace_eval x μ hb, dens_log (by positivity), abs_neg, abs_of_pos (inv_pos.2 hb)]
      have h2 : (2 : ℝ≥0∞)⁻¹ = ENNReal.ofReal 2⁻¹ := by
        rw [ENNReal.ofReal_inv_of_pos (by norm_num)]; simp
      rcases lt_or_gt_of_ne hx with h | h
      · rw [exponentialPDF_of_neg (div_neg_of_neg_of_pos (sub_neg.2 h) hb),
          exponentialPDF_of_nonneg (div_nonneg (sub_nonneg.2 h.le) hb.le), mul_zero, mul_zero, zero_add, h2,
          ← ENNReal.ofReal_mul (by positivity), ← ENNReal.ofReal_mul (by positivity), abs_of_neg (sub_neg.2 h)]
        congr 1
        rw [show -(1 * ((μ - x) / b)) = - -(x - μ) / b by field_simp; ring, mul_inv]
        ring
      · rw [exponentialPDF_of_neg (div_neg_of_neg_of_pos (sub_neg.2 h) hb),
          exponentialPDF_of_nonneg (div_nonneg (sub_nonneg.2 h.le) hb.le), mul_zero, mul_zero, add_zero, h2,
          ← ENNReal.ofReal_mul (by positivity), ← ENNReal.ofReal_mul (by positivity), abs_of_pos (sub_pos.2 h)]
        congr 1
        rw [show -(1 * ((x - μ) / b)) = -(x - μ) / b by ring, mul_inv]
        ring
    · exact (((hm.comp (by fun_prop : Measurable fun y : ℝ => (y - μ) / b))).const_mul _).const_mul _

example := C14_laplace 1 (b := 5) (by norm_num)

/-- **C15** For `σ > 0`, `exp (log-normal logprob)` is the density of `exp N(μ, σ²)`; `-inf` exactly on values `≤ 0`. -/
theorem C15_lognormal (μ : ℝ) {σ : ℝ} (hσ : 0 < σ) :
    IsLogDensity (fun x => lognormalLogprob (fin x) (fin μ) (fin σ))
      ((gaussianReal μ (σ ^ 2).toNNReal).map Real.exp) ∧
    ∀ x, IsNegInf (lognormalLogprob (fin x) (fin μ) (fin σ)) ↔ x ≤ 0 := by
  refine ⟨⟨fun x => ?_, fun s hs => ?_⟩, fun x => ?_⟩
  · rcases le_or_gt x 0 with h | h
    · rw [lognormal_eval_nonpos μ hσ h]; exact clean_ninf
    · rw [lognormal_eval_pos μ hσ h]; exact clean_fin _
  · rw [gaussianReal_of_var_ne_zero _ (toNNReal_sq_ne hσ),
      map_withDensity_of_inverse (h := Real.log) (h' := fun y => y⁻¹) (t := Ioi 0) measurableSet_Ioi
        Real.measurable_exp (fun y hy => Real.hasDerivAt_log (ne_of_gt hy)) (fun y hy => Real.exp_log hy) _ hs]
    · refine lintegral_congr fun x => ?_
      rcases le_or_gt x 0 with h | h
      · rw [lognormal_eval_nonpos μ hσ h, indicator_of_notMem (by simpa using h)]; rfl
      · rw [lognormal_eval_pos μ hσ h, indicator_of_mem (mem_Ioi.2 h), dens_log, abs_of_pos (inv_pos.2 h),
          gaussianPDF, ENNReal.ofReal_mul (by positivity)]
        have := gaussianPDFReal_pos μ (σ ^ 2).toNNReal (Real.log x) (toNNReal_sq_ne hσ)
        positivity
    · rw [show Real.log '' Ioi 0 = univ from
        eq_univ_of_forall fun x => ⟨Real.exp x, Real.exp_pos x, Real.log_exp x⟩]
      simp
  · rcases le_or_gt x 0 with h | h
    · rw [lognormal_eval_nonpos μ hσ h]; simp [IsNegInf, h]
    · rw [lognormal_eval_pos μ hσ h]; simp [IsNegInf, h]

example := C15_lognormal (-1) (σ := 2) (by norm_num)

/-- **C16** For `a, m > 0`, `exp (Pareto logprob)` is the density of the Pareto law with shape `a` and scale `m`;
`-inf` exactly below `m`. -/
theorem C16_pareto {a m : ℝ} (ha : 0 < a) (hm : 0 < m) :
    IsLogDensity (fun x => paretoLogprob (fin x) (fin a) (fin m)) (paretoMeasure m a) ∧
    ∀ x, IsNegInf (paretoLogprob (fin x) (fin a) (fin m)) ↔ x < m := by
  constructor
  · refine IsLogDensity.of_withDensity (fun x => ?_) (.of_forall fun x => ?_)
    · rcases le_or_gt m x with h | h
      · rw [pareto_eval_ge ha hm h]; exact clean_fin _
      · rw [pareto_eval_lt ha hm h]; exact clean_ninf
    · rcases le_or_gt m x with h | h
      · rw [pareto_eval_ge ha hm h, dens_log (paretoPDFReal_pos hm ha h)]; rfl
      · rw [pareto_eval_lt ha hm h, paretoPDF_of_lt h]; rfl
  · intro x
    rcases le_or_gt m x with h | h
    · rw [pareto_eval_ge ha hm h]; simp [IsNegInf, h]
    · rw [pareto_eval_lt ha hm h]; simp [IsNegInf, h]

example := C16_pareto (a := 3) (m := 2) (by norm_num) (by norm_num)

/-- **C17** For `b > 0`, `exp (Cauchy logprob)` is the density of the Cauchy law with location `a` and scale `b`. -/
theorem C17_cauchy (a : ℝ) {b : ℝ} (hb : 0 < b) :
    IsLogDensity (fun x => cauchyLogprob (fin x) (fin a) (fin b)) (cauchyMeasure a b.toNNReal) ∧
    ∀ x, ∃ r, cauchyLogprob (fin x) (fin a) (fin b) = .ok (fin r) := by
  refine ⟨?_, fun x => ⟨_, cauchy_eval x a hb⟩⟩
  rw [cauchyMeasure_of_scale_ne_zero _ (toNNReal_ne hb)]
  refine IsLogDensity.of_withDensity (fun x => ?_) (.of_forall fun x => ?_)
  · rw [cauchy_eval x a hb]; exact clean_fin _
  · rw [cauchy_eval x a hb, dens_log (cauchyPDF_pos _ (toNNReal_ne hb) _)]; rfl

example := C17_cauchy 1 (b := 2) (by norm_num)

/-- **C18** For `b > 0`, `exp (half-Cauchy logprob)` is the density of `l + |C|` with `C` a centred Cauchy variable of
scale `b`; `-inf` exactly below `l`. -/
theorem C18_halfcauchy (l : ℝ) {b : ℝ} (hb : 0 < b) :
    IsLogDensity (fun x => halfcauchyLogprob (fin x) (fin l) (fin b))
      ((cauchyMeasure 0 b.toNNReal).map fun c => l + |c|) ∧
    ∀ x, IsNegInf (halfcauchyLogprob (fin x) (fin l) (fin b)) ↔ x < l := by
  have hm0 : Measurable (cauchyPDF l b.toNNReal) := measurable_cauchyPDF _ _
  have hmap : (cauchyMeasure 0 b.toNNReal).map (fun c => l + |c|) =
      (volume.withDensity (cauchyPDF l b.toNNReal)).map (fun x => l + |x - l|) := by
    have h1 : (cauchyMeasure 0 b.toNNReal).map (fun c => l + c) = volume.withDensity (cauchyPDF l b.toNNReal) := by
      rw [cauchyMeasure_of_scale_ne_zero _ (toNNReal_ne hb)]
      ext s hs
      rw [map_withDensity_of_inverse_univ (h := fun y => y - l) (h' := fun _ => 1) (by fun_prop)
        (fun y => by simpa using (hasDerivAt_id y).sub_const l) (fun y => by ring) _ hs,
        withDensity_apply _ hs]
      · refine lintegral_congr fun x => ?_
        simp [cauchyPDF, cauchyPDFReal]
      · rw [show range (fun y => y - l) = univ from eq_univ_of_forall fun x => ⟨x + l, by simp⟩]
        simp
    rw [← h1, Measure.map_map (by fun_prop) (by fun_prop)]
    congr 1
    funext z
    simp
  refine ⟨⟨fun x => ?_, fun s hs => ?_⟩, fun x => ?_⟩
  · rcases le_or_gt l x with h | h
    · rw [halfcauchy_eval_ge hb h]; exact clean_fin _
    · rw [halfcauchy_eval_lt hb h]; exact clean_ninf
  · rw [hmap, map_fold_withDensity l _ hs]
    · refine lintegral_congr fun x => ?_
      rcases le_or_gt l x with h | h
      · rw [halfcauchy_eval_ge hb h, dens_log, indicator_of_mem (mem_Ici.2 h), ENNReal.ofReal_mul (by norm_num)]
        · simp [cauchyPDF]
        · have := cauchyPDF_pos l (toNNReal_ne hb) x
          positivity
      · rw [halfcauchy_eval_lt hb h, indicator_of_notMem (by simpa using h)]; rfl
    · intro x
      simp only [cauchyPDF, cauchyPDFReal]
      congr 4
      ring
  · rcases le_or_gt l x with h | h
    · rw [halfcauchy_eval_ge hb h]; simp [IsNegInf, h]
    · rw [halfcauchy_eval_lt hb h]; simp [IsNegInf, h]

example := C18_halfcauchy 1 (b := 7) (by norm_num)

end Verif
