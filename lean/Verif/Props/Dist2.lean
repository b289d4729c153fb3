import Verif.Lemmas.Dist2
import Verif.Lemmas.CdfTools

/-!
# C12, C19-C21, C23, C25-C27: beta, gamma family, Weibull, triangular, Gumbel, logistic
-/

namespace Verif
open FVal MeasureTheory ProbabilityTheory ENNReal Set

/-- **C12** For `α, β > 0`, `exp (beta logprob)` is the density of the `Beta(α, β)` law; `-inf` outside `[0, 1]`; never NaN,
also at the end points. -/
theorem C12_beta {α β : ℝ} (hα : 0 < α) (hβ : 0 < β) :
    IsLogDensity (fun x => betaLogprob (fin x) (fin α) (fin β)) (betaMeasure α β) ∧
    ∀ x, x ∉ Icc (0 : ℝ) 1 → IsNegInf (betaLogprob (fin x) (fin α) (fin β)) := by
  constructor
  · refine IsLogDensity.of_withDensity (fun x => ?_) ?_
    · by_cases h : 0 ≤ x ∧ x ≤ 1
      · rcases h.1.lt_or_eq with h0 | h0
        · rcases h.2.lt_or_eq with h1 | h1
          · rw [beta_eval_in hα hβ h0 h1]; exact clean_fin _
          · exact beta_clean_boundary hα hβ (.inr h1)
        · exact beta_clean_boundary hα hβ (.inl h0.symm)
      · rw [beta_eval_out hα hβ h]; exact clean_ninf
    · have h0 : ∀ᵐ x : ℝ, x ≠ 0 := ae_of_forall_ne 0 fun x hx => hx
      have h1 : ∀ᵐ x : ℝ, x ≠ 1 := ae_of_forall_ne 1 fun x hx => hx
      filter_upwards [h0, h1] with x hx0 hx1
      by_cases h : 0 ≤ x ∧ x ≤ 1
      · have h0 := lt_of_le_of_ne h.1 hx0.symm
        have h1 := lt_of_le_of_ne h.2 hx1
        rw [beta_eval_in hα hβ h0 h1, dens_log (betaPDFReal_pos h0 h1 hα hβ)]; rfl
      · rw [beta_eval_out hα hβ h]
        rw [not_and_or, not_le, not_le] at h
        rcases h with h | h
        · rw [betaPDF_eq_zero_of_nonpos h.le]; rfl
        · rw [betaPDF_eq_zero_of_one_le h.le]; rfl
  · intro x hx
    exact beta_eval_out hα hβ (by simpa using hx)

example := C12_beta (α := 1 / 2) (β := 1) (by norm_num) (by norm_num)

/-- **C19** (density part) For shape `α > 0` and scale `θ > 0`, `exp (gamma logprob)` is the density of the gamma law with
that shape and rate `1/θ`; `-inf` on negative values. -/
theorem C19_gamma_partial {α θ : ℝ} (hα : 0 < α) (hθ : 0 < θ) :
    IsLogDensity (fun x => gammaLogprob (fin x) (fin α) (fin θ)) (gammaMeasure α (1 / θ)) ∧
    ∀ x, x < 0 → IsNegInf (gammaLogprob (fin x) (fin α) (fin θ)) := by
  have hr : 0 < 1 / θ := by positivity
  refine ⟨IsLogDensity.of_withDensity (fun x => ?_) (ae_of_forall_ne 0 fun x hx => ?_), fun x hx => gamma_eval_neg hα hθ hx⟩
  · rcases lt_trichotomy x 0 with h | rfl | h
    · rw [gamma_eval_neg hα hθ h]; exact clean_ninf
    · exact gamma_clean_zero hα hθ
    · rw [gamma_eval_pos hα hθ h]; exact clean_fin _
  · rcases lt_or_gt_of_ne hx with h | h
    · rw [gamma_eval_neg hα hθ h, gammaPDF_of_neg h]; rfl
    · rw [gamma_eval_pos hα hθ h, dens_log (gammaPDFReal_pos hα hr h)]; rfl

example := C19_gamma_partial (α := 2) (θ := 3) (by norm_num) (by norm_num)

/-- **C19, refuted clause** "every parameter pair the check accepts is a valid one" is false: scale `0` (which is not a valid
scale) is accepted, because the check is made on `1/scale = +inf`; the result at any positive value is NaN. -/
theorem C19_gamma_accepts_scale_zero {x α : ℝ} (hα : 0 < α) (hx : 0 < x) :
    gammaLogprob (fin x) (fin α) (fin 0) = .ok nan := by
  rw [gammaLogprob, reciprocal_zero, checkParam_ok (by simp [hα, gt, lt])]
  beta_reduce
  rw [switch_pos (by simp [hx.le])]
  have : xlogy0 (fin α) pinf = pinf := by simp [xlogy0, switch, eq, infMul_pos hα]
  fv [gammaln_fin_pos hα, this, fin_add_pinf, pinf_mul_fin, infMul_pos hx, pinf_sub_pinf, nan_add]

example := C19_gamma_accepts_scale_zero (x := 1) (α := 2) (by norm_num) (by norm_num)

/-- **C20** For `α, β > 0`, `exp (inverse-gamma logprob)` is the density of `1/G`, `G` gamma with shape `α` and rate `β`; `-inf`
exactly on values `≤ 0`. -/
theorem C20_invgamma {α β : ℝ} (hα : 0 < α) (hβ : 0 < β) :
    IsLogDensity (fun x => invgammaLogprob (fin x) (fin α) (fin β)) ((gammaMeasure α β).map fun g => g⁻¹) ∧
    ∀ x, IsNegInf (invgammaLogprob (fin x) (fin α) (fin β)) ↔ x ≤ 0 := by
  refine ⟨⟨fun x => ?_, fun s hs => ?_⟩, fun x => ?_⟩
  · rcases le_or_gt x 0 with h | h
    · rw [invgamma_eval_nonpos hα hβ h]; exact clean_ninf
    · rw [invgamma_eval_pos hα hβ h]; exact clean_fin _
  · rw [gammaMeasure, map_withDensity_of_inverse (h := fun y => y⁻¹) (h' := fun y => -(y ^ 2)⁻¹) (t := Ioi 0)
      measurableSet_Ioi (by fun_prop) (fun y hy => hasDerivAt_inv (ne_of_gt hy)) (fun y hy => by simp) _ hs]
    · refine lintegral_congr fun x => ?_
      rcases le_or_gt x 0 with h | h
      · rw [invgamma_eval_nonpos hα hβ h, indicator_of_notMem (by simpa using h)]; rfl
      · have := gammaPDFReal_pos hα hβ (inv_pos.2 h)
        rw [invgamma_eval_pos hα hβ h, indicator_of_mem (mem_Ioi.2 h), dens_log (by positivity), abs_neg,
          abs_of_pos (by positivity), gammaPDF, ENNReal.ofReal_mul (by positivity)]
    · have : (fun y : ℝ => y⁻¹) '' Ioi 0 = Ioi 0 := by
        ext x; constructor
        · rintro ⟨y, hy, rfl⟩; exact inv_pos.2 (mem_Ioi.1 hy)
        · intro hx; exact ⟨x⁻¹, mem_Ioi.2 (inv_pos.2 (mem_Ioi.1 hx)), inv_inv x⟩
      rw [this, compl_Ioi, withDensity_apply _ measurableSet_Iic, setLIntegral_congr Iio_ae_eq_Iic.symm]
      exact lintegral_gammaPDF_of_nonpos le_rfl
  · rcases le_or_gt x 0 with h | h
    · rw [invgamma_eval_nonpos hα hβ h]; simp [IsNegInf, h]
    · rw [invgamma_eval_pos hα hβ h]; simp [IsNegInf, h]

example := C20_invgamma (α := 2) (β := 3) (by norm_num) (by norm_num)

/-- **C21** For `ν > 0`, `exp (chi-square logprob)` is the density of the gamma law with shape `ν/2` and rate `1/2`
(scale 2). -/
theorem C21_chisquare {ν : ℝ} (hν : 0 < ν) :
    IsLogDensity (fun x => chisquareLogprob (fin x) (fin ν)) (gammaMeasure (ν / 2) (1 / 2)) ∧
    ∀ x, x < 0 → IsNegInf (chisquareLogprob (fin x) (fin ν)) := by
  have h := C19_gamma_partial (α := ν / 2) (θ := 2) (by positivity) (by norm_num)
  have e : ∀ x, chisquareLogprob (fin x) (fin ν) = gammaLogprob (fin x) (fin (ν / 2)) (fin 2) := fun x => by
    rw [chisquareLogprob, ofNat_eq, div_fin _ (by norm_num)]
  simpa only [e] using h

example := C21_chisquare (ν := 5) (by norm_num)

theorem expMeasure_one_null : (volume.withDensity (exponentialPDF 1)) (Ioi 0)ᶜ = 0 := by
  rw [compl_Ioi, withDensity_apply _ measurableSet_Iic, setLIntegral_congr Iio_ae_eq_Iic.symm]
  exact lintegral_gammaPDF_of_nonpos le_rfl

/-- **C23** (all values except `0` when `c = 1`) For `c > 0`, `exp (Weibull logprob)` is the density of `E^(1/c)`, `E` standard
exponential; it never raises, is NaN at most at `x = 0` for `c = 1`, and is `-inf` on negative values. -/
theorem C23_weibull_partial {c : ℝ} (hc : 0 < c) :
    (∀ x, ¬(x = 0 ∧ c = 1) → Clean (weibullLogprob (fin x) (fin c))) ∧
    (∀ s, MeasurableSet s → ∫⁻ x in s, dens (weibullLogprob (fin x) (fin c))
      = ((expMeasure 1).map fun e => e ^ (1 / c)) s) ∧
    ∀ x, x < 0 → IsNegInf (weibullLogprob (fin x) (fin c)) := by
  refine ⟨fun x hx => ?_, fun s hs => ?_, fun x hx => weibull_eval_neg hc hx⟩
  · rcases lt_trichotomy x 0 with h | rfl | h
    · rw [weibull_eval_neg hc h]; exact clean_ninf
    · rw [weibull_zero hc]
      have : c ≠ 1 := fun h => hx ⟨rfl, h⟩
      by_cases h1 : c < 1
      · simp only [h1, if_true]; exact clean_pinf
      · simp only [h1, this, if_false]; exact clean_ninf
    · rw [weibull_eval_pos hc h]; exact clean_fin _
  · rw [show expMeasure 1 = volume.withDensity (exponentialPDF 1) from rfl,
      map_withDensity_of_inverse (h := fun y => y ^ c) (h' := fun y => c * y ^ (c - 1)) (t := Ioi 0)
      measurableSet_Ioi (by fun_prop) (fun y hy => Real.hasDerivAt_rpow_const (.inl (ne_of_gt hy)))
      (fun y hy => by
        rw [← Real.rpow_mul (le_of_lt hy), mul_one_div_cancel hc.ne', Real.rpow_one]) _ hs]
    · refine lintegral_congr_ae (ae_restrict_of_ae (ae_of_forall_ne 0 fun x hx => ?_))
      beta_reduce
      rcases lt_or_gt_of_ne hx with h | h
      · rw [weibull_eval_neg hc h, indicator_of_notMem (by simpa using h.le)]; rfl
      · rw [weibull_eval_pos hc h, indicator_of_mem (mem_Ioi.2 h), dens_log (by positivity),
          exponentialPDF_of_nonneg (by positivity), abs_of_pos (by positivity), ← ENNReal.ofReal_mul (by positivity)]
        simp
    · have : (fun y : ℝ => y ^ c) '' Ioi 0 = Ioi 0 := by
        ext x; constructor
        · rintro ⟨y, hy, rfl⟩; exact Real.rpow_pos_of_pos hy c
        · intro hx
          refine ⟨x ^ (1 / c), Real.rpow_pos_of_pos hx _, ?_⟩
          beta_reduce
          rw [← Real.rpow_mul (le_of_lt hx), one_div_mul_cancel hc.ne', Real.rpow_one]
      rw [this]
      exact expMeasure_one_null

example := C23_weibull_partial (c := 2) (by norm_num)

/-- **C23, refuted clause** "never NaN" is false: for `c = 1` (the standard exponential law, density `1` at `0`) the value
`0` gives NaN. -/
theorem C23_weibull_nan_at_zero : weibullLogprob (fin 0) (fin 1) = .ok nan := by
  rw [weibull_zero one_pos]; simp

/-- **C26** For `β > 0`, `exp (Gumbel logprob)` is the density of `μ - β log E`, `E` standard exponential. -/
theorem C26_gumbel (μ : ℝ) {β : ℝ} (hβ : 0 < β) :
    IsLogDensity (fun x => gumbelLogprob (fin x) (fin μ) (fin β))
      ((expMeasure 1).map fun e => μ - β * Real.log e) := by
  have hd : ∀ y, HasDerivAt (fun y => Real.exp (-((y - μ) / β))) (-(β⁻¹ * Real.exp (-((y - μ) / β)))) y := by
    intro y
    have := (((hasDerivAt_id' y).sub_const μ).div_const β).fun_neg.exp
    exact this.congr_deriv (by ring)
  refine ⟨fun x => ?_, fun s hs => ?_⟩
  · rw [gumbel_eval x μ hβ]; exact clean_fin _
  · rw [show expMeasure 1 = volume.withDensity (exponentialPDF 1) from rfl,
      map_withDensity_of_inverse_univ (h := fun y => Real.exp (-((y - μ) / β)))
      (by fun_prop) hd (fun y => by rw [Real.log_exp]; field_simp; ring) _ hs]
    · refine lintegral_congr fun x => ?_
      rw [gumbel_eval x μ hβ, dens_log (by positivity), abs_neg, abs_of_pos (by positivity),
        exponentialPDF_of_nonneg (by positivity), ← ENNReal.ofReal_mul (by positivity)]
      simp
    · have : range (fun y => Real.exp (-((y - μ) / β))) = Ioi 0 := by
        ext x; constructor
        · rintro ⟨y, rfl⟩; exact Real.exp_pos _
        · intro hx
          refine ⟨μ - β * Real.log x, ?_⟩
          beta_reduce
          rw [show -((μ - β * Real.log x - μ) / β) = Real.log x by field_simp; ring, Real.exp_log hx]
      rw [this]
      exact expMeasure_one_null

example := C26_gumbel 1 (β := 2) (by norm_num)

/-- The law of `μ + s log (U/(1-U))`, `U` uniform on `(0,1)`, has the logistic distribution function. -/
theorem logistic_cdf (μ : ℝ) {s : ℝ} (hs : 0 < s) (x : ℝ) :
    ((volume.restrict (Ioo (0 : ℝ) 1)).map fun u => μ + s * Real.log (u / (1 - u))) (Iic x)
      = ENNReal.ofReal (1 / (1 + Real.exp (-(x - μ) / s))) := by
  have hφ : Measurable fun u : ℝ => μ + s * Real.log (u / (1 - u)) := by fun_prop
  rw [Measure.map_apply hφ measurableSet_Iic, Measure.restrict_apply (hφ measurableSet_Iic)]
  set e := Real.exp (-(x - μ) / s) with he
  have hep : 0 < e := Real.exp_pos _
  have hset : (fun u : ℝ => μ + s * Real.log (u / (1 - u))) ⁻¹' Iic x ∩ Ioo 0 1 = Ioc 0 (1 / (1 + e)) := by
    ext u
    simp only [mem_inter_iff, mem_preimage, mem_Iic, mem_Ioo, mem_Ioc]
    have key : ∀ u, 0 < u → u < 1 → (μ + s * Real.log (u / (1 - u)) ≤ x ↔ u ≤ 1 / (1 + e)) := by
      intro u h0 h1
      have h1' : 0 < 1 - u := by linarith
      rw [show (μ + s * Real.log (u / (1 - u)) ≤ x) ↔ Real.log (u / (1 - u)) ≤ (x - μ) / s by
        rw [le_div_iff₀ hs]; constructor <;> intro h <;> linarith,
        Real.log_le_iff_le_exp (by positivity), div_le_iff₀ h1',
        show Real.exp ((x - μ) / s) = e⁻¹ by rw [he, ← Real.exp_neg]; congr 1; ring,
        le_div_iff₀ (by positivity), ← sub_nonneg, ← sub_nonneg (b := u * (1 + e))]
      rw [show e⁻¹ * (1 - u) - u = e⁻¹ * (1 - u * (1 + e)) by field_simp; ring]
      exact mul_nonneg_iff_of_pos_left (inv_pos.2 hep)
    constructor
    · rintro ⟨h, h0, h1⟩; exact ⟨h0, (key u h0 h1).1 h⟩
    · rintro ⟨h0, h⟩
      have h1 : u < 1 := h.trans_lt (by rw [div_lt_one (by positivity)]; linarith)
      exact ⟨(key u h0 h1).2 h, h0, h1⟩
  rw [hset, Real.volume_Ioc, sub_zero]

/-- **C27** For `s > 0`, `exp (logistic logprob)` is the density of a law (that of `μ + s log (U/(1-U))`, `U` uniform) whose
distribution function is `1/(1+exp(-(x-μ)/s))` and whose total mass is one. -/
theorem C27_logistic (μ : ℝ) {s : ℝ} (hs : 0 < s) :
    ∃ law : Measure ℝ, IsLogDensity (fun x => logisticLogprob (fin x) (fin μ) (fin s)) law ∧
      (∀ x, law (Iic x) = ENNReal.ofReal (1 / (1 + Real.exp (-(x - μ) / s)))) ∧ law univ = 1 := by
  have hd : ∀ y, HasDerivAt (fun y => 1 / (1 + Real.exp (-((y - μ) / s))))
      (s⁻¹ * (Real.exp (-((y - μ) / s)) / (1 + Real.exp (-((y - μ) / s))) ^ 2)) y := by
    intro y
    have h1 := ((((hasDerivAt_id' y).sub_const μ).div_const s).fun_neg.exp).const_add 1
    have h2 := h1.fun_inv (by positivity)
    simp only [one_div] at h2 ⊢
    exact h2.congr_deriv (by ring)
  refine ⟨(volume.restrict (Ioo (0 : ℝ) 1)).map fun u => μ + s * Real.log (u / (1 - u)),
    ⟨fun x => ?_, fun t ht => ?_⟩, logistic_cdf μ hs, ?_⟩
  · rw [logistic_eval x μ hs]; exact clean_fin _
  · have hr : (volume.restrict (Ioo (0 : ℝ) 1)) = volume.withDensity ((Ioo (0 : ℝ) 1).indicator 1) :=
      (withDensity_indicator_one measurableSet_Ioo).symm
    have hlt : ∀ y, 1 / (1 + Real.exp (-((y - μ) / s))) ∈ Ioo (0 : ℝ) 1 := fun y => by
      have := Real.exp_pos (-((y - μ) / s))
      exact ⟨by positivity, by rw [div_lt_one (by positivity)]; linarith⟩
    rw [hr, map_withDensity_of_inverse_univ (h := fun y => 1 / (1 + Real.exp (-((y - μ) / s))))
      (by fun_prop) hd (fun y => ?_) ?_ ht]
    · refine lintegral_congr fun x => ?_
      rw [logistic_eval x μ hs, dens_log (by positivity), abs_of_pos (by positivity), indicator_of_mem (hlt x)]
      simp
    · have : range (fun y => 1 / (1 + Real.exp (-((y - μ) / s)))) = Ioo 0 1 := by
        refine Subset.antisymm (range_subset_iff.2 hlt) fun u hu => ?_
        have h1 : 0 < 1 - u := by linarith [hu.2]
        have h0 := hu.1
        refine ⟨μ + s * Real.log (u / (1 - u)), ?_⟩
        beta_reduce
        rw [show -((μ + s * Real.log (u / (1 - u)) - μ) / s) = -Real.log (u / (1 - u)) by field_simp; ring,
          Real.exp_neg, Real.exp_log (by positivity)]
        field_simp; ring
      rw [this, ← hr]
      simp
    · have := Real.exp_pos (-((y - μ) / s))
      rw [show 1 / (1 + Real.exp (-((y - μ) / s))) / (1 - 1 / (1 + Real.exp (-((y - μ) / s))))
        = (Real.exp (-((y - μ) / s)))⁻¹ by field_simp; simp, Real.log_inv, Real.log_exp]
      field_simp; ring
  · rw [Measure.map_apply (by fun_prop) MeasurableSet.univ]
    simp

example := C27_logistic (-1) (s := 2) (by norm_num)

end Verif
