import Verif.Lemmas.Dist2
import Mathlib.MeasureTheory.Measure.Prod
import Mathlib.MeasureTheory.Measure.WithDensityFinite

/-! # C35: Student-t distribution -/

namespace Verif
open FVal MeasureTheory ProbabilityTheory ENNReal Set

/-- Normalising factor of the scale mixture at a point. -/
noncomputable def tMixConst (ν s z : ℝ) : ℝ :=
  (ν / 2) ^ (ν / 2) / Real.Gamma (ν / 2) * ((√(2 * Real.pi))⁻¹ * s⁻¹) *
    (Real.Gamma ((ν + 1) / 2) / ((ν + z ^ 2) / 2) ^ ((ν + 1) / 2))

theorem tMixConst_pos {ν s : ℝ} (z : ℝ) (hν : 0 < ν) (hs : 0 < s) : 0 < tMixConst ν s z := by
  have h1 := Real.Gamma_pos_of_pos (by positivity : 0 < ν / 2)
  have h2 := Real.Gamma_pos_of_pos (by positivity : 0 < (ν + 1) / 2)
  have h3 : 0 < (ν + z ^ 2) / 2 := by positivity
  unfold tMixConst
  positivity

theorem studentt_eval (x l : ℝ) {ν s : ℝ} (hν : 0 < ν) (hs : 0 < s) :
    studenttLogprob (fin x) (fin ν) (fin l) (fin s) = .ok (fin (Real.log (tMixConst ν s ((x - l) / s)))) := by
  set z := (x - l) / s with hz
  have h1 := Real.Gamma_pos_of_pos (by positivity : 0 < ν / 2)
  have h2 := Real.Gamma_pos_of_pos (by positivity : 0 < (ν + 1) / 2)
  have h3 : 0 < (ν + z ^ 2) / 2 := by positivity
  have h4 : 0 < 1 + z ^ 2 / ν := by positivity
  have h2π : (0 : ℝ) < 2 * Real.pi := by positivity
  have hπ := Real.pi_pos
  have hp : 0 < Real.pi * ν * s ^ 2 := by positivity
  have e3 : (ν + z ^ 2) / 2 = ν / 2 * (1 + z ^ 2 / ν) := by field_simp
  have key : Real.log (tMixConst ν s z) = Real.log (Real.Gamma ((ν + 1) / 2)) - Real.log (Real.Gamma (ν / 2))
      - 1 / 2 * Real.log (Real.pi * ν * s ^ 2) - (ν + 1) / 2 * Real.log (1 + z ^ 2 / ν) := by
    have l1 : Real.log (Real.pi * ν * s ^ 2) = Real.log Real.pi + Real.log ν + 2 * Real.log s := by
      rw [Real.log_mul (by positivity) (by positivity), Real.log_mul hπ.ne' hν.ne', Real.log_pow]; push_cast; ring
    have l2 : Real.log ((ν + z ^ 2) / 2) = Real.log ν - Real.log 2 + Real.log (1 + z ^ 2 / ν) := by
      rw [e3, Real.log_mul (by positivity) h4.ne', Real.log_div hν.ne' two_ne_zero]
    have l3 : Real.log √(2 * Real.pi) = (Real.log 2 + Real.log Real.pi) / 2 := by
      rw [Real.log_sqrt h2π.le, Real.log_mul two_ne_zero hπ.ne']
    have l4 : Real.log (ν / 2) = Real.log ν - Real.log 2 := Real.log_div hν.ne' two_ne_zero
    rw [l1, tMixConst, Real.log_mul (by positivity) (by positivity), Real.log_mul (by positivity) (by positivity),
      Real.log_div (by positivity) h1.ne', Real.log_div h2.ne' (by positivity), Real.log_rpow (by positivity),
      Real.log_rpow h3, Real.log_mul (by positivity) (by positivity), Real.log_inv, Real.log_inv, l2, l3, l4]
    ring
  rw [studenttLogprob, checkParam_ok (by simp [hs.le]), key]
  fv [half, div_fin _ hs.ne', div_fin _ hν.ne', div_fin _ (two_ne_zero (α := ℝ)),
    gammaln_fin_pos (by positivity : 0 < ν / 2),
    gammaln_fin_pos (by positivity : 0 < (ν + 1) / 2), log_fin_pos hp]
  rw [← hz]
  fv [log1p_fin_pos h4]

/-- The mixture integrand is a constant times a gamma density. -/
theorem tMix_integrand {ν s g : ℝ} (z : ℝ) (hν : 0 < ν) (hs : 0 < s) (hg : 0 < g) :
    gammaPDFReal (ν / 2) (ν / 2) g * (√g / s * gaussianPDFReal 0 1 (z * √g)) =
      tMixConst ν s z * gammaPDFReal ((ν + 1) / 2) ((ν + z ^ 2) / 2) g := by
  have h1 := Real.Gamma_pos_of_pos (by positivity : 0 < ν / 2)
  have h2 := Real.Gamma_pos_of_pos (by positivity : 0 < (ν + 1) / 2)
  have h3 : 0 < (ν + z ^ 2) / 2 := by positivity
  have h2π : (0 : ℝ) < √(2 * Real.pi) := Real.sqrt_pos.2 (by positivity)
  have hr : 0 < ((ν + z ^ 2) / 2) ^ ((ν + 1) / 2) := by positivity
  have e1 : g ^ ((ν + 1) / 2 - 1) = g ^ (ν / 2 - 1) * √g := by
    rw [Real.sqrt_eq_rpow, ← Real.rpow_add hg]; congr 1; ring
  have e2 : Real.exp (-((ν + z ^ 2) / 2 * g)) = Real.exp (-(ν / 2 * g)) * Real.exp (-(z * √g) ^ 2 / 2) := by
    rw [← Real.exp_add]; congr 1
    rw [mul_pow, Real.sq_sqrt hg.le]; ring
  rw [tMixConst, gammaPDFReal, gammaPDFReal, if_pos hg.le, if_pos hg.le, gaussianPDFReal_def]
  beta_reduce
  simp only [NNReal.coe_one, mul_one, sub_zero]
  rw [e1, e2]
  field_simp

/-- **C35** (`df > 0`, `scale > 0`) `exp (Student-t logprob)` is the density of `loc + scale * Z / √G` with `Z` standard normal and,
independently, `G` gamma with shape and rate `df/2` (a chi-square variable divided by its degrees of freedom): the Student-t law. In
particular the total mass is one.  Finite everywhere. -/
theorem C35_studentt_partial (l : ℝ) {ν s : ℝ} (hν : 0 < ν) (hs : 0 < s) :
    IsLogDensity (fun x => studenttLogprob (fin x) (fin ν) (fin l) (fin s))
      (((gaussianReal 0 1).prod (gammaMeasure (ν / 2) (ν / 2))).map fun p => l + s * p.1 / √p.2) ∧
    ∀ x, ∃ r, studenttLogprob (fin x) (fin ν) (fin l) (fin s) = .ok (fin r) := by
  refine ⟨⟨fun x => ?_, fun A hA => ?_⟩, fun x => ⟨_, studentt_eval x l hν hs⟩⟩
  · rw [studentt_eval x l hν hs]; exact clean_fin _
  have : IsProbabilityMeasure (gammaMeasure (ν / 2) (ν / 2)) :=
    isProbabilityMeasure_gammaMeasure (by positivity) (by positivity)
  have hφ : Measurable fun p : ℝ × ℝ => l + s * p.1 / √p.2 := by fun_prop
  have hgm : Measurable (gammaPDF (ν / 2) (ν / 2)) := (measurable_gammaPDFReal _ _).ennreal_ofReal
  have hnm : Measurable (gaussianPDF 0 1) := measurable_gaussianPDF _ _
  rw [Measure.map_apply hφ hA, Measure.prod_apply_symm (hφ hA), gammaMeasure,
    lintegral_withDensity_eq_lintegral_mul _ hgm (measurable_measure_prodMk_right (hφ hA))]
  have step : ∀ g : ℝ, 0 < g →
      (gaussianReal 0 1) ((fun z => (z, g)) ⁻¹' ((fun p : ℝ × ℝ => l + s * p.1 / √p.2) ⁻¹' A)) =
        ∫⁻ x in A, ENNReal.ofReal (√g / s) * gaussianPDF 0 1 ((x - l) / s * √g) := by
    intro g hg
    have hsg : 0 < √g := Real.sqrt_pos.2 hg
    have := map_withDensity_of_inverse_univ (f := gaussianPDF 0 1) (φ := fun z => l + s * z / √g)
      (h := fun x => (x - l) / s * √g) (h' := fun _ => √g / s) (by fun_prop)
      (fun y => by
        have := (((hasDerivAt_id' y).sub_const l).div_const s).mul_const √g
        exact this.congr_deriv (by ring))
      (fun y => by field_simp; ring)
      (by
        rw [show range (fun x => (x - l) / s * √g) = univ from
          eq_univ_of_forall fun x => ⟨l + s * x / √g, by field_simp; ring⟩]
        simp) hA
    rw [← gaussianReal_of_var_ne_zero _ one_ne_zero, Measure.map_apply (by fun_prop) hA] at this
    simp only [abs_of_pos (div_pos hsg hs)] at this
    exact this
  have hae : ∀ᵐ g : ℝ, (gammaPDF (ν / 2) (ν / 2) * fun g =>
        (gaussianReal 0 1) ((fun z => (z, g)) ⁻¹' ((fun p : ℝ × ℝ => l + s * p.1 / √p.2) ⁻¹' A))) g =
      ∫⁻ x in A, gammaPDF (ν / 2) (ν / 2) g *
        (ENNReal.ofReal (√g / s) * gaussianPDF 0 1 ((x - l) / s * √g)) := by
    refine ae_of_forall_ne 0 fun g hg => ?_
    rcases lt_or_gt_of_ne hg with h | h
    · simp [gammaPDF_of_neg h]
    · rw [Pi.mul_apply, step g h]
      exact (lintegral_const_mul' _ _ (by simp [gammaPDF])).symm
  rw [lintegral_congr_ae hae, lintegral_lintegral_swap]
  · refine lintegral_congr fun x => ?_
    set z := (x - l) / s
    have hin : ∀ᵐ g : ℝ, gammaPDF (ν / 2) (ν / 2) g * (ENNReal.ofReal (√g / s) * gaussianPDF 0 1 (z * √g)) =
        ENNReal.ofReal (tMixConst ν s z) * gammaPDF ((ν + 1) / 2) ((ν + z ^ 2) / 2) g := by
      refine ae_of_forall_ne 0 fun g hg => ?_
      rcases lt_or_gt_of_ne hg with h | h
      · simp [gammaPDF_of_neg h]
      · rw [gammaPDF, gaussianPDF, gammaPDF, ← ENNReal.ofReal_mul (by positivity),
          ← ENNReal.ofReal_mul (gammaPDFReal_nonneg (by positivity) (by positivity) _),
          ← ENNReal.ofReal_mul (tMixConst_pos z hν hs).le, tMix_integrand z hν hs h]
    rw [lintegral_congr_ae hin, lintegral_const_mul' _ _ (by simp),
      lintegral_gammaPDF_eq_one (by positivity) (by positivity), mul_one, studentt_eval x l hν hs,
      dens_log (tMixConst_pos _ hν hs)]
  · refine Measurable.aemeasurable ?_
    simp only [Function.uncurry_def]
    refine Measurable.mul (hgm.comp measurable_fst) (Measurable.mul (by fun_prop) (hnm.comp (by fun_prop)))

example := C35_studentt_partial 1 (ν := 3) (s := 2) (by norm_num) (by norm_num)

/-- **C35, refuted clause** the check accepts `scale = 0` and any `df`, and the result can then be NaN: with `scale = 0` at
`x = loc`, and with a negative `df` at every value.  So "for every accepted parameter triple ... never NaN" is false. -/
theorem C35_studentt_accepts_invalid :
    (∀ ν l : ℝ, studenttLogprob (fin l) (fin ν) (fin l) (fin 0) = .ok nan) ∧
    (∀ x ν l s : ℝ, ν < 0 → 0 < s → studenttLogprob (fin x) (fin ν) (fin l) (fin s) = .ok nan) := by
  constructor
  · intro ν l
    rw [studenttLogprob, checkParam_ok (by simp)]
    have : (fin l - fin l : FVal) / fin 0 = nan := by simp [div_fin_zero]
    have h1 : log1p (sq (nan : FVal) / fin ν) = nan := by
      simp [log1p, FVal.sq]
    rw [this, h1]
    simp
  · intro x ν l s hν hs
    rw [studenttLogprob, checkParam_ok (by simp [hs.le])]
    have h : Real.pi * ν * s ^ 2 < 0 := by
      have : 0 < Real.pi * -ν * s ^ 2 := by
        have := neg_pos.2 hν
        positivity
      linarith
    fv [log_fin_neg h, mul_nan, sub_nan, nan_sub]

end Verif
