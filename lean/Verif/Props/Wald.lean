import Verif.Lemmas.Dist2
import Verif.Lemmas.Phi
import Verif.Lemmas.CdfTools

/-! # C22: Wald (inverse Gaussian) distribution -/

namespace Verif
open FVal MeasureTheory ProbabilityTheory ENNReal Set Filter Topology

/-- Distribution function of the inverse Gaussian law on the positive half line. -/
noncomputable def waldG (μ l x : ℝ) : ℝ :=
  Phi (√l * (√x / μ - 1 / √x)) + Real.exp (2 * l / μ) * Phi (-(√l * (√x / μ + 1 / √x)))

theorem waldG_deriv {μ l x : ℝ} (hμ : 0 < μ) (hl : 0 < l) (hx : 0 < x) :
    HasDerivAt (waldG μ l) (waldPDF μ l x) x := by
  have hsx : 0 < √x := Real.sqrt_pos.2 hx
  have hsl : 0 < √l := Real.sqrt_pos.2 hl
  have hxx : √x ^ 2 = x := Real.sq_sqrt hx.le
  have hll : √l ^ 2 = l := Real.sq_sqrt hl.le
  have d1 : HasDerivAt (fun x => √x) (1 / (2 * √x)) x := Real.hasDerivAt_sqrt hx.ne'
  have da : HasDerivAt (fun x => √l * (√x / μ - 1 / √x)) (√l * (1 / (2 * √x) / μ + 1 / (2 * √x) / √x ^ 2)) x := by
    have := ((d1.div_const μ).fun_sub (d1.fun_inv hsx.ne')).const_mul √l
    simp only [one_div] at this ⊢
    exact this.congr_deriv (by ring)
  have db : HasDerivAt (fun x => -(√l * (√x / μ + 1 / √x)))
      (-(√l * (1 / (2 * √x) / μ - 1 / (2 * √x) / √x ^ 2))) x := by
    have := (((d1.div_const μ).fun_add (d1.fun_inv hsx.ne')).const_mul √l).fun_neg
    simp only [one_div] at this ⊢
    exact this.congr_deriv (by ring)
  have h := ((hasDerivAt_Phi _).comp x da).fun_add (((hasDerivAt_Phi _).comp x db).const_mul (Real.exp (2 * l / μ)))
  refine HasDerivAt.congr_deriv (f := waldG μ l) h ?_
  have hg : Real.exp (2 * l / μ) * gaussianPDFReal 0 1 (-(√l * (√x / μ + 1 / √x)))
      = gaussianPDFReal 0 1 (√l * (√x / μ - 1 / √x)) := by
    rw [gaussianPDFReal_def]
    beta_reduce
    simp only [NNReal.coe_one, mul_one, sub_zero]
    rw [mul_left_comm, ← Real.exp_add]
    congr 2
    rw [neg_sq, mul_pow, mul_pow, hll]
    field_simp
    ring
  have h3 : √(l / (2 * Real.pi * x ^ 3)) = √l / (√(2 * Real.pi) * √x ^ 3) := by
    rw [Real.sqrt_div hl.le, Real.sqrt_mul (by positivity)]
    congr 2
    rw [show x ^ 3 = (√x ^ 3) ^ 2 by rw [← pow_mul, mul_comm 3 2, pow_mul, hxx], Real.sqrt_sq (by positivity)]
  have h2π : 0 < √(2 * Real.pi) := Real.sqrt_pos.2 (by positivity)
  rw [← mul_assoc (Real.exp _), hg]
  have hpdf : waldPDF μ l x = gaussianPDFReal 0 1 (√l * (√x / μ - 1 / √x)) * (√l / √x ^ 3) := by
    rw [waldPDF, h3, gaussianPDFReal_def]
    beta_reduce
    simp only [NNReal.coe_one, mul_one, sub_zero]
    rw [show -(√l * (√x / μ - 1 / √x)) ^ 2 / 2 = -(l * (x - μ) ^ 2) / (2 * μ ^ 2 * x) by
      rw [mul_pow, hll]
      field_simp
      rw [← hxx]
      simp only [Real.sqrt_sq hsx.le]
      ring]
    field_simp
  rw [hpdf]
  field_simp
  ring

theorem waldG_tendsto_top {μ l : ℝ} (hμ : 0 < μ) (hl : 0 < l) : Tendsto (waldG μ l) atTop (𝓝 1) := by
  have hsl : 0 < √l := Real.sqrt_pos.2 hl
  have h1 : Tendsto (fun x => √x) atTop atTop := Real.tendsto_sqrt_atTop
  have h2 : Tendsto (fun x => √x / μ) atTop atTop := h1.atTop_div_const hμ
  have h3 : Tendsto (fun x : ℝ => 1 / √x) atTop (𝓝 0) := by simpa [one_div, Function.comp_def] using tendsto_inv_atTop_zero.comp h1
  have ha : Tendsto (fun x => √l * (√x / μ - 1 / √x)) atTop atTop := by
    refine Tendsto.const_mul_atTop hsl ?_
    simpa [sub_eq_add_neg] using h2.atTop_add h3.neg
  have hb : Tendsto (fun x => -(√l * (√x / μ + 1 / √x))) atTop atBot := by
    refine tendsto_neg_atTop_atBot.comp (Tendsto.const_mul_atTop hsl ?_)
    exact h2.atTop_add h3
  have := (tendsto_Phi_atTop.comp ha).add ((tendsto_Phi_atBot.comp hb).const_mul (Real.exp (2 * l / μ)))
  simp only [mul_zero, add_zero] at this
  exact this

theorem waldG_tendsto_zero {μ l : ℝ} (hl : 0 < l) : Tendsto (waldG μ l) (𝓝[>] 0) (𝓝 0) := by
  have hsl : 0 < √l := Real.sqrt_pos.2 hl
  have h0 : Tendsto (fun x => √x) (𝓝[>] 0) (𝓝[>] 0) := by
    refine tendsto_nhdsWithin_iff.2 ⟨?_, ?_⟩
    · have : Tendsto (fun x => √x) (𝓝 0) (𝓝 √0) := Real.continuous_sqrt.continuousAt
      rw [Real.sqrt_zero] at this
      exact this.mono_left nhdsWithin_le_nhds
    · filter_upwards [self_mem_nhdsWithin] with x hx using Real.sqrt_pos.2 hx
  have h2 : Tendsto (fun x => √x / μ) (𝓝[>] 0) (𝓝 0) := by
    have := (h0.mono_right nhdsWithin_le_nhds).div_const μ
    simpa using this
  have h3 : Tendsto (fun x : ℝ => 1 / √x) (𝓝[>] 0) atTop := by simpa [one_div, Function.comp_def] using tendsto_inv_nhdsGT_zero.comp h0
  have ha : Tendsto (fun x => √l * (√x / μ - 1 / √x)) (𝓝[>] 0) atBot := by
    refine Tendsto.const_mul_atBot hsl ?_
    simpa [sub_eq_add_neg] using h2.add_atBot (tendsto_neg_atTop_atBot.comp h3)
  have hb : Tendsto (fun x => -(√l * (√x / μ + 1 / √x))) (𝓝[>] 0) atBot := by
    refine tendsto_neg_atTop_atBot.comp (Tendsto.const_mul_atTop hsl ?_)
    exact h2.add_atTop h3
  have := (tendsto_Phi_atBot.comp ha).add ((tendsto_Phi_atBot.comp hb).const_mul (Real.exp (2 * l / μ)))
  simp only [mul_zero, add_zero] at this
  exact this

theorem waldPDF_pos {μ l x : ℝ} (hl : 0 < l) (hx : 0 < x) : 0 < waldPDF μ l x := by
  unfold waldPDF; positivity

theorem wald_mass {μ l : ℝ} (hμ : 0 < μ) (hl : 0 < l) : waldMeasure μ l univ = 1 := by
  rw [waldMeasure, withDensity_apply _ MeasurableSet.univ, Measure.restrict_univ]
  have hu : ∀ x ∈ Ioi (0 : ℝ), HasDerivAt (Function.update (waldG μ l) 0 0) (waldPDF μ l x) x := fun x hx => by
    refine (waldG_deriv hμ hl hx).congr_of_eventuallyEq ?_
    filter_upwards [isOpen_Ioi.mem_nhds hx] with y hy
    rw [Function.update_of_ne (ne_of_gt hy)]
  rw [lintegral_Ioi_of_deriv (F := Function.update (waldG μ l) 0 0) (l := 1) _ hu
    (fun x hx => (waldPDF_pos hl hx).le) _]
  · simp
  · rw [continuousWithinAt_update_same]
    have : Ici (0 : ℝ) \ {0} = Ioi 0 := by ext x; simp [lt_iff_le_and_ne, eq_comm]
    rw [this]
    exact waldG_tendsto_zero hl
  · refine (waldG_tendsto_top hμ hl).congr' ?_
    filter_upwards [Ioi_mem_atTop 0] with x hx
    rw [Function.update_of_ne (ne_of_gt hx)]

/-- **C22** For `μ, scale > 0`, `exp (Wald logprob)` is the textbook inverse-Gaussian density
`sqrt(λ/(2πx³)) exp(-λ(x-μ)²/(2μ²x))` on `x > 0`, which has total mass one; never NaN, and `-inf` exactly on values `≤ 0`. -/
theorem C22_wald {μ l : ℝ} (hμ : 0 < μ) (hl : 0 < l) :
    IsLogDensity (fun x => waldLogprob (fin x) (fin μ) (fin l)) (waldMeasure μ l) ∧
    waldMeasure μ l univ = 1 ∧
    (∀ x, 0 < x → waldLogprob (fin x) (fin μ) (fin l) = .ok (fin (Real.log (waldPDF μ l x)))) ∧
    ∀ x, IsNegInf (waldLogprob (fin x) (fin μ) (fin l)) ↔ x ≤ 0 := by
  refine ⟨?_, wald_mass hμ hl, fun x hx => wald_eval_pos hμ hl hx, fun x => ?_⟩
  · rw [waldMeasure, ← withDensity_indicator measurableSet_Ioi]
    refine IsLogDensity.of_withDensity (fun x => ?_) (.of_forall fun x => ?_)
    · rcases le_or_gt x 0 with h | h
      · rw [wald_eval_nonpos hμ hl h]; exact clean_ninf
      · rw [wald_eval_pos hμ hl h]; exact clean_fin _
    · rcases le_or_gt x 0 with h | h
      · rw [wald_eval_nonpos hμ hl h, indicator_of_notMem (by simpa using h)]; rfl
      · rw [wald_eval_pos hμ hl h, dens_log (waldPDF_pos hl h), indicator_of_mem (mem_Ioi.2 h)]
  · rcases le_or_gt x 0 with h | h
    · rw [wald_eval_nonpos hμ hl h]; simp [IsNegInf, h]
    · rw [wald_eval_pos hμ hl h]; simp [IsNegInf, h]

example := C22_wald (μ := 2) (l := 3) (by norm_num) (by norm_num)

end Verif
