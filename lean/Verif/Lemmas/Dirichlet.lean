import Verif.Spec.Dirichlet
import Verif.Lemmas.PiDensity
import Mathlib.MeasureTheory.Measure.Lebesgue.EqHaar
import Mathlib.MeasureTheory.Group.LIntegral
import Mathlib.MeasureTheory.Measure.Prod
import Mathlib.Analysis.SpecialFunctions.Pow.Real

/-! Normalised Gamma variables have the Dirichlet density. -/

namespace Verif
open MeasureTheory ProbabilityTheory ENNReal

theorem lintegral_scale {m : ℕ} {H : (Fin m → ℝ) → ℝ≥0∞} (hH : Measurable H) {t : ℝ} (ht : 0 < t) :
    ∫⁻ y, H y = ENNReal.ofReal (t ^ m) * ∫⁻ z, H (t • z) := by
  have h1 := Measure.map_addHaar_smul (volume : Measure (Fin m → ℝ)) ht.ne'
  have h2 : ∫⁻ z, H (t • z) = ∫⁻ y, H y ∂(Measure.map (t • ·) (volume : Measure (Fin m → ℝ))) :=
    (lintegral_map hH (measurable_const_smul t)).symm
  rw [h2, h1, lintegral_smul_measure, Module.finrank_fin_fun, smul_eq_mul, ← mul_assoc,
    ← ENNReal.ofReal_mul (by positivity), abs_of_pos (by positivity), mul_inv_cancel₀ (by positivity)]
  simp

theorem measurable_simplexPoint {m : ℕ} : Measurable (simplexPoint : (Fin m → ℝ) → _) := by
  rw [measurable_pi_iff]
  intro i
  refine Fin.cases ?_ (fun j => ?_) i
  · simp only [simplexPoint, Fin.cons_zero]
    fun_prop
  · simp only [simplexPoint, Fin.cons_succ]
    fun_prop

theorem sum_simplexPoint {m : ℕ} (y : Fin m → ℝ) : ∑ i, simplexPoint y i = 1 := by
  rw [Fin.sum_univ_succ]
  simp [simplexPoint]

/-- Lebesgue integrals in polar coordinates for the sum of the entries. -/
theorem lintegral_polar {m : ℕ} {F : (Fin (m + 1) → ℝ) → ℝ≥0∞} (hF : Measurable F) (hneg : ∀ g, ∑ i, g i < 0 → F g = 0) :
    ∫⁻ g, F g = ∫⁻ t in Set.Ioi (0 : ℝ), ENNReal.ofReal (t ^ m) * ∫⁻ z, F (t • simplexPoint z) := by
  have h1 := (volume_preserving_piFinSuccAbove (fun _ : Fin (m + 1) => ℝ) 0).symm.lintegral_comp_emb
      (MeasurableEquiv.measurableEmbedding _) F
  have e : ∀ x : ℝ × (Fin m → ℝ), (MeasurableEquiv.piFinSuccAbove (fun _ : Fin (m + 1) => ℝ) 0).symm x = Fin.cons x.1 x.2 := by
    intro x
    funext i
    refine Fin.cases ?_ (fun j => ?_) i
    · rfl
    · rfl
  have hmeas : Measurable fun x : ℝ × (Fin m → ℝ) => F (Fin.cons x.1 x.2 : Fin (m + 1) → ℝ) := by
    have := hF.comp (MeasurableEquiv.piFinSuccAbove (fun _ : Fin (m + 1) => ℝ) 0).symm.measurable
    exact (funext fun x => congrArg F (e x)) ▸ this
  have hmeas2 : Measurable fun x : ℝ × (Fin m → ℝ) => F (Fin.cons (x.1 - ∑ j, x.2 j) x.2 : Fin (m + 1) → ℝ) := by
    have hm : Measurable fun x : ℝ × (Fin m → ℝ) => ((x.1 - ∑ j, x.2 j, x.2) : ℝ × (Fin m → ℝ)) := by fun_prop
    exact hmeas.comp hm
  rw [← h1]
  simp_rw [e]
  rw [Measure.volume_eq_prod, lintegral_prod_symm _ hmeas.aemeasurable]
  have h2 : ∀ y : Fin m → ℝ, ∫⁻ x, F (Fin.cons x y : Fin (m + 1) → ℝ) = ∫⁻ t, F (Fin.cons (t - ∑ j, y j) y : Fin (m + 1) → ℝ) :=
    fun y => (lintegral_sub_right_eq_self (fun x => F (Fin.cons x y : Fin (m + 1) → ℝ)) (∑ j, y j)).symm
  simp_rw [h2]
  rw [← lintegral_prod_symm (fun x : ℝ × (Fin m → ℝ) => F (Fin.cons (x.1 - ∑ j, x.2 j) x.2 : Fin (m + 1) → ℝ)) hmeas2.aemeasurable,
    lintegral_prod _ hmeas2.aemeasurable, ← lintegral_indicator measurableSet_Ioi]
  refine lintegral_congr_ae ?_
  have h0 : ∀ᵐ t : ℝ, t ≠ 0 := by
    have : (volume : Measure ℝ) {0} = 0 := by simp
    exact measure_eq_zero_iff_ae_notMem.1 this
  filter_upwards [h0] with t ht
  rcases lt_or_gt_of_ne ht with ht | ht
  · rw [Set.indicator_of_notMem (by simpa using ht.le)]
    refine (lintegral_congr fun y => hneg _ ?_).trans lintegral_zero
    rw [Fin.sum_univ_succ]
    simpa using ht
  · rw [Set.indicator_of_mem (Set.mem_Ioi.2 ht)]
    have hm : Measurable fun y : Fin m → ℝ => F (Fin.cons (t - ∑ j, y j) y : Fin (m + 1) → ℝ) :=
      hmeas2.comp (measurable_const.prodMk measurable_id)
    rw [lintegral_scale hm ht]
    congr 1
    refine lintegral_congr fun z => ?_
    congr 1
    funext i
    refine Fin.cases ?_ (fun j => ?_) i
    · simp [simplexPoint, ← Finset.mul_sum, mul_sub]
    · simp [simplexPoint]

/-- The Dirichlet density. -/
noncomputable def dirichletPDF {n : ℕ} (α : Fin n → ℝ) (x : Fin n → ℝ) : ℝ :=
  Real.Gamma (∑ i, α i) * ∏ i, x i ^ (α i - 1) / Real.Gamma (α i)

open Classical in
theorem prod_gammaPDF {m : ℕ} {α : Fin (m + 1) → ℝ} (hα : ∀ i, 0 < α i) {t : ℝ} (ht : 0 < t) (w : Fin (m + 1) → ℝ)
    (hw : ∑ i, w i = 1) :
    ENNReal.ofReal (t ^ m) * ∏ i, gammaPDF (α i) 1 ((t • w) i) =
      gammaPDF (∑ i, α i) 1 t * if ∀ i, 0 ≤ w i then ENNReal.ofReal (dirichletPDF α w) else 0 := by
  split_ifs with h
  · have hA : 0 < ∑ i, α i := Finset.sum_pos (fun i _ => hα i) ⟨0, Finset.mem_univ _⟩
    have hG : ∀ i, 0 < Real.Gamma (α i) := fun i => Real.Gamma_pos_of_pos (hα i)
    have hGA := Real.Gamma_pos_of_pos hA
    have e1 : ∀ i, gammaPDF (α i) 1 ((t • w) i) =
        ENNReal.ofReal ((w i ^ (α i - 1) / Real.Gamma (α i)) * (t ^ (α i - 1) * Real.exp (-(t * w i)))) := by
      intro i
      rw [gammaPDF_of_nonneg (by simpa using mul_nonneg ht.le (h i))]
      simp only [Pi.smul_apply, smul_eq_mul, Real.one_rpow, one_mul]
      rw [Real.mul_rpow ht.le (h i)]
      congr 1
      field_simp
    simp_rw [e1]
    have hnn : ∀ i, 0 ≤ w i ^ (α i - 1) / Real.Gamma (α i) := fun i => div_nonneg (Real.rpow_nonneg (h i) _) (hG i).le
    rw [← ENNReal.ofReal_prod_of_nonneg fun i _ => mul_nonneg (hnn i) (by positivity), gammaPDF_of_nonneg ht.le,
      ← ENNReal.ofReal_mul (by positivity), ← ENNReal.ofReal_mul (by positivity)]
    congr 1
    rw [Finset.prod_mul_distrib, Finset.prod_mul_distrib, ← Real.exp_sum, Finset.sum_neg_distrib, ← Finset.mul_sum, hw,
      ← Real.rpow_sum_of_pos ht, dirichletPDF]
    have e2 : t ^ m * t ^ (∑ i, (α i - 1)) = t ^ (∑ i, α i - 1) := by
      rw [← Real.rpow_natCast, ← Real.rpow_add ht]
      congr 1
      simp
      ring
    rw [← e2]
    simp only [Real.one_rpow, one_mul, mul_one]
    field_simp
  · rw [mul_zero]
    simp only [not_forall, not_le] at h
    obtain ⟨i, hi⟩ := h
    rw [Finset.prod_eq_zero (Finset.mem_univ i) (gammaPDF_of_neg (by simpa using mul_neg_of_pos_of_neg ht hi)), mul_zero]

open Classical in
/-- The Dirichlet law has the Dirichlet density on the simplex. -/
theorem dirichletLaw_apply {m : ℕ} {α : Fin (m + 1) → ℝ} (hα : ∀ i, 0 < α i) {s : Set (Fin (m + 1) → ℝ)} (hs : MeasurableSet s) :
    dirichletLaw α s = ∫⁻ y in simplexPoint ⁻¹' s,
      if ∀ i, 0 ≤ simplexPoint y i then ENNReal.ofReal (dirichletPDF α (simplexPoint y)) else 0 := by
  have hA : 0 < ∑ i, α i := Finset.sum_pos (fun i _ => hα i) ⟨0, Finset.mem_univ _⟩
  have hpdf : ∀ i, Measurable (gammaPDF (α i) 1) := fun i => (measurable_gammaPDFReal _ _).ennreal_ofReal
  have hnorm : Measurable fun (g : Fin (m + 1) → ℝ) i => g i / ∑ j, g j := by fun_prop
  haveI : ∀ i, SigmaFinite ((volume : Measure ℝ).withDensity (gammaPDF (α i) 1)) := fun i => by
    haveI := isProbabilityMeasure_gammaMeasure (hα i) one_pos
    show SigmaFinite (gammaMeasure (α i) 1)
    infer_instance
  have hpi : (Measure.pi fun i => gammaMeasure (α i) 1) =
      (volume : Measure (Fin (m + 1) → ℝ)).withDensity fun x => ∏ i, gammaPDF (α i) 1 (x i) := pi_withDensity hpdf
  have hprod : Measurable fun x : Fin (m + 1) → ℝ => ∏ i, gammaPDF (α i) 1 (x i) :=
    Finset.measurable_prod _ fun i _ => (hpdf i).comp (measurable_pi_apply i)
  rw [dirichletLaw, Measure.map_apply hnorm hs, hpi, withDensity_apply _ (hnorm hs), ← lintegral_indicator (hnorm hs),
    lintegral_polar (hprod.indicator (hnorm hs))]
  · set Q : (Fin m → ℝ) → ℝ≥0∞ := fun y =>
      if ∀ i, 0 ≤ simplexPoint y i then ENNReal.ofReal (dirichletPDF α (simplexPoint y)) else 0 with hQ
    have e : ∀ t ∈ Set.Ioi (0 : ℝ), ENNReal.ofReal (t ^ m) * ∫⁻ z, ((fun (g : Fin (m + 1) → ℝ) i => g i / ∑ j, g j) ⁻¹' s).indicator
        (fun x => ∏ i, gammaPDF (α i) 1 (x i)) (t • simplexPoint z) =
        gammaPDF (∑ i, α i) 1 t * ∫⁻ z in simplexPoint ⁻¹' s, Q z := by
      intro t ht
      have ht : 0 < t := ht
      have hmQ : Measurable fun z : Fin m → ℝ => ((fun (g : Fin (m + 1) → ℝ) i => g i / ∑ j, g j) ⁻¹' s).indicator
          (fun x => ∏ i, gammaPDF (α i) 1 (x i)) (t • simplexPoint z) :=
        (hprod.indicator (hnorm hs)).comp (measurable_simplexPoint.const_smul t)
      rw [← lintegral_const_mul _ hmQ, ← lintegral_indicator (measurable_simplexPoint hs), ← lintegral_const_mul']
      · refine lintegral_congr fun z => ?_
        have hsum := sum_simplexPoint z
        have hdiv : (fun i => (t • simplexPoint z) i / ∑ j, (t • simplexPoint z) j) = simplexPoint z := by
          funext i
          simp only [Pi.smul_apply, smul_eq_mul, ← Finset.mul_sum, hsum, mul_one]
          rw [mul_comm, mul_div_assoc, div_self ht.ne', mul_one]
        by_cases hz : simplexPoint z ∈ s
        · rw [Set.indicator_of_mem (by rw [Set.mem_preimage, hdiv]; exact hz), Set.indicator_of_mem (show z ∈ simplexPoint ⁻¹' s from hz),
            prod_gammaPDF hα ht _ hsum]
        · rw [Set.indicator_of_notMem (by rw [Set.mem_preimage, hdiv]; exact hz),
            Set.indicator_of_notMem (show z ∉ simplexPoint ⁻¹' s from hz), mul_zero, mul_zero]
      · exact ENNReal.ofReal_ne_top
    rw [setLIntegral_congr_fun measurableSet_Ioi e, lintegral_mul_const _ (show Measurable (gammaPDF (∑ i, α i) 1) from (measurable_gammaPDFReal _ _).ennreal_ofReal)]
    have h1 : ∫⁻ t in Set.Ioi (0 : ℝ), gammaPDF (∑ i, α i) 1 t = 1 := by
      rw [← lintegral_gammaPDF_eq_one hA one_pos, ← lintegral_indicator measurableSet_Ioi]
      refine lintegral_congr_ae ?_
      have h0 : ∀ᵐ t : ℝ, t ≠ 0 := measure_eq_zero_iff_ae_notMem.1 (show (volume : Measure ℝ) {0} = 0 by simp)
      filter_upwards [h0] with t ht
      rcases lt_or_gt_of_ne ht with ht | ht
      · rw [Set.indicator_of_notMem (by simpa using ht.le), gammaPDF_of_neg ht]
      · rw [Set.indicator_of_mem (Set.mem_Ioi.2 ht)]
    rw [h1, one_mul]
  · intro g hg
    obtain ⟨i, hi⟩ : ∃ i, g i < 0 := by
      by_contra hcon
      push Not at hcon
      exact absurd hg (not_lt.2 (Finset.sum_nonneg fun i _ => hcon i))
    by_cases hmem : g ∈ (fun (g : Fin (m + 1) → ℝ) i => g i / ∑ j, g j) ⁻¹' s
    · rw [Set.indicator_of_mem hmem, Finset.prod_eq_zero (Finset.mem_univ i) (gammaPDF_of_neg hi)]
    · rw [Set.indicator_of_notMem hmem]

/-- Almost no point of the simplex is on its boundary. -/
theorem ae_simplexPoint_ne_zero (m : ℕ) : ∀ᵐ y : Fin m → ℝ, ∀ i, simplexPoint y i ≠ 0 := by
  rw [ae_all_iff]
  intro i
  refine Fin.cases ?_ (fun j => ?_) i
  · simp only [simplexPoint, Fin.cons_zero]
    rcases Nat.eq_zero_or_pos m with rfl | hm
    · simp
    · let S : AffineSubspace ℝ (Fin m → ℝ) :=
        { carrier := {y | ∑ j, y j = 1}
          smul_vsub_vadd_mem' := by
            intro c p q r hp hq hr
            simp only [Set.mem_setOf_eq] at hp hq hr ⊢
            simp [Finset.sum_add_distrib, ← Finset.mul_sum, hp, hq, hr] }
      have hS : S ≠ ⊤ := by
        intro h
        have : (0 : Fin m → ℝ) ∈ S := by rw [h]; trivial
        have h1 : ∑ j, (0 : Fin m → ℝ) j = 1 := this
        simp at h1
      have := Measure.addHaar_affineSubspace (volume : Measure (Fin m → ℝ)) S hS
      have h2 := measure_eq_zero_iff_ae_notMem.1 this
      filter_upwards [h2] with y hy h
      exact hy (show ∑ j, y j = 1 by linarith)
  · simp only [simplexPoint, Fin.cons_succ]
    have : (volume : Measure (Fin m → ℝ)) {f | f j = 0} = 0 := Measure.pi_hyperplane (fun _ => (volume : Measure ℝ)) j 0
    exact measure_eq_zero_iff_ae_notMem.1 this

end Verif
