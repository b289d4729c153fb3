import Mathlib.MeasureTheory.Integral.Marginal
import Mathlib.MeasureTheory.Measure.WithDensity

/-! # Marginal integrals of a density: averaging over some of the variables, given the others -/

namespace Verif.Posterior
open MeasureTheory Function

variable {X : ℕ → Type} [∀ i, MeasurableSpace (X i)] {μ : ∀ i, Measure (X i)} [∀ i, SigmaFinite (μ i)] {F O : Finset ℕ} {G φ c : (∀ i, X i) → ENNReal}

/-- A factor that does not depend on the variables of `F` comes out of the integral over them. -/
theorem lmarginal_mul_fixed (hG : Measurable G) (hc : ∀ x y, (∀ i ∉ F, x i = y i) → c x = c y) (x : ∀ i, X i) :
    (∫⋯∫⁻_F, (fun x => G x * c x) ∂μ) x = (∫⋯∫⁻_F, G ∂μ) x * c x := by
  have h1 : ∀ y : (i : F) → X i, c (updateFinset x F y) = c x := fun y => hc _ _ fun i hi => by simp [updateFinset, hi]
  simp only [lmarginal, h1]
  exact lintegral_mul_const _ (hG.comp measurable_updateFinset)

theorem lmarginal_zero_mul (hG : Measurable G) {x : ∀ i, X i} (h : (∫⋯∫⁻_F, G ∂μ) x = 0) : (∫⋯∫⁻_F, (fun x => G x * φ x) ∂μ) x = 0 := by
  simp only [lmarginal] at h ⊢
  have h := (lintegral_eq_zero_iff (show Measurable fun y => G (updateFinset x F y) from hG.comp measurable_updateFinset)).1 h
  rw [show (0 : ENNReal) = ∫⁻ _ : (i : F) → X i, 0 ∂Measure.pi fun i : F => μ i by simp]
  refine lintegral_congr_ae ?_
  filter_upwards [h] with y hy
  simp only [Pi.zero_apply] at hy
  simp [hy]

/-- Averaging `φ` over the variables of `F` with weights `G` does not change the integral against `G`. -/
theorem lmarginal_average (hFO : Disjoint O F) (hG : Measurable G) (hφ : Measurable φ) {x : ∀ i, X i} (hfin : (∫⋯∫⁻_O ∪ F, G ∂μ) x ≠ ⊤) :
    (∫⋯∫⁻_O ∪ F, (fun x => G x * ((∫⋯∫⁻_F, (fun x => G x * φ x) ∂μ) x / (∫⋯∫⁻_F, G ∂μ) x)) ∂μ) x = (∫⋯∫⁻_O ∪ F, (fun x => G x * φ x) ∂μ) x := by
  have hN : Measurable (∫⋯∫⁻_F, (fun x => G x * φ x) ∂μ) := (hG.mul hφ).lmarginal μ
  have hZ : Measurable (∫⋯∫⁻_F, G ∂μ) := hG.lmarginal μ
  rw [lmarginal_union μ (fun x => G x * ((∫⋯∫⁻_F, (fun x => G x * φ x) ∂μ) x / (∫⋯∫⁻_F, G ∂μ) x)) (hG.mul (hN.div hZ)) hFO, lmarginal_union μ (fun x => G x * φ x) (hG.mul hφ) hFO]
  rw [lmarginal_union μ _ hG hFO] at hfin
  have e : (∫⋯∫⁻_F, (fun x => G x * ((∫⋯∫⁻_F, (fun x => G x * φ x) ∂μ) x / (∫⋯∫⁻_F, G ∂μ) x)) ∂μ) =
      fun x => (∫⋯∫⁻_F, G ∂μ) x * ((∫⋯∫⁻_F, (fun x => G x * φ x) ∂μ) x / (∫⋯∫⁻_F, G ∂μ) x) := by
    funext x
    refine lmarginal_mul_fixed hG (fun x y h => ?_) x
    rw [lmarginal_congr μ _ h, lmarginal_congr μ _ h]
  rw [e]
  have hlt := ae_lt_top (hZ.comp (measurable_updateFinset (s := O) (x := x))) hfin
  refine lintegral_congr_ae ?_
  filter_upwards [hlt] with y hy
  rcases eq_or_ne ((∫⋯∫⁻_F, G ∂μ) (updateFinset x O y)) 0 with h0 | h0
  · rw [lmarginal_zero_mul hG h0, h0, zero_mul]
  · exact ENNReal.mul_div_cancel h0 hy.ne

open Classical in
/-- The integral of `G` over the variables of `F` is almost surely positive and finite. -/
theorem lmarginal_normaliser (hFO : Disjoint O F) (hG : Measurable G) {x : ∀ i, X i} (hfin : (∫⋯∫⁻_O ∪ F, G ∂μ) x ≠ ⊤) :
    (∫⋯∫⁻_O ∪ F, (fun x => G x * if (∫⋯∫⁻_F, G ∂μ) x = 0 ∨ (∫⋯∫⁻_F, G ∂μ) x = ⊤ then 1 else 0) ∂μ) x = 0 := by
  have hZ : Measurable (∫⋯∫⁻_F, G ∂μ) := hG.lmarginal μ
  have hm : Measurable fun x => if (∫⋯∫⁻_F, G ∂μ) x = 0 ∨ (∫⋯∫⁻_F, G ∂μ) x = ⊤ then (1 : ENNReal) else 0 :=
    Measurable.ite ((hZ (measurableSet_singleton 0)).union (hZ (measurableSet_singleton ⊤))) measurable_const measurable_const
  rw [lmarginal_union μ (fun x => G x * if (∫⋯∫⁻_F, G ∂μ) x = 0 ∨ (∫⋯∫⁻_F, G ∂μ) x = ⊤ then 1 else 0) (hG.mul hm) hFO]
  rw [lmarginal_union μ _ hG hFO] at hfin
  have e : (∫⋯∫⁻_F, (fun x => G x * if (∫⋯∫⁻_F, G ∂μ) x = 0 ∨ (∫⋯∫⁻_F, G ∂μ) x = ⊤ then 1 else 0) ∂μ) =
      fun x => (∫⋯∫⁻_F, G ∂μ) x * if (∫⋯∫⁻_F, G ∂μ) x = 0 ∨ (∫⋯∫⁻_F, G ∂μ) x = ⊤ then 1 else 0 := by
    funext x
    refine lmarginal_mul_fixed hG (fun x y h => ?_) x
    rw [lmarginal_congr μ _ h]
  rw [e]
  have hlt := ae_lt_top (hZ.comp (measurable_updateFinset (s := O) (x := x))) hfin
  rw [lmarginal, show (0 : ENNReal) = ∫⁻ _ : (i : O) → X i, 0 ∂Measure.pi fun i : O => μ i by simp]
  refine lintegral_congr_ae ?_
  filter_upwards [hlt] with y hy
  rcases eq_or_ne ((∫⋯∫⁻_F, G ∂μ) (updateFinset x O y)) 0 with h0 | h0
  · simp [h0]
  · have := hy.ne
    simp only [comp_apply] at this
    simp [h0, this]

end Verif.Posterior
