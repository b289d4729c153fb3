import Verif.Props.Dirichlet
import Verif.Props.Simplex
import Mathlib.MeasureTheory.Function.Jacobian
import Mathlib.Logic.Equiv.Fin.Rotate

/-! # The Dirichlet law as the image of a density under the simplex transform -/

namespace Verif
open FVal MeasureTheory ProbabilityTheory ENNReal Set

variable {n : ℕ}

/-- The parts of a Dirichlet vector in another order. -/
theorem dirichletLaw_perm {N : ℕ} (τ : Equiv.Perm (Fin N)) {α : Fin N → ℝ} (hα : ∀ i, 0 < α i) :
    dirichletLaw α = (dirichletLaw fun i => α (τ.symm i)).map fun z i => z (τ i) := by
  have hm : Measurable fun (g : Fin N → ℝ) i => g i / ∑ j, g j := by fun_prop
  have hτ : Measurable fun (z : Fin N → ℝ) i => z (τ i) := by fun_prop
  haveI : ∀ i, IsProbabilityMeasure (gammaMeasure (α i) 1) := fun i => isProbabilityMeasure_gammaMeasure (hα i) one_pos
  have hpi : (Measure.pi fun i => gammaMeasure (α i) 1) = (Measure.pi fun i => gammaMeasure (α (τ.symm i)) 1).map fun z i => z (τ i) := by
    refine Measure.pi_eq fun s hs => ?_
    rw [Measure.map_apply hτ (MeasurableSet.univ_pi hs)]
    have : (fun (z : Fin N → ℝ) i => z (τ i)) ⁻¹' univ.pi s = univ.pi fun i => s (τ.symm i) := by
      ext z
      simp only [mem_preimage, mem_univ_pi]
      exact ⟨fun h i => by simpa using h (τ.symm i), fun h i => by simpa using h (τ i)⟩
    rw [this, Measure.pi_pi]
    exact Equiv.prod_comp τ.symm fun i => (gammaMeasure (α i) 1) (s i)
  rw [dirichletLaw, dirichletLaw, Measure.map_map hτ hm, hpi, Measure.map_map hm hτ]
  congr 1
  funext z i
  simp only [Function.comp_apply]
  rw [Equiv.sum_comp τ z]

theorem dirichletPDF_perm {N : ℕ} (τ : Equiv.Perm (Fin N)) (α z : Fin N → ℝ) : dirichletPDF (fun i => α (τ.symm i)) z = dirichletPDF α fun i => z (τ i) := by
  rw [dirichletPDF, dirichletPDF, Equiv.sum_comp τ.symm α, ← Equiv.prod_comp τ]
  simp only [Equiv.symm_apply_apply]

open Classical in
/-- As `dirichletLaw_apply`, with the last entry determined by the others. -/
theorem dirichletLaw_snoc {α : Fin (n + 1) → ℝ} (hα : ∀ i, 0 < α i) {s : Set (Fin (n + 1) → ℝ)} (hs : MeasurableSet s) :
    dirichletLaw α s = ∫⁻ y in (fun y : Fin n → ℝ => (Fin.snoc y (1 - ∑ j, y j) : Fin (n + 1) → ℝ)) ⁻¹' s,
      if ∀ i, 0 ≤ (Fin.snoc y (1 - ∑ j, y j) : Fin (n + 1) → ℝ) i then ENNReal.ofReal (dirichletPDF α (Fin.snoc y (1 - ∑ j, y j))) else 0 := by
  set τ := finRotate (n + 1)
  have hτ : Measurable fun (z : Fin (n + 1) → ℝ) i => z (τ i) := by fun_prop
  have e : ∀ y : Fin n → ℝ, (Fin.snoc y (1 - ∑ j, y j) : Fin (n + 1) → ℝ) = fun i => simplexPoint y (τ i) := fun y => Fin.snoc_eq_cons_rotate _ _
  rw [dirichletLaw_perm τ hα, Measure.map_apply hτ hs, dirichletLaw_apply (fun i => hα _) (hτ hs)]
  simp only [e]
  refine lintegral_congr fun y => ?_
  rw [dirichletPDF_perm]
  refine if_congr ⟨fun h i => h (τ i), fun h i => by simpa using h (τ.symm i)⟩ rfl rfl

theorem dirichlet_prob {N : ℕ} {α : Fin N → ℝ} (hα : ∀ i, 0 < α i) : IsProbabilityMeasure (dirichletLaw α) := by
  haveI : ∀ i, IsProbabilityMeasure (gammaMeasure (α i) 1) := fun i => isProbabilityMeasure_gammaMeasure (hα i) one_pos
  exact Measure.isProbabilityMeasure_map (by fun_prop)

/-- With probability one, all entries are positive. -/
theorem dirichlet_pos {α : Fin (n + 1) → ℝ} (hα : ∀ i, 0 < α i) : ∀ᵐ x ∂(dirichletLaw α), ∀ i, 0 < x i := by
  have hm : Measurable fun (g : Fin (n + 1) → ℝ) i => g i / ∑ j, g j := by fun_prop
  haveI : ∀ i, IsProbabilityMeasure (gammaMeasure (α i) 1) := fun i => isProbabilityMeasure_gammaMeasure (hα i) one_pos
  have hset : MeasurableSet {x : Fin (n + 1) → ℝ | ∀ i, 0 < x i} := by
    have : {x : Fin (n + 1) → ℝ | ∀ i, 0 < x i} = univ.pi fun _ => Ioi 0 := by ext; simp
    rw [this]
    exact MeasurableSet.univ_pi fun _ => measurableSet_Ioi
  rw [dirichletLaw, ae_map_iff hm.aemeasurable hset]
  have h1 : ∀ i, ∀ᵐ x ∂(gammaMeasure (α i) 1), 0 < x := fun i => by
    have hg : Measurable (gammaPDF (α i) 1) := (measurable_gammaPDFReal _ _).ennreal_ofReal
    rw [gammaMeasure, ae_withDensity_iff hg]
    filter_upwards [Measure.ae_ne volume (0 : ℝ)] with x h0 hx
    rcases lt_or_gt_of_ne h0 with h | h
    · exact absurd (gammaPDF_of_neg h) hx
    · exact h
  have h2 : ∀ᵐ g ∂(Measure.pi fun i => gammaMeasure (α i) 1), ∀ i, 0 < g i := ae_all_iff.2 fun i => (Measure.quasiMeasurePreserving_eval _ i).ae (h1 i)
  filter_upwards [h2] with g hg i
  exact div_pos (hg i) (Finset.sum_pos (fun j _ => hg j) ⟨0, Finset.mem_univ _⟩)

/-- The density on the transformed scale. -/
noncomputable def sxDens (α : Fin (n + 1) → ℝ) (y : Fin n → ℝ) : ENNReal := ENNReal.ofReal ((n + 1) * ∏ i, sxB y i) * ENNReal.ofReal (dirichletPDF α (sxB y))

theorem sxB_continuous : Continuous (sxB (n := n)) := by
  have hz : Continuous (sxZ (n := n)) := by unfold sxZ; fun_prop
  refine continuous_pi fun i => ?_
  refine Fin.lastCases ?_ (fun j => ?_) i
  · have : (fun y : Fin n → ℝ => sxB y (Fin.last n)) = fun y => Real.exp (-∑ j, y j) / sxZ y := by funext y; simp [sxB]
    rw [this]
    exact (by fun_prop : Continuous fun y : Fin n → ℝ => Real.exp (-∑ j, y j)).div hz fun y => (sxZ_pos y).ne'
  · have : (fun y : Fin n → ℝ => sxB y j.castSucc) = fun y => Real.exp (y j) / sxZ y := by funext y; simp [sxB]
    rw [this]
    exact (by fun_prop : Continuous fun y : Fin n → ℝ => Real.exp (y j)).div hz fun y => (sxZ_pos y).ne'

theorem sxDens_measurable (α : Fin (n + 1) → ℝ) : Measurable (sxDens α) := by
  have hc := sxB_continuous (n := n)
  have hm : Measurable (dirichletPDF α) := by unfold dirichletPDF; fun_prop
  unfold sxDens
  refine Measurable.mul ?_ (hm.comp hc.measurable).ennreal_ofReal
  exact (continuous_const.mul (continuous_finset_prod _ fun i _ => (continuous_apply i).comp hc)).measurable.ennreal_ofReal

theorem dirichlet_eq_map {α : Fin (n + 1) → ℝ} (hα : ∀ i, 0 < α i) : dirichletLaw α = ((volume : Measure (Fin n → ℝ)).withDensity (sxDens α)).map sxB := by
  classical
  set P : Set (Fin (n + 1) → ℝ) := {x | ∀ i, 0 < x i} with hP
  have hPm : MeasurableSet P := by
    have : P = univ.pi fun _ => Ioi 0 := by ext; simp [hP]
    rw [this]
    exact MeasurableSet.univ_pi fun _ => measurableSet_Ioi
  set φ : (Fin n → ℝ) → Fin n → ℝ := fun y i => sxB y i.castSucc with hφ
  set pt : (Fin n → ℝ) → Fin (n + 1) → ℝ := fun y => Fin.snoc y (1 - ∑ j, y j) with hpt
  have hptφ : ∀ y, pt (φ y) = sxB y := by
    intro y
    funext i
    refine Fin.lastCases ?_ (fun j => ?_) i
    · have := (sxB_mem y).2
      rw [Fin.sum_univ_castSucc] at this
      simp only [hpt, hφ, Fin.snoc_last]
      linarith
    · simp [hpt, hφ, Fin.snoc_castSucc]
  refine Measure.ext fun s hs => ?_
  rw [Measure.map_apply sxB_continuous.measurable hs, withDensity_apply _ (sxB_continuous.measurable hs)]
  have e1 : dirichletLaw α s = dirichletLaw α (s ∩ P) := by
    refine measure_congr ?_
    filter_upwards [dirichlet_pos hα] with x hx
    exact propext ⟨fun h => ⟨h, hx⟩, fun h => h.1⟩
  rw [e1, dirichletLaw_snoc hα (hs.inter hPm)]
  have e2 : pt ⁻¹' (s ∩ P) = φ '' (sxB ⁻¹' s) := by
    ext y
    constructor
    · rintro ⟨h1, h2⟩
      have hmem : pt y ∈ openSimplex (n + 1) := ⟨h2, by rw [Fin.sum_univ_castSucc]; simp [hpt]⟩
      refine ⟨sxF (pt y), ?_, ?_⟩
      · show sxB (sxF (pt y)) ∈ s
        rw [sxB_sxF _ hmem]; exact h1
      · funext i
        show sxB (sxF (pt y)) i.castSucc = y i
        rw [sxB_sxF _ hmem]
        simp [hpt, Fin.snoc_castSucc]
    · rintro ⟨z, hz, rfl⟩
      show pt (φ z) ∈ s ∩ P
      rw [hptφ]
      exact ⟨hz, (sxB_mem z).1⟩
  have hinj : InjOn φ (sxB ⁻¹' s) := fun a _ b _ hab => by
    have : sxB a = sxB b := by rw [← hptφ a, ← hptφ b, hab]
    rw [← sxF_sxB a, ← sxF_sxB b, this]
  show ∫⁻ y in pt ⁻¹' (s ∩ P), _ = _
  rw [e2, lintegral_image_eq_lintegral_abs_det_fderiv_mul volume (sxB_continuous.measurable hs) (fun y _ => (sxB_hasFDerivAt y).hasFDerivWithinAt) hinj]
  refine setLIntegral_congr_fun (sxB_continuous.measurable hs) fun y _ => ?_
  have hpos : 0 < ((n : ℝ) + 1) * ∏ i, sxB y i := mul_pos (by positivity) (Finset.prod_pos fun i _ => (sxB_mem y).1 i)
  have hy : (Fin.snoc (fun i : Fin n => sxB y i.castSucc) (1 - ∑ j : Fin n, sxB y j.castSucc) : Fin (n + 1) → ℝ) = sxB y := hptφ y
  simp only [hφ, hy]
  rw [if_pos fun i => ((sxB_mem y).1 i).le, LinearMap.det_toContinuousLinearMap, LinearMap.det_toLin', sxJ_det, abs_of_pos hpos, sxDens]

theorem sxB_embedding : MeasurableEmbedding (sxB (n := n)) :=
  sxB_continuous.measurableEmbedding fun a b h => by rw [← sxF_sxB a, ← sxF_sxB b, h]

/-- The factors of the density: the log-probability at the value taken back, and the Jacobian term. -/
theorem sxDens_eq {α : Fin (n + 1) → ℝ} (hα : ∀ i, 0 < α i) (y : Fin n → ℝ) : sxDens α y = (simplexLogJacDet (vec y)).toDens * dens (dirichletAt α (sxB y)) := by
  obtain ⟨h1, h2⟩ := sxB_mem y
  have hle : ∀ i, sxB y i ≤ 1 := fun i => by rw [← h2]; exact Finset.single_le_sum (fun i _ => (h1 i).le) (Finset.mem_univ i)
  have hpos : 0 < ((n : ℝ) + 1) * ∏ i, sxB y i := mul_pos (by positivity) (Finset.prod_pos fun i _ => h1 i)
  have hpdf : 0 < dirichletPDF α (sxB y) := mul_pos (Real.Gamma_pos_of_pos (Finset.sum_pos (fun i _ => hα i) ⟨0, Finset.mem_univ _⟩))
    (Finset.prod_pos fun i _ => div_pos (Real.rpow_pos_of_pos (h1 i) _) (Real.Gamma_pos_of_pos (hα i)))
  rw [logJac_eq, dirichletAt_pos hα fun i => ⟨h1 i, hle i⟩, dens_log hpdf, toDens, Real.exp_log hpos, sxDens]

end Verif
