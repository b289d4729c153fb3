import Mathlib.MeasureTheory.Integral.Pi
import Mathlib.MeasureTheory.Measure.WithDensity
import Mathlib.MeasureTheory.Measure.Lebesgue.Basic

/-! Products of densities. -/

namespace Verif
open MeasureTheory

theorem lintegral_fin_prod {α : Type*} [MeasurableSpace α] {n : ℕ} (μ : Fin n → Measure α) [∀ i, SigmaFinite (μ i)] {f : Fin n → α → ENNReal}
    (hf : ∀ i, Measurable (f i)) :
    ∫⁻ x : Fin n → α, ∏ i, f i (x i) ∂(Measure.pi μ) = ∏ i, ∫⁻ x, f i x ∂(μ i) := by
  induction n with
  | zero => simp
  | succ n ih =>
    have h := (measurePreserving_piFinSuccAbove μ 0).symm.lintegral_comp_emb
      (MeasurableEquiv.measurableEmbedding _) (fun x : Fin (n + 1) → α => ∏ i, f i (x i))
    rw [← h]
    have e : ∀ x : α × (Fin n → α), ∏ i, f i ((MeasurableEquiv.piFinSuccAbove (fun _ => α) 0).symm x i) =
        f 0 x.1 * ∏ i : Fin n, f i.succ (x.2 i) := fun x => by
      rw [Fin.prod_univ_succ]; rfl
    simp_rw [e]
    have hm : Measurable fun y : Fin n → α => ∏ i : Fin n, f i.succ (y i) :=
      Finset.measurable_prod _ fun (i : Fin n) _ => (hf i.succ).comp (measurable_pi_apply i)
    have hp := lintegral_prod_mul (μ := μ 0) (ν := Measure.pi fun j : Fin n => μ j.succ) (hf 0).aemeasurable hm.aemeasurable
    rw [Fin.prod_univ_succ]
    refine hp.trans ?_
    congr 1
    exact ih (fun i => μ i.succ) fun i => hf i.succ

/-- The product of laws with densities has the product density. -/
theorem pi_withDensity_of {α : Type*} [MeasurableSpace α] {n : ℕ} (ν : Fin n → Measure α) [∀ i, SigmaFinite (ν i)] {f : Fin n → α → ENNReal} (hf : ∀ i, Measurable (f i))
    [∀ i, SigmaFinite ((ν i).withDensity (f i))] :
    Measure.pi (fun i => (ν i).withDensity (f i)) = (Measure.pi ν).withDensity fun x => ∏ i, f i (x i) := by
  refine Measure.pi_eq fun s hs => ?_
  rw [withDensity_apply _ (MeasurableSet.univ_pi hs), ← lintegral_indicator (MeasurableSet.univ_pi hs)]
  have e : ∀ x : Fin n → α, (Set.univ.pi s).indicator (fun x => ∏ i, f i (x i)) x = ∏ i, (s i).indicator (f i) (x i) := by
    intro x
    by_cases h : x ∈ Set.univ.pi s
    · rw [Set.indicator_of_mem h]
      exact Finset.prod_congr rfl fun i _ => (Set.indicator_of_mem (h i trivial) _).symm
    · rw [Set.indicator_of_notMem h]
      simp only [Set.mem_univ_pi, not_forall] at h
      obtain ⟨i, hi⟩ := h
      exact (Finset.prod_eq_zero (Finset.mem_univ i) (Set.indicator_of_notMem hi _)).symm
  simp_rw [e]
  rw [lintegral_fin_prod ν fun i => (hf i).indicator (hs i)]
  refine Finset.prod_congr rfl fun i _ => ?_
  rw [withDensity_apply _ (hs i), lintegral_indicator (hs i)]

/-- The product of laws with densities has the product density. -/
theorem pi_withDensity {n : ℕ} {f : Fin n → ℝ → ENNReal} (hf : ∀ i, Measurable (f i))
    [∀ i, SigmaFinite ((volume : Measure ℝ).withDensity (f i))] :
    Measure.pi (fun i => (volume : Measure ℝ).withDensity (f i)) =
      (volume : Measure (Fin n → ℝ)).withDensity fun x => ∏ i, f i (x i) := pi_withDensity_of (fun _ => volume) hf

end Verif
