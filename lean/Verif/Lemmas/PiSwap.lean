import Mathlib.Probability.Independence.InfinitePi

/-! # Independent arrays: exchanging the two indices -/

namespace Verif
open MeasureTheory ProbabilityTheory

variable {ι κ : Type} [Fintype ι] [Fintype κ] {X : Type} [MeasurableSpace X]

/-- Independent arrays of independent entries, collected entry by entry. -/
theorem pi_swap (μ : ι → κ → Measure X) [∀ i j, IsProbabilityMeasure (μ i j)] :
    (Measure.pi fun i => Measure.pi fun j => μ i j).map (fun x j i => x i j) = Measure.pi fun j => Measure.pi fun i => μ i j := by
  have h1 := Measure.infinitePi_map_curry (fun i j => μ i j) (ι := ι) (κ := κ)
  have h2 := Measure.infinitePi_map_curry (fun j i => μ i j) (ι := κ) (κ := ι)
  have h3 := Measure.map_infinitePi_infinitePi_of_inj (P := fun p : ι × κ => μ p.1 p.2) (f := fun p : κ × ι => (p.2, p.1)) fun p q h => by
    simp only [Prod.mk.injEq] at h
    exact Prod.ext h.2 h.1
  simp only [Measure.infinitePi_eq_pi] at h1 h2 h3
  rw [← h1, ← h2, ← h3, Measure.map_map (by fun_prop) (by fun_prop), Measure.map_map (by fun_prop) (by fun_prop)]
  rfl

/-- Any statistic of the entries at the same place of independent arrays of independent entries is independent between places. -/
theorem pi_entrywise {Y : Type} [MeasurableSpace Y] (μ : ι → κ → Measure X) [∀ i j, IsProbabilityMeasure (μ i j)] {f : κ → (ι → X) → Y} (hf : ∀ j, Measurable (f j)) :
    (Measure.pi fun i => Measure.pi fun j => μ i j).map (fun x j => f j fun i => x i j) = Measure.pi fun j => (Measure.pi fun i => μ i j).map (f j) := by
  have : ∀ j, IsProbabilityMeasure ((Measure.pi fun i => μ i j).map (f j)) := fun j => Measure.isProbabilityMeasure_map (hf j).aemeasurable
  rw [← Measure.pi_map_pi fun j => (hf j).aemeasurable, ← pi_swap μ, Measure.map_map (by fun_prop) (by fun_prop)]
  rfl

end Verif
