import Mathlib.MeasureTheory.Function.JacobianOneDim
import Mathlib.MeasureTheory.Measure.WithDensity

/-! One-dimensional change of variables for laws given by densities. -/

namespace Verif
open MeasureTheory ENNReal Set

/-- If `μ` has density `f`, is concentrated on `h '' t`, and `φ` is a left inverse of the injective differentiable
map `h` on `t`, then the image of `μ` under `φ` has density `|h'| * f ∘ h` on `t` (and `0` off `t`). -/
theorem map_withDensity_of_inverse {f : ℝ → ℝ≥0∞} {φ h h' : ℝ → ℝ} {t : Set ℝ}
    (ht : MeasurableSet t) (hφ : Measurable φ)
    (hd : ∀ y ∈ t, HasDerivAt h (h' y) y) (hinv : ∀ y ∈ t, φ (h y) = y)
    (hnull : (volume.withDensity f) (h '' t)ᶜ = 0) {s : Set ℝ} (hs : MeasurableSet s) :
    (volume.withDensity f).map φ s =
      ∫⁻ y in s, t.indicator (fun y => ENNReal.ofReal |h' y| * f (h y)) y := by
  have hinj : InjOn h t := fun a ha b hb hab => by
    rw [← hinv a ha, ← hinv b hb, hab]
  have hst : MeasurableSet (t ∩ s) := ht.inter hs
  have himg : MeasurableSet (h '' t) :=
    ht.image_of_continuousOn_injOn (fun x hx => (hd x hx).continuousAt.continuousWithinAt) hinj
  rw [Measure.map_apply hφ hs]
  have h1 : (volume.withDensity f) (φ ⁻¹' s) = (volume.withDensity f) (φ ⁻¹' s ∩ h '' t) := by
    refine le_antisymm ?_ (measure_mono inter_subset_left)
    calc (volume.withDensity f) (φ ⁻¹' s)
        ≤ (volume.withDensity f) ((φ ⁻¹' s ∩ h '' t) ∪ (h '' t)ᶜ) := by
          refine measure_mono fun x hx => ?_
          by_cases hx' : x ∈ h '' t
          · exact Or.inl ⟨hx, hx'⟩
          · exact Or.inr hx'
      _ ≤ _ := by
          refine (measure_union_le _ _).trans ?_
          rw [hnull, add_zero]
  have h2 : φ ⁻¹' s ∩ h '' t = h '' (t ∩ s) := by
    ext x
    constructor
    · rintro ⟨hx, y, hy, rfl⟩
      exact ⟨y, ⟨hy, by simpa [hinv y hy] using hx⟩, rfl⟩
    · rintro ⟨y, ⟨hy, hys⟩, rfl⟩
      exact ⟨by simpa [hinv y hy] using hys, y, hy, rfl⟩
  rw [h1, h2, withDensity_apply _ (h2 ▸ (hφ hs).inter himg),
    lintegral_image_eq_lintegral_abs_deriv_mul hst (fun y hy => (hd y hy.1).hasDerivWithinAt)
      (hinj.mono inter_subset_left),
    lintegral_indicator ht, Measure.restrict_restrict ht]

/-- Version on the whole line. -/
theorem map_withDensity_of_inverse_univ {f : ℝ → ℝ≥0∞} {φ h h' : ℝ → ℝ}
    (hφ : Measurable φ) (hd : ∀ y, HasDerivAt h (h' y) y) (hinv : ∀ y, φ (h y) = y)
    (hnull : (volume.withDensity f) (range h)ᶜ = 0) {s : Set ℝ} (hs : MeasurableSet s) :
    (volume.withDensity f).map φ s = ∫⁻ y in s, ENNReal.ofReal |h' y| * f (h y) := by
  rw [map_withDensity_of_inverse MeasurableSet.univ hφ (fun y _ => hd y) (fun y _ => hinv y)
    (by rwa [image_univ]) hs]
  simp

end Verif
