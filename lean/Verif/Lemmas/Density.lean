import Verif.Spec.Density
import Verif.Lemmas.FVal

/-! Tools for establishing `IsLogDensity` / `IsLogMass`. -/

namespace Verif
open MeasureTheory ENNReal

@[simp] theorem dens_ok (v : FVal) : dens (.ok v) = v.toDens := rfl
@[simp] theorem toDens_ninf : FVal.ninf.toDens = 0 := rfl
@[simp] theorem toDens_nan : FVal.nan.toDens = 0 := rfl
@[simp] theorem toDens_pinf : FVal.pinf.toDens = ⊤ := rfl
@[simp] theorem toDens_fin (x : ℝ) : (FVal.fin x).toDens = ENNReal.ofReal (Real.exp x) := rfl

theorem clean_fin (x : ℝ) : Clean (.ok (FVal.fin x)) := ⟨_, rfl, by simp⟩
theorem clean_ninf : Clean (.ok FVal.ninf) := ⟨_, rfl, by simp⟩
theorem clean_pinf : Clean (.ok FVal.pinf) := ⟨_, rfl, by simp⟩

theorem IsLogDensity.of_withDensity {lp : ℝ → Except Err FVal} {f : ℝ → ℝ≥0∞}
    (hc : ∀ x, Clean (lp x)) (h : ∀ᵐ x, dens (lp x) = f x) :
    IsLogDensity lp (volume.withDensity f) := by
  refine ⟨hc, fun s hs => ?_⟩
  rw [withDensity_apply _ hs]
  exact lintegral_congr_ae (ae_restrict_of_ae h)

/-- `log` of a positive number has the number as density. -/
theorem dens_log {y : ℝ} (hy : 0 < y) : dens (.ok (.fin (Real.log y))) = ENNReal.ofReal y := by
  simp [Real.exp_log hy]

theorem ae_of_forall_ne (a : ℝ) {p : ℝ → Prop} (h : ∀ x, x ≠ a → p x) : ∀ᵐ x, p x := by
  have : ∀ᵐ x : ℝ, x ≠ a := by
    rw [ae_iff]; simp
  filter_upwards [this] with x hx using h x hx

theorem dens_log_nonneg {y : ℝ} (hy : 0 ≤ y) : dens (.ok (FVal.log (.fin y))) = ENNReal.ofReal y := by
  rcases hy.lt_or_eq with h | rfl
  · rw [FVal.log_fin_pos h, dens_log h]
  · simp

theorem clean_log_nonneg {y : ℝ} (hy : 0 ≤ y) : Clean (.ok (FVal.log (.fin y))) := by
  rcases hy.lt_or_eq with h | rfl
  · rw [FVal.log_fin_pos h]; exact clean_fin _
  · rw [FVal.log_zero]; exact clean_ninf

end Verif
