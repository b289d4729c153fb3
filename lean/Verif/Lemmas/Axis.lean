import Verif.Model.Cumsum
import Verif.Spec.Axis

/-! # `normAxis` reads axes as NumPy does -/

namespace Verif

theorem normAxis_iff {axis : ℤ} {n a : ℕ} : normAxis axis n = .ok a ↔ AxisIs axis n a := by
  unfold normAxis AxisIs
  split_ifs with h1 h2
  · rw [Except.ok.injEq]; omega
  · rw [Except.ok.injEq]; omega
  · constructor
    · intro h; cases h
    · omega

theorem normAxis_error {axis : ℤ} {n : ℕ} : (∃ e, normAxis axis n = .error e) ↔ ∀ a, ¬ AxisIs axis n a := by
  constructor
  · rintro ⟨e, h⟩ a ha
    rw [normAxis_iff.2 ha] at h
    cases h
  · intro h
    cases hn : normAxis axis n with
    | error e => exact ⟨e, rfl⟩
    | ok a => exact absurd (normAxis_iff.1 hn) (h a)

end Verif
