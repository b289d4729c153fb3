import Verif.Lemmas.ChangeVar

/-! Laws of `l + |X - l|` for a law symmetric about `l`. -/

namespace Verif
open MeasureTheory ENNReal Set

/-- Folding a density that is symmetric about `l`. -/
theorem map_fold_withDensity {f : ℝ → ℝ≥0∞} (l : ℝ) (hsym : ∀ x, f (2 * l - x) = f x)
    {s : Set ℝ} (hs : MeasurableSet s) :
    (volume.withDensity f).map (fun x => l + |x - l|) s =
      ∫⁻ y in s, (Ici l).indicator (fun y => 2 * f y) y := by
  have hφ : Measurable (fun x : ℝ => l + |x - l|) := by fun_prop
  rw [Measure.map_apply hφ hs, withDensity_apply _ (hφ hs)]
  have hA : MeasurableSet (Ioi l ∩ s) := measurableSet_Ioi.inter hs
  have hAi : MeasurableSet (Ici l ∩ s) := measurableSet_Ici.inter hs
  have hB : MeasurableSet ((fun x => 2 * l - x) '' (Ioi l ∩ s)) := by
    have : (fun x => 2 * l - x) '' (Ioi l ∩ s) = (fun x => 2 * l - x) ⁻¹' (Ioi l ∩ s) := by
      ext x; constructor
      · rintro ⟨y, hy, rfl⟩; simpa using hy
      · intro hx; exact ⟨2 * l - x, hx, by simp⟩
    rw [this]
    exact (by fun_prop : Measurable fun x : ℝ => 2 * l - x) hA
  have hset : (fun x : ℝ => l + |x - l|) ⁻¹' s = (Ici l ∩ s) ∪ (fun x => 2 * l - x) '' (Ioi l ∩ s) := by
    ext x
    simp only [mem_preimage, mem_union, mem_inter_iff, mem_Ici, mem_image, mem_Ioi]
    constructor
    · intro hx
      rcases le_or_gt l x with h | h
      · left; refine ⟨h, ?_⟩
        rwa [abs_of_nonneg (sub_nonneg.2 h), add_sub_cancel] at hx
      · right; refine ⟨2 * l - x, ⟨by linarith, ?_⟩, by ring⟩
        rw [abs_of_neg (sub_neg.2 h)] at hx
        convert hx using 1; ring
    · rintro (⟨h, hx⟩ | ⟨y, ⟨h, hy⟩, rfl⟩)
      · rwa [abs_of_nonneg (sub_nonneg.2 h), add_sub_cancel]
      · rw [show 2 * l - y - l = -(y - l) by ring, abs_neg, abs_of_pos (sub_pos.2 h)]
        simpa using hy
  have hdisj : Disjoint (Ici l ∩ s) ((fun x => 2 * l - x) '' (Ioi l ∩ s)) := by
    rw [Set.disjoint_left]
    rintro x ⟨hx, -⟩ ⟨y, ⟨hy, -⟩, rfl⟩
    simp only [mem_Ici, mem_Ioi] at hx hy
    linarith
  rw [hset, lintegral_union hB hdisj,
    lintegral_image_eq_lintegral_abs_deriv_mul (f' := fun _ => -1) hA
      (fun x _ => by
        have := ((hasDerivAt_id x).const_sub (2 * l)).hasDerivWithinAt (s := Ioi l ∩ s)
        simpa using this)
      (fun a _ b _ h => by simpa using h)]
  rw [lintegral_indicator measurableSet_Ici, Measure.restrict_restrict measurableSet_Ici]
  simp only [hsym, abs_neg, abs_one, ENNReal.ofReal_one, one_mul]
  have hae : ∫⁻ x in Ioi l ∩ s, f x = ∫⁻ x in Ici l ∩ s, f x := by
    refine setLIntegral_congr ?_
    exact (Ioi_ae_eq_Ici).inter (ae_eq_refl s)
  rw [hae, lintegral_const_mul' _ _ (by simp), two_mul]

end Verif
