import Verif.Lemmas.Dist2
import Verif.Lemmas.CdfTools

/-! # C25: triangular distribution -/

namespace Verif
open FVal MeasureTheory ENNReal Set

theorem triangular_out {x a c b : ℝ} (hac : a ≤ c) (hcb : c ≤ b) (h : x < a ∨ b < x) :
    triangularLogprob (fin x) (fin a) (fin c) (fin b) = .ok ninf := by
  rw [triangularLogprob, checkParam_ok (by simp [hac, hcb])]
  beta_reduce
  rw [switch_neg (by simp only [le_fin, not_and_or, not_le]; exact h)]

theorem triangular_left {x a c b : ℝ} (hcb : c ≤ b) (h1 : a ≤ x) (h2 : x < c) :
    triangularLogprob (fin x) (fin a) (fin c) (fin b)
      = .ok (log (fin (2 * (x - a) / ((b - a) * (c - a))))) := by
  have h3 : (b - a) * (c - a) ≠ 0 := by
    have : 0 < (b - a) * (c - a) := mul_pos (by linarith) (by linarith)
    exact this.ne'
  rw [triangularLogprob, checkParam_ok (by simp [hcb, h1.trans h2.le])]
  beta_reduce
  rw [switch_pos (by simp [h1, h2.le.trans hcb]), switch_pos (by simpa using h2)]
  fv [div_fin _ h3]

theorem triangular_right {x a c b : ℝ} (hac : a ≤ c) (hc : c < b) (h1 : c ≤ x) (h2 : x ≤ b) :
    triangularLogprob (fin x) (fin a) (fin c) (fin b)
      = .ok (log (fin (2 * (b - x) / ((b - a) * (b - c))))) := by
  have h3 : (b - a) * (b - c) ≠ 0 := by
    have : 0 < (b - a) * (b - c) := mul_pos (by linarith) (by linarith)
    exact this.ne'
  rw [triangularLogprob, checkParam_ok (by simp [hac, hc.le])]
  beta_reduce
  rw [switch_pos (by simp [hac.trans h1, h2]), switch_neg (by simpa using h1)]
  fv [div_fin _ h3]

theorem lintegral_Iic_add_Ioc (f : ℝ → ℝ≥0∞) {x y : ℝ} (h : x ≤ y) :
    ∫⁻ z in Iic y, f z = (∫⁻ z in Iic x, f z) + ∫⁻ z in Ioc x y, f z := by
  rw [← Iic_union_Ioc_eq_Iic h, lintegral_union measurableSet_Ioc]
  rw [Set.disjoint_left]
  intro z hz hz'
  exact absurd hz'.1 (not_lt.2 hz)

/-- **C25** (all values except `c` when `c = upper`) For `a ≤ c ≤ b`, `a < b`: the triangular log-probability never raises, is NaN
at most at `x = c = b`, is `-inf` outside `[a, b]`, and its exponential integrates over `(-∞, x]` to the triangular distribution
function (square-law on both sides of the mode), for every `x`, with total mass one. -/
theorem C25_triangular_partial {a c b : ℝ} (hac : a ≤ c) (hcb : c ≤ b) (hab : a < b) :
    (∀ x, ¬(x = c ∧ c = b) → Clean (triangularLogprob (fin x) (fin a) (fin c) (fin b))) ∧
    (∀ x, x ∉ Icc a b → IsNegInf (triangularLogprob (fin x) (fin a) (fin c) (fin b))) ∧
    (∀ x, ∫⁻ y in Iic x, dens (triangularLogprob (fin y) (fin a) (fin c) (fin b))
      = ENNReal.ofReal (triangularCDF a c b x)) ∧
    ∫⁻ y, dens (triangularLogprob (fin y) (fin a) (fin c) (fin b)) = 1 := by
  have hba : 0 < b - a := by linarith
  set d : ℝ → ℝ≥0∞ := fun y => dens (triangularLogprob (fin y) (fin a) (fin c) (fin b)) with hd
  have dL : ∀ y, a ≤ y → y < c → d y = ENNReal.ofReal (2 * (y - a) / ((b - a) * (c - a))) := fun y h1 h2 => by
    have : 0 < c - a := by linarith
    have h0 : 0 ≤ y - a := by linarith
    rw [hd]; beta_reduce
    rw [triangular_left hcb h1 h2, dens_log_nonneg (by positivity)]
  have dR : ∀ y, c < y → y ≤ b → d y = ENNReal.ofReal (2 * (b - y) / ((b - a) * (b - c))) := fun y h1 h2 => by
    have : 0 < b - c := by linarith
    have h0 : 0 ≤ b - y := by linarith
    rw [hd]; beta_reduce
    rw [triangular_right hac (by linarith) h1.le h2, dens_log_nonneg (by positivity)]
  have dO : ∀ y, y < a ∨ b < y → d y = 0 := fun y h => by
    rw [hd]; beta_reduce
    rw [triangular_out hac hcb h]; rfl
  have ne : ∀ z : ℝ, ∀ᵐ x : ℝ, x ≠ z := fun z => ae_of_forall_ne z fun x hx => hx
  have G0 : ∀ x, x ≤ a → ∫⁻ y in Iic x, d y = 0 := fun x hx => by
    rw [lintegral_congr_ae (g := fun _ => 0)]
    · simp
    · rw [Filter.EventuallyEq, ae_restrict_iff' measurableSet_Iic]
      filter_upwards [ne a] with y hy h
      exact dO y (.inl (lt_of_le_of_ne (le_trans h hx) hy))
  have G1 : ∀ x, a ≤ x → x ≤ c → ∫⁻ y in Iic x, d y = ENNReal.ofReal ((x - a) ^ 2 / ((b - a) * (c - a))) := by
    intro x h1 h2
    rw [lintegral_Iic_add_Ioc d h1, G0 a le_rfl, zero_add]
    have : ∫⁻ y in Ioc a x, d y = ∫⁻ y in Ioc a x, ENNReal.ofReal (2 * (y - a) / ((b - a) * (c - a))) := by
      refine lintegral_congr_ae ?_
      rw [Filter.EventuallyEq, ae_restrict_iff' measurableSet_Ioc]
      filter_upwards [ne c] with y hy h
      exact dL y h.1.le (lt_of_le_of_ne (h.2.trans h2) hy)
    rw [this, lintegral_Ioc_of_deriv (F := fun y => (y - a) ^ 2 / ((b - a) * (c - a))) h1]
    · simp
    · fun_prop
    · intro y _
      have := (((hasDerivAt_id' y).sub_const a).fun_pow 2).div_const ((b - a) * (c - a))
      exact this.congr_deriv (by push_cast; ring)
    · intro y hy
      have h3 : 0 ≤ c - a := by linarith
      have h4 : 0 ≤ y - a := by linarith [hy.1]
      positivity
  have hGc : ∫⁻ y in Iic c, d y = ENNReal.ofReal ((c - a) / (b - a)) := by
    rw [G1 c hac le_rfl]
    congr 1
    rcases hac.lt_or_eq with h | h
    · have : c - a ≠ 0 := by linarith
      field_simp
    · simp [h]
  have G2 : ∀ x, c < x → x ≤ b →
      ∫⁻ y in Iic x, d y = ENNReal.ofReal (1 - (b - x) ^ 2 / ((b - a) * (b - c))) := by
    intro x h1 h2
    have hbc : 0 < b - c := by linarith
    have hle : 0 ≤ (c - a) / (b - a) := div_nonneg (by linarith) hba.le
    rw [lintegral_Iic_add_Ioc d h1.le, hGc]
    have : ∫⁻ y in Ioc c x, d y = ∫⁻ y in Ioc c x, ENNReal.ofReal (2 * (b - y) / ((b - a) * (b - c))) :=
      setLIntegral_congr_fun measurableSet_Ioc fun y hy => dR y hy.1 (hy.2.trans h2)
    rw [this, lintegral_Ioc_of_deriv (F := fun y => -(b - y) ^ 2 / ((b - a) * (b - c))) h1.le, ← ENNReal.ofReal_add hle]
    · congr 1
      field_simp
      ring
    · beta_reduce
      rw [sub_nonneg, neg_div, neg_div, neg_le_neg_iff]
      refine div_le_div_of_nonneg_right ?_ (by positivity)
      exact pow_le_pow_left₀ (by linarith) (by linarith) 2
    · fun_prop
    · intro y _
      have := (((hasDerivAt_id' y).const_sub b).fun_pow 2).fun_neg.div_const ((b - a) * (b - c))
      exact this.congr_deriv (by push_cast; ring)
    · intro y hy
      have h4 : 0 ≤ b - y := by linarith [hy.2]
      positivity
  have Gb : ∫⁻ y in Iic b, d y = 1 := by
    rcases hcb.lt_or_eq with h | h
    · rw [G2 b h le_rfl]; simp
    · rw [← h, hGc, h, div_self hba.ne', ENNReal.ofReal_one]
  have G3 : ∀ x, b ≤ x → ∫⁻ y in Iic x, d y = 1 := by
    intro x hx
    rw [lintegral_Iic_add_Ioc d hx, Gb]
    rw [setLIntegral_congr_fun (g := fun _ => 0) measurableSet_Ioc fun y hy => dO y (.inr hy.1)]
    simp
  refine ⟨fun x hx => ?_, fun x hx => ?_, fun x => ?_, ?_⟩
  · by_cases ho : x < a ∨ b < x
    · rw [triangular_out hac hcb ho]; exact clean_ninf
    · rw [not_or, not_lt, not_lt] at ho
      rcases lt_or_ge x c with h | h
      · have : 0 < c - a := by linarith [ho.1]
        have h0 : 0 ≤ x - a := by linarith [ho.1]
        rw [triangular_left hcb ho.1 h]; exact clean_log_nonneg (by positivity)
      · have hcb' : c < b := by
          refine lt_of_le_of_ne hcb fun h' => hx ⟨?_, h'⟩
          linarith [ho.2]
        have : 0 < b - c := by linarith
        have h0 : 0 ≤ b - x := by linarith [ho.2]
        rw [triangular_right hac hcb' h ho.2]; exact clean_log_nonneg (by positivity)
  · refine triangular_out hac hcb ?_
    rw [mem_Icc, not_and_or, not_le, not_le] at hx
    exact hx
  · rw [triangularCDF]
    split_ifs with h1 h2 h3
    · rw [G0 x h1, ENNReal.ofReal_zero]
    · exact G1 x (not_le.1 h1).le h2
    · exact G2 x (not_le.1 h2) h3.le
    · rw [G3 x (not_lt.1 h3), ENNReal.ofReal_one]
  · rw [← setLIntegral_univ, ← Iic_union_Ioi (a := b), lintegral_union measurableSet_Ioi (by
      rw [Set.disjoint_left]; intro z hz hz'; exact absurd (mem_Ioi.1 hz') (not_lt.2 (mem_Iic.1 hz))), Gb,
      setLIntegral_congr_fun (g := fun _ => 0) measurableSet_Ioi fun y hy => dO y (.inr hy)]
    simp

example := C25_triangular_partial (a := 0) (c := 1) (b := 3) (by norm_num) (by norm_num) (by norm_num)

/-- **C25, refuted clause** "never NaN" is false: with the mode at the upper end, the value `c = upper` (where the density is
`2/(upper-lower)`) gives NaN. -/
theorem C25_triangular_nan {a b : ℝ} (hab : a < b) :
    triangularLogprob (fin b) (fin a) (fin b) (fin b) = .ok nan := by
  rw [triangularLogprob, checkParam_ok (by simp [hab.le])]
  beta_reduce
  rw [switch_pos (by simp [hab.le]), switch_neg (by simp)]
  fv [sub_self, mul_zero, div_fin_zero, infMul_zero, log_nan]

example := C25_triangular_nan (a := 0) (b := 1) (by norm_num)

end Verif
