import Verif.Model.Dists
import Verif.Lemmas.Density
import Verif.Spec.Mass
import Mathlib.Analysis.SpecialFunctions.Gamma.Beta

/-! Calculus of `log` of non-negative numbers for discrete log-masses (helper lemmas). -/

namespace Verif
open FVal

theorem log_mul_nonneg {a b : ℝ} (ha : 0 ≤ a) (hb : 0 ≤ b) :
    log (fin a) + log (fin b) = log (fin (a * b)) := by
  rcases ha.lt_or_eq with ha | rfl
  · rcases hb.lt_or_eq with hb | rfl
    · rw [log_fin_pos ha, log_fin_pos hb, log_fin_pos (mul_pos ha hb), add_fin, Real.log_mul ha.ne' hb.ne']
    · rw [log_fin_pos ha, mul_zero, log_zero, fin_add_ninf]
  · rcases hb.lt_or_eq with hb | rfl
    · rw [log_fin_pos hb, zero_mul, log_zero, ninf_add_fin]
    · simp

theorem log_div_nonneg {a b : ℝ} (ha : 0 ≤ a) (hb : 0 < b) :
    log (fin a) - log (fin b) = log (fin (a / b)) := by
  rcases ha.lt_or_eq with ha | rfl
  · rw [log_fin_pos ha, log_fin_pos hb, log_fin_pos (div_pos ha hb), sub_fin, Real.log_div ha.ne' hb.ne']
  · rw [log_fin_pos hb, zero_div, log_zero, ninf_sub_fin]

theorem log_sub_fin {a : ℝ} (b : ℝ) (ha : 0 ≤ a) : log (fin a) - fin b = log (fin (a * Real.exp (-b))) := by
  have h := log_div_nonneg ha (Real.exp_pos b)
  rw [log_fin_pos (Real.exp_pos b), Real.log_exp] at h
  rw [h, Real.exp_neg]
  rfl

theorem xlogy0_nat (m : ℕ) {p : ℝ} (hp : 0 ≤ p) : xlogy0 (fin m) (fin p) = log (fin (p ^ m)) := by
  rcases hp.lt_or_eq with hp | rfl
  · rw [log_fin_pos (by positivity), Real.log_pow]
    simp [xlogy0, switch, hp.ne', log_fin_pos hp]
  · cases m with
    | zero => simp [xlogy0, switch, log_fin_pos one_pos]
    | succ m =>
      have : ((m : ℝ) + 1) ≠ 0 := by positivity
      simp [xlogy0, switch, this]

theorem gammaln_pos {x : ℝ} (h : 0 < x) : gammaln (fin x) = log (fin (Real.Gamma x)) := by
  rw [gammaln_fin_pos h, log_fin_pos (Real.Gamma_pos_of_pos h)]

theorem gammaln_nat (n : ℕ) : gammaln (fin ((n : ℝ) + 1)) = log (fin (n.factorial : ℝ)) := by
  rw [gammaln_pos (by positivity), Real.Gamma_nat_eq_factorial]

theorem binomln_nat {n k : ℕ} (h : k ≤ n) : binomln (fin n) (fin k) = log (fin (n.choose k : ℝ)) := by
  have hn : (0 : ℝ) < n.factorial := by positivity
  have hk : (0 : ℝ) < k.factorial := by positivity
  have hnk : (0 : ℝ) < (n - k).factorial := by positivity
  rw [binomln]
  fv []
  rw [← Nat.cast_sub h, gammaln_nat, gammaln_nat, gammaln_nat, log_div_nonneg hn.le hk, log_div_nonneg (by positivity) hnk,
    Nat.cast_choose ℝ h, div_div]

theorem hasSum_onNat {f : ℕ → ℝ} {a : ℝ} (h : HasSum f a) : HasSum (onNat f) a := by
  have hi : Function.Injective (Nat.cast : ℕ → ℤ) := Nat.cast_injective
  rw [← hi.hasSum_iff]
  · convert h using 1
    funext n
    simp [onNat]
  · intro k hk
    rw [onNat, if_neg]
    intro h0
    exact hk ⟨k.toNat, by simp [h0]⟩

/-- Package: if the log-mass is `log (f k)` at naturals and `-inf` at negative integers. -/
theorem IsLogMass.of_nat {lp : ℤ → Except Err FVal} {f : ℕ → ℝ} (hf : ∀ k, 0 ≤ f k) (h : HasSum f 1)
    (hpos : ∀ k : ℕ, lp k = .ok (log (fin (f k)))) (hneg : ∀ k : ℤ, k < 0 → lp k = .ok ninf) :
    IsLogMass lp (onNat f) := by
  refine ⟨fun k => ?_, fun k => ?_, hasSum_onNat h⟩
  · rcases lt_or_ge k 0 with hk | hk
    · rw [hneg k hk]; exact clean_ninf
    · obtain ⟨n, rfl⟩ := Int.eq_ofNat_of_zero_le hk
      rw [hpos]; exact clean_log_nonneg (hf n)
  · rcases lt_or_ge k 0 with hk | hk
    · rw [hneg k hk, onNat, if_neg (not_le.2 hk)]; simp
    · obtain ⟨n, rfl⟩ := Int.eq_ofNat_of_zero_le hk
      rw [hpos, dens_log_nonneg (hf n)]
      simp [onNat]

end Verif
