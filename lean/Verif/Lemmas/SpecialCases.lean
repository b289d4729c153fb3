import Verif.Lemmas.SameLibrary
import Verif.Props.Discrete1
import Verif.Props.Discrete2
import Verif.Props.Vec1
import Verif.Props.Dirichlet
import Verif.Props.MvNormal
import Mathlib.Data.Fin.VecNotation

/-! # Lemmas for C139: distributions that are special cases of one another -/

namespace Verif
open FVal Set ProbabilityTheory

theorem clean_dens_unique {r r' : Except Err FVal} (h : Clean r) (h' : Clean r') (hd : dens r = dens r') : r = r' := by
  obtain ⟨v, rfl, hv⟩ := h
  obtain ⟨w, rfl, hw⟩ := h'
  congr 1
  simp only [dens] at hd
  cases v <;> cases w <;> simp_all [FVal.toDens, Real.exp_pos]
  · exact absurd hd (Real.exp_pos _).not_ge
  · exact absurd hd (Real.exp_pos _).not_ge
  · rwa [ENNReal.ofReal_eq_ofReal_iff (Real.exp_pos _).le (Real.exp_pos _).le, Real.exp_eq_exp] at hd

theorem IsLogMass.unique {lp lp' : ℤ → Except Err FVal} {q q' : ℤ → ℝ} (h : IsLogMass lp q) (h' : IsLogMass lp' q') {k k' : ℤ} (hq : q k = q' k') : lp k = lp' k' :=
  clean_dens_unique (h.clean k) (h'.clean k') (by rw [h.mass, h'.mass, hq])

theorem gamma_one {s : ℝ} (hs : s ≠ 0) (x : ℝ) : gammaLogprob (fin x) (fin 1) (fin s) = exponentialLogprob (fin x) (fin s) := by
  simp only [gammaLogprob, exponentialLogprob, reciprocal_fin hs]
  refine check_congr (by fv [check1, check2]; simp) fun h => ?_
  fv [check2] at h
  have hs : 0 < s := by simpa using h.2
  have hi : 0 < 1 / s := one_div_pos.2 hs
  refine switch_congr Iff.rfl (fun hx => ?_) fun _ => rfl
  fv [] at hx
  have e : xlogy0 (fin 0) (fin x) = fin 0 := by
    have h := xlogy0_scaled one_pos (m := 0) hx
    rw [div_one] at h
    rw [h]
    unfold switch
    split_ifs <;> simp_all
  fv [gammaln_fin_pos one_pos, xlogy0_pos _ hi, e, log_fin_pos hs, div_fin _ hs.ne', Real.Gamma_one, Real.log_one]
  rw [sub_self, e]
  fv []
  rw [one_div, Real.log_inv]; ring

theorem beta_one_one (x : ℝ) : betaLogprob (fin x) (fin 1) (fin 1) = uniformLogprob (fin x) (fin 0) (fin 1) := by
  rw [betaLogprob, checkParam_ok (by fv [check2]; simp), uniformLogprob]
  congr 1
  refine switch_congr (by fv []) (fun _ => ?_) fun _ => rfl
  rw [switch_pos (by fv []), switch_pos (by fv [])]
  fv [gammaln_fin_pos one_pos, gammaln_fin_pos (show (0 : ℝ) < 1 + 1 by norm_num), Real.Gamma_one, Real.log_one]
  rw [show (1 : ℝ) + 1 = 2 by norm_num, Real.Gamma_two, sub_zero, log_fin_pos one_pos, Real.log_one]
  simp

theorem weibull_one {x : ℝ} (hx : x ≠ 0) : weibullLogprob (fin x) (fin 1) = exponentialLogprob (fin x) (fin 1) := by
  simp only [weibullLogprob, exponentialLogprob]
  refine check_congr Iff.rfl fun _ => switch_congr Iff.rfl (fun h => ?_) fun _ => rfl
  fv [] at h
  have h : 0 < x := lt_of_le_of_ne h hx.symm
  fv [log_fin_pos one_pos, log_fin_pos h, div_fin _ (one_ne_zero (α := ℝ)), Real.log_one]
  rw [FVal.powr, if_neg (not_lt.2 h.le), if_neg (fun h' => hx h'.1)]
  simp

theorem studentt_one (m : ℝ) {s : ℝ} (hs : s ≠ 0) (x : ℝ) : studenttLogprob (fin x) (fin 1) (fin m) (fin s) = cauchyLogprob (fin x) (fin m) (fin s) := by
  simp only [studenttLogprob, cauchyLogprob]
  refine check_congr (by fv [check1]; exact ⟨fun h => lt_of_le_of_ne h hs.symm, le_of_lt⟩) fun h => ?_
  fv [check1] at h
  have hs : 0 < s := lt_of_le_of_ne h hs.symm
  have p1 : 0 < Real.pi * 1 * s ^ 2 := by positivity
  have p2 : 0 < 1 + ((x - m) / s) ^ 2 / 1 := by positivity
  have p3 : 0 < 1 + ((x - m) / s) ^ 2 := by positivity
  fv [half, div_fin _ (two_ne_zero (α := ℝ)), div_fin _ hs.ne', div_fin _ (one_ne_zero (α := ℝ)), log_fin_pos p1, log1p_fin_pos p2, log1p_fin_pos p3, log_fin_pos hs, log_fin_pos Real.pi_pos,
    gammaln_fin_pos (show (0 : ℝ) < (1 + 1) / 2 by norm_num), gammaln_fin_pos (show (0 : ℝ) < 1 / 2 by norm_num)]
  rw [show ((1 : ℝ) + 1) / 2 = 1 by norm_num, Real.Gamma_one, Real.Gamma_one_half_eq, Real.log_sqrt Real.pi_pos.le, mul_one, Real.log_mul Real.pi_ne_zero (by positivity), Real.log_pow, div_one, Real.log_one]
  push_cast; ring

/-! ### Masses -/

theorem onNat_congr {f g : ℕ → ℝ} (h : ∀ k, f k = g k) (k : ℤ) : onNat f k = onNat g k := by rw [funext h]

theorem binomialMass_one (p : ℝ) (k : ℕ) : binomialMass 1 p k = bernoulliMass p k := by
  match k with
  | 0 => simp [binomialMass, bernoulliMass]
  | 1 => simp [binomialMass, bernoulliMass]
  | k + 2 => simp [binomialMass, bernoulliMass]

theorem hypergeometricMass_one {g b : ℕ} (h : 0 < g + b) (k : ℕ) : hypergeometricMass g b 1 k = bernoulliMass (g / (g + b)) k := by
  have h' : ((g : ℝ) + b) ≠ 0 := by exact_mod_cast h.ne'
  match k with
  | 0 => simp [hypergeometricMass, bernoulliMass]; field_simp; ring
  | 1 => simp [hypergeometricMass, bernoulliMass]
  | k + 2 => simp [hypergeometricMass, bernoulliMass]

theorem betaBinomialMass_one {α β : ℝ} (hα : 0 < α) (hβ : 0 < β) (k : ℕ) : betaBinomialMass 1 α β k = bernoulliMass (α / (α + β)) k := by
  have g1 := Real.Gamma_pos_of_pos hα
  have g2 := Real.Gamma_pos_of_pos hβ
  have g3 := Real.Gamma_pos_of_pos (add_pos hα hβ)
  have hab := add_pos hα hβ
  match k with
  | 0 =>
    rw [betaBinomialMass_eq hα hβ (by norm_num), bernoulliMass, beta, beta]
    have e : α + ((0 : ℕ) : ℝ) + (β + ((1 - 0 : ℕ) : ℝ)) = α + β + 1 := by push_cast; ring
    rw [e, Real.Gamma_add_one hab.ne']
    simp only [Nat.choose_zero_right, Nat.cast_one, CharP.cast_eq_zero, add_zero, tsub_zero, one_mul]
    rw [Real.Gamma_add_one hβ.ne']
    field_simp; ring
  | 1 =>
    rw [betaBinomialMass_eq hα hβ le_rfl, bernoulliMass, beta, beta]
    have e : α + ((1 : ℕ) : ℝ) + (β + ((1 - 1 : ℕ) : ℝ)) = α + β + 1 := by push_cast; ring
    rw [e, Real.Gamma_add_one hab.ne']
    simp only [Nat.choose_self, Nat.cast_one, tsub_self, CharP.cast_eq_zero, add_zero, one_mul]
    rw [Real.Gamma_add_one hα.ne']
    field_simp
  | k + 2 => simp [betaBinomialMass, binomialMass, bernoulliMass]

theorem failureMass_one (p : ℝ) (k : ℕ) : failureMass p 1 k = geometricMass p (k + 1) := by
  rw [failureMass, Finset.sum_eq_single 0]
  · simp [failureMass, geometricMass]
  · intro j _ hj; simp [failureMass, hj]
  · simp

theorem onNat_neg {f : ℕ → ℝ} {k : ℤ} (h : k < 0) : onNat f k = 0 := by simp [onNat, not_le.2 h]

theorem onNat_shift (p : ℝ) (k : ℤ) : onNat (failureMass p 1) k = onNat (geometricMass p) (k + 1) := by
  rcases lt_or_ge k 0 with h | h
  · rw [onNat_neg h]
    rcases (show k + 1 ≤ 0 by omega).lt_or_eq with h' | h'
    · rw [onNat_neg h']
    · rw [h']; rfl
  · lift k to ℕ using h
    rw [onNat, if_pos (by positivity), onNat, if_pos (by positivity)]
    rw [show (k : ℤ).toNat = k by simp, show ((k : ℤ) + 1).toNat = k + 1 by omega, failureMass_one]

theorem binomialMass_reflect (n : ℕ) (p : ℝ) (k : ℤ) : onNat (binomialMass n p) k = onNat (binomialMass n (1 - p)) (n - k) := by
  rcases lt_or_ge k 0 with h | h
  · rw [onNat_neg h, onNat, if_pos (by omega), binomialMass, if_neg (by omega)]
  · lift k to ℕ using h
    rcases Nat.lt_or_ge n k with h' | h'
    · rw [onNat_neg (k := n - k) (by omega), onNat, if_pos (by positivity), binomialMass, if_neg (by simpa using h')]
    · rw [onNat, if_pos (by positivity), onNat, if_pos (by omega), show (k : ℤ).toNat = k by simp, show ((n : ℤ) - k).toNat = n - k by omega, binomialMass, binomialMass, if_pos h', if_pos (by omega),
        Nat.choose_symm h', show n - (n - k) = k by omega]
      ring

theorem multinomialMass_two (n : ℕ) (p : ℝ) (k : ℤ) : multinomialMass n ![p, 1 - p] ![k, n - k] = onNat (binomialMass n p) k := by
  rcases lt_or_ge k 0 with h | h
  · rw [onNat_neg h, multinomialMass, if_neg]
    rintro ⟨h', -⟩
    have := h' 0
    simp at this; omega
  · lift k to ℕ using h
    rw [onNat, if_pos (by positivity), show (k : ℤ).toNat = k by simp, binomialMass]
    by_cases h' : k ≤ n
    · rw [if_pos h', multinomialMass, if_pos]
      · simp only [Fin.prod_univ_two, Matrix.cons_val_zero, Matrix.cons_val_one, show ((n : ℤ) - k).toNat = n - k by omega, show (k : ℤ).toNat = k by simp]
        rw [Nat.choose_eq_factorial_div_factorial h', Nat.cast_div (Nat.factorial_mul_factorial_dvd_factorial h') (by positivity)]
        push_cast; ring
      · refine ⟨fun i => ?_, ?_⟩
        · match i with
          | 0 => simp
          | 1 => simp; omega
        · simp [Fin.sum_univ_two]
    · rw [if_neg h', multinomialMass, if_neg]
      rintro ⟨h2, -⟩
      have := h2 1
      simp at this; omega

theorem dirichlet_two {a b x : ℝ} (ha : 0 < a) (hb : 0 < b) (h0 : x ≠ 0) (h1 : x ≠ 1) :
    dirichletLogprob [fin x, fin (1 - x)] [fin a, fin b] = betaLogprob (fin x) (fin a) (fin b) := by
  simp only [dirichletLogprob, betaLogprob]
  refine check_congr (by fv [check1, check2]; simp) fun _ => switch_congr ?_ (fun h => ?_) fun _ => rfl
  · fv []
    simp only [List.mem_cons, List.not_mem_nil, or_false, forall_eq_or_imp, forall_eq]
    fv []
    constructor
    · rintro ⟨⟨h1, h2⟩, h3, h4⟩; exact ⟨h1, h3⟩
    · rintro ⟨h1, h2⟩; refine ⟨⟨h1, ?_⟩, h2, ?_⟩ <;> linarith
  · simp only [List.mem_cons, List.not_mem_nil, or_false, forall_eq_or_imp, forall_eq] at h
    fv [] at h
    have hx : 0 < x := lt_of_le_of_ne h.1.1 h0.symm
    have hx1 : 0 < 1 - x := lt_of_le_of_ne h.1.2 (sub_ne_zero.2 h1.symm).symm
    have hx2 : 0 < 1 + -x := by linarith
    have sw : ∀ k y : ℝ, switch (k = 1) (fin 0) (fin ((k - 1) * y)) = fin ((k - 1) * y) := fun k y => by
      unfold switch
      split_ifs with h
      · subst h; simp
      · rfl
    simp only [List.zipWith, fsum, List.foldr]
    fv [xlogy0_pos _ hx, xlogy0_pos _ hx1, gammaln_fin_pos ha, gammaln_fin_pos hb, gammaln_fin_pos (add_pos ha hb), log_fin_pos hx, log1p_fin_pos hx2, sw, add_zero]
    rw [show 1 + -x = 1 - x by ring]
    ring

theorem mvnormal_one {chol : Matrix (Fin 1) (Fin 1) ℝ → Option (Matrix (Fin 1) (Fin 1) ℝ)} (hchol : CholContract chol) (m x : ℝ) {s : ℝ} (hs : 0 < s) :
    mvnormalLogprob chol ![x] ![m] !![s ^ 2] = normalLogprob (fin x) (fin m) (fin s) := by
  have hS : (!![s ^ 2] : Matrix (Fin 1) (Fin 1) ℝ).PosDef := by
    have : (!![s ^ 2] : Matrix (Fin 1) (Fin 1) ℝ) = Matrix.diagonal fun _ => s ^ 2 := by
      ext i j; fin_cases i; fin_cases j; rfl
    rw [this]
    exact Matrix.PosDef.diagonal fun _ => by positivity
  rw [C37_mvnormal_formula hchol hS, normalLogprob, checkParam_ok (by fv [check1]; exact hs)]
  have h2 : (0 : ℝ) ≤ 2 * Real.pi := by positivity
  have h3 : 0 < Real.sqrt (2 * Real.pi) := by positivity
  fv [half, sqrt_fin h2, log_fin_pos h3, log_fin_pos hs, div_fin _ hs.ne', half_log]
  have hi : (!![s ^ 2] : Matrix (Fin 1) (Fin 1) ℝ)⁻¹ = !![(s ^ 2)⁻¹] := by
    refine Matrix.inv_eq_right_inv ?_
    ext i j; fin_cases i; fin_cases j
    simp [Matrix.mul_apply, hs.ne']
  rw [hi, Matrix.det_fin_one]
  simp only [Matrix.mulVec, dotProduct, Finset.univ_unique, Fin.default_eq_zero, Finset.sum_singleton, Pi.sub_apply, Matrix.cons_val_zero, Matrix.of_apply, Matrix.cons_val', Matrix.cons_val_fin_one, Real.log_pow]
  push_cast
  field_simp
  ring

theorem categorical_two {p : ℝ} (h0 : 0 ≤ p) (h1 : p ≤ 1) {k : ℕ} (hk : k < 2) : categoricalLogprob k [fin (1 - p), fin p] = bernoulliLogprob (fin k) (fin p) := by
  have h := (C36_categorical_partial (p := [1 - p, p]) (by simp [h0, h1]) (by simp)).1 k (by simpa using hk)
  simp only [List.map] at h
  rw [h]
  obtain ⟨-, b1, b0, -⟩ := C30_bernoulli h0 h1
  match k, hk with
  | 0, _ => rw [Nat.cast_zero, b0]; simp [categoricalMass]
  | 1, _ => rw [Nat.cast_one, b1]; simp [categoricalMass]

end Verif
