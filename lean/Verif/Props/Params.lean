import Verif.Model.ArrayEval
import Verif.Spec.Params
import Verif.Lemmas.FVal

/-! # C42: parameter checks, for all parameters (NaN and infinities included) and all values -/

namespace Verif
open FVal

theorem lt_zero_iff (x : FVal) : lt 0 x ↔ Pos x := by
  rcases x with _ | _ | x | _ <;> simp [Pos, lt]

theorem le_zero_iff (x : FVal) : le 0 x ↔ NonNeg x := by
  rcases x with _ | _ | x | _ <;> simp [NonNeg, le]

theorem unit_iff (x : FVal) : (le 0 x ∧ le x 1) ↔ InUnit x := by
  rcases x with _ | _ | x | _ <;> simp [InUnit, le]

theorem le_iff_ordered (x y : FVal) : le x y ↔ Ordered x y := by
  rcases x with _ | _ | x | _ <;> rcases y with _ | _ | y | _ <;> simp [Ordered, le]

theorem checks_checkParam {res : FVal} {conds : List Prop} {valid : Prop} (h : conds.foldr And True ↔ valid) :
    Checks (checkParam res conds) valid :=
  ⟨fun hv => ⟨res, checkParam_ok (h.2 hv)⟩, fun hv => checkParam_err fun hc => hv (h.1 hc)⟩

theorem checks_bind {r : Except Err FVal} {valid : Prop} {f : FVal → Except Err FVal} (h : Checks r valid)
    (hf : ∀ v, valid → ∃ w, f v = .ok w) : Checks (r >>= f) valid := by
  refine ⟨fun hv => ?_, fun hv => ?_⟩
  · obtain ⟨v, rfl⟩ := h.1 hv
    exact hf v hv
  · rw [h.2 hv]; rfl

section
variable (v a b c d : FVal)

/-- **C42** Each log-probability and log-CDF raises `ParameterValueError` exactly when its parameters are outside the domain stated
in its check, for all parameters (also NaN and infinite ones) and whatever the value. -/
theorem C42_checks :
    Checks (uniformLogcdf v a b) (Ordered a b) ∧
    Checks (normalLogprob v a b) (Pos b) ∧
    Checks (normalLogcdf v a b) (Pos b) ∧
    Checks (halfnormalLogprob v a b) (Pos b) ∧
    Checks (betaLogprob v a b) (Pos a ∧ Pos b) ∧
    Checks (exponentialLogprob v a) (Pos a) ∧
    Checks (laplaceLogprob v a b) (Pos b) ∧
    Checks (lognormalLogprob v a b) (Pos b) ∧
    Checks (paretoLogprob v a b) (Pos a ∧ Pos b) ∧
    Checks (cauchyLogprob v a b) (Pos b) ∧
    Checks (halfcauchyLogprob v a b) (Pos b) ∧
    Checks (invgammaLogprob v a b) (Pos a ∧ Pos b) ∧
    Checks (waldLogprob v a b) (Pos a ∧ Pos b) ∧
    Checks (weibullLogprob v a) (Pos a) ∧
    Checks (vonmisesLogprob v a b) (Pos b) ∧
    Checks (triangularLogprob v a b c) (Ordered a b ∧ Ordered b c) ∧
    Checks (gumbelLogprob v a b) (Pos b) ∧
    Checks (logisticLogprob v a b) (Pos b) ∧
    Checks (binomialLogprob v a b) (InUnit b) ∧
    Checks (betabinomialLogprob v a b c) (Pos b ∧ Pos c) ∧
    Checks (bernoulliLogprob v a) (InUnit a) ∧
    Checks (poissonLogprob v a) (NonNeg a) ∧
    Checks (poissonLogcdf v a) (NonNeg a) ∧
    Checks (geometricLogprob v a) (InUnit a) ∧
    Checks (geometricLogcdf v a) (InUnit a) ∧
    Checks (studenttLogprob v a b c) (NonNeg c) := by
  have hg : ∀ x : FVal, gt x 0 ↔ Pos x := fun x => lt_zero_iff x
  have hge : ∀ x : FVal, ge x 0 ↔ NonNeg x := fun x => le_zero_iff x
  have hu : ∀ x : FVal, (le 0 x ∧ ge 1 x) ↔ InUnit x := fun x => unit_iff x
  have hpois : Checks (poissonLogprob v a) (NonNeg a) := by
    refine checks_bind (checks_checkParam ?_) fun w _ => ⟨_, rfl⟩
    simp only [List.foldr, and_true, le_zero_iff]
  have hc : Checks (cauchyLogprob v a b) (Pos b) := checks_checkParam (by simp only [List.foldr, and_true, hg])
  refine ⟨?_, ?_, ?_, ?_, ?_, ?_, ?_, ?_, ?_, hc, checks_bind hc fun w _ => ⟨_, rfl⟩, ?_, ?_, ?_, ?_, ?_, ?_, ?_, ?_, ?_, ?_, hpois, ?_,
    ?_, ?_, ?_⟩ <;>
  · refine checks_checkParam ?_
    first
    | simp only [List.foldr, and_true, hg, hge, lt_zero_iff]; done
    | simp only [List.foldr, and_true, unit_iff]; done
    | simp only [List.foldr, and_true, hu]; done
    | simp only [List.foldr, and_true, le_zero_iff]; done
    | simp only [List.foldr, and_true, le_iff_ordered]; done

/-- **C42**, gamma: the check is on the shape and on the reciprocal of the scale. For a real scale it accepts exactly
non-negative scales, i.e. one value (`0`) more than the domain (see `C19_gamma_accepts_scale_zero`); an infinite scale is rejected. -/
theorem C42_gamma_partial : Checks (gammaLogprob v a b) (Pos a ∧ ∃ r : ℝ, 0 ≤ r ∧ b = fin r) := by
  refine checks_checkParam ?_
  have : gt (reciprocal b) 0 ↔ ∃ r : ℝ, 0 ≤ r ∧ b = fin r := by
    rcases b with _ | _ | x | _
    · simp [reciprocal, gt, lt]
    · simp [reciprocal, gt, lt]
    · rcases lt_trichotomy x 0 with h | rfl | h
      · rw [reciprocal_fin h.ne]; simp [h.not_gt, h.not_ge]
      · rw [reciprocal_zero]; simp [gt, lt]
      · rw [reciprocal_fin h.ne']; simp [h, h.le]
    · simp [reciprocal, gt, lt]
  simp only [List.foldr, and_true, this, show gt a 0 ↔ Pos a from lt_zero_iff a]

/-- **C42**, chi-square: raises exactly when `nu` is not positive. -/
theorem C42_chisquare : Checks (chisquareLogprob v a) (Pos a) := by
  have h := C42_gamma_partial v (a / 2) 2
  have e : Pos (a / 2) ↔ Pos a := by
    rcases a with _ | _ | x | _
    · simp [Pos]
    · show Pos (FVal.div ninf (fin 2)) ↔ _
      simp [Pos, FVal.div, show ¬ (2 : ℝ) < 0 by norm_num]
    · rw [ofNat_eq, div_fin _ two_ne_zero]; simp [Pos]
    · show Pos (FVal.div pinf (fin 2)) ↔ _
      simp [Pos, FVal.div]
  have e2 : ∃ r : ℝ, 0 ≤ r ∧ (2 : FVal) = fin r := ⟨2, by norm_num, rfl⟩
  rw [chisquareLogprob]
  exact ⟨fun hv => h.1 ⟨e.2 hv, e2⟩, fun hv => h.2 fun hh => hv (e.1 hh.1)⟩

/-- **C42**, negative binomial: the check is on `n` and on the mean `n (1 - p) / p`. -/
theorem C42_nbinom : Checks (nbinomLogprob v a b) (Pos (a * (1 - b) / b) ∧ Pos a) := by
  have h : Checks (nbinomLogprob v a b) (Pos (a * (1 - b) / b) ∧ Pos a) := by
    refine checks_bind (checks_checkParam ?_) fun w hw => ?_
    · simp only [List.foldr, and_true, lt_zero_iff]
    · have hp : NonNeg (a * (1 - b) / b) := by
        rcases hw.1 with h | ⟨r, h, h'⟩
        · exact .inl h
        · exact .inr ⟨r, h.le, h'⟩
      obtain ⟨u, hu⟩ := (C42_checks v (a * (1 - b) / b) a a).2.2.2.2.2.2.2.2.2.2.2.2.2.2.2.2.2.2.2.2.2.1.1 hp
      refine ⟨switch (gt a (fin 10000000000)) u w, ?_⟩
      show (poissonLogprob v (a * (1 - b) / b) >>= _) = _
      rw [hu]; rfl
  exact h

/-- Negative binomial with real parameters: accepted exactly for `n > 0`, `0 ≤ p < 1`. -/
theorem C42_nbinom_domain (n p : ℝ) : Checks (nbinomLogprob v (fin n) (fin p)) (0 < n ∧ 0 ≤ p ∧ p < 1) := by
  have h := C42_nbinom v (fin n) (fin p)
  have e : (Pos (fin n * (1 - fin p) / fin p) ∧ Pos (fin n)) ↔ (0 < n ∧ 0 ≤ p ∧ p < 1) := by
    fv []
    rcases lt_trichotomy p 0 with hp | rfl | hp
    · rw [div_fin _ hp.ne]
      simp only [Pos, pinf_ne_fin, fin_ne_pinf, false_or, fin_inj, exists_eq_right', not_le.2 hp, false_and, and_false, iff_false, not_and,
        not_lt]
      intro h
      by_contra hn
      have : n * (1 - p) / p < 0 := div_neg_of_pos_of_neg (mul_pos (by linarith) (by linarith)) hp
      linarith
    · rw [div_fin_zero]
      simp only [sub_zero, mul_one]
      rcases lt_trichotomy n 0 with h | rfl | h
      · simp [infMul_neg h, Pos, h.le]
      · simp [Pos]
      · simp [infMul_pos h, Pos]
    · rw [div_fin _ hp.ne']
      simp only [Pos, fin_ne_pinf, false_or, fin_inj, exists_eq_right', hp.le, true_and]
      constructor
      · rintro ⟨h1, h2⟩
        refine ⟨h2, ?_⟩
        by_contra h3
        have : n * (1 - p) / p ≤ 0 := div_nonpos_of_nonpos_of_nonneg (mul_nonpos_of_nonneg_of_nonpos h2.le (by linarith)) hp.le
        linarith
      · rintro ⟨h1, h2⟩
        exact ⟨div_pos (mul_pos h1 (by linarith)) hp, h1⟩
  exact ⟨fun hv => h.1 (e.2 hv), fun hv => h.2 fun hh => hv (e.1 hh)⟩

/-- **C42**, no check at all: the uniform and hypergeometric log-probabilities never raise, whatever the parameters. -/
theorem C42_unchecked : (∃ r, uniformLogprob v a b = .ok r) ∧ ∃ r, hypergeometricLogprob v a b c = .ok r :=
  ⟨⟨_, rfl⟩, _, rfl⟩

end

/-- **C42**, arrays: with a check that depends on the parameters only, evaluating on arrays of any size raises
`ParameterValueError` exactly when one element has parameters outside the domain; otherwise there is one result per element. -/
theorem C42_arrays {P : Type*} {kernel : FVal → P → Except Err FVal} {valid : P → Prop}
    (h : ∀ v p, Checks (kernel v p) (valid p)) (es : List (FVal × P)) :
    ((∃ e ∈ es, ¬ valid e.2) → arrayLogprob kernel es = .error .parameterValue) ∧
    ((∀ e ∈ es, valid e.2) → ∃ rs, arrayLogprob kernel es = .ok rs ∧
      List.Forall₂ (fun e r => kernel e.1 e.2 = .ok r) es rs) := by
  unfold arrayLogprob
  induction es with
  | nil => exact ⟨fun ⟨e, he, _⟩ => absurd he (by simp), fun _ => ⟨[], rfl, .nil⟩⟩
  | cons e es ih =>
    rw [List.mapM_cons]
    by_cases hv : valid e.2
    · obtain ⟨r, hr⟩ := (h e.1 e.2).1 hv
      rw [hr]
      refine ⟨fun ⟨e', he', hn⟩ => ?_, fun hall => ?_⟩
      · have : e' ∈ es := by
          rcases List.mem_cons.1 he' with rfl | h'
          · exact absurd hv hn
          · exact h'
        have := ih.1 ⟨e', this, hn⟩
        rw [this]; rfl
      · obtain ⟨rs, hrs, hf⟩ := ih.2 fun e' he' => hall e' (List.mem_cons_of_mem _ he')
        rw [hrs]
        exact ⟨r :: rs, rfl, .cons hr hf⟩
    · rw [(h e.1 e.2).2 hv]
      exact ⟨fun _ => rfl, fun hall => absurd (hall e (by simp)) hv⟩

/-- Instance of `C42_arrays`: one NaN `sigma` among good ones. -/
example : arrayLogprob (fun v (p : FVal × FVal) => normalLogprob v p.1 p.2)
    [(fin 0, fin 0, fin 1), (fin 0, fin 0, nan), (fin 0, fin 0, fin 2)] = .error .parameterValue :=
  (C42_arrays (valid := fun p => Pos p.2) (fun v p => (C42_checks v p.1 p.2 p.1).2.1) _).1
    ⟨(fin 0, fin 0, nan), by simp, by simp [Pos]⟩

end Verif
