import Verif.Props.TransDensity
import Verif.Props.Triangular
import Verif.Props.VonMises
import Verif.Lemmas.Dist1
import Verif.Lemmas.Dist2

/-! # C52: default transforms map the real line onto the support -/

namespace Verif
open FVal Set

theorem interior_between_Ioo {a b : ℝ} (hab : a < b) {S : Set ℝ} (h1 : ∀ x, a < x → x < b → x ∈ S) (h2 : ∀ x ∈ S, a ≤ x ∧ x ≤ b) :
    interior S = Ioo a b := by
  refine Subset.antisymm ?_ (interior_maximal (fun x hx => h1 x hx.1 hx.2) isOpen_Ioo)
  rw [← interior_Icc]
  exact interior_mono fun x hx => h2 x hx

theorem interior_between_Ioi {a : ℝ} {S : Set ℝ} (h1 : ∀ x, a < x → x ∈ S) (h2 : ∀ x ∈ S, a ≤ x) : interior S = Ioi a := by
  refine Subset.antisymm ?_ (interior_maximal (fun x hx => h1 x hx) isOpen_Ioi)
  rw [← interior_Ici]
  exact interior_mono fun x hx => h2 x hx

theorem not_support {d : TransDist} {inputs : List FVal} {x : ℝ} (h : transDistLogprob d (.fin x) inputs = .ok .ninf) : x ∉ support d inputs := by
  rintro ⟨l, hl⟩; rw [h] at hl; cases hl

theorem support_Ioo (d : TransDist) (inputs : List FVal) {a b : ℝ} (hab : a < b)
    (h1 : ∀ x, a < x → x < b → ∃ l, transDistLogprob d (.fin x) inputs = .ok (.fin l))
    (h2 : ∀ x, ¬(a ≤ x ∧ x ≤ b) → transDistLogprob d (.fin x) inputs = .ok .ninf) : interior (support d inputs) = Ioo a b :=
  interior_between_Ioo hab h1 fun x hx => by_contra fun h => not_support (h2 x h) hx

theorem support_Ioi (d : TransDist) (inputs : List FVal) {a : ℝ} (h1 : ∀ x, a < x → ∃ l, transDistLogprob d (.fin x) inputs = .ok (.fin l))
    (h2 : ∀ x, x < a → transDistLogprob d (.fin x) inputs = .ok .ninf) : interior (support d inputs) = Ioi a :=
  interior_between_Ioi h1 fun x hx => not_lt.1 fun h => not_support (h2 x h) hx

variable (g s dt : FVal)

theorem default_log {d : TransDist} {inputs : List FVal} (ht : defaultTransform d inputs = .ok .log)
    (h1 : ∀ x : ℝ, 0 < x → ∃ l, transDistLogprob d (.fin x) inputs = .ok (.fin l))
    (h2 : ∀ x : ℝ, x < 0 → transDistLogprob d (.fin x) inputs = .ok .ninf) : DefaultOk d inputs := by
  refine ⟨.log, ht, ?_⟩
  rw [support_Ioi d inputs h1 h2]
  exact C49_log

/-- **C52**, uniform on `[a, b]`. -/
theorem C52_uniform {a b : ℝ} (hab : a < b) : DefaultOk .uniform [g, s, dt, .fin a, .fin b] := by
  refine ⟨_, rfl, ?_⟩
  rw [support_Ioo .uniform [g, s, dt, .fin a, .fin b] hab (fun _ h1 h2 => ⟨_, uniform_eval_in hab h1.le h2.le⟩) fun _ h => uniform_eval_out h]
  exact C49_interval hab

example : DefaultOk .uniform [.nan, .nan, .nan, .fin (-2), .fin 5] := C52_uniform _ _ _ (by norm_num)

/-- **C52**, triangular, mode anywhere in `[a, b]`. -/
theorem C52_triangular {a c b : ℝ} (hac : a ≤ c) (hcb : c ≤ b) (hab : a < b) :
    DefaultOk .triangular [g, s, dt, .fin a, .fin c, .fin b] := by
  refine ⟨_, rfl, ?_⟩
  rw [support_Ioo .triangular [g, s, dt, .fin a, .fin c, .fin b] hab]
  · exact C49_interval hab
  · intro x h1 h2
    rcases lt_or_ge x c with h | h
    · have : 0 < 2 * (x - a) / ((b - a) * (c - a)) := div_pos (by linarith) (mul_pos (by linarith) (by linarith))
      exact ⟨_, (triangular_left hcb h1.le h).trans (by rw [log_fin_pos this])⟩
    · have hc : c < b := by linarith
      have : 0 < 2 * (b - x) / ((b - a) * (b - c)) := div_pos (by linarith) (mul_pos (by linarith) (by linarith))
      exact ⟨_, (triangular_right hac hc h h2.le).trans (by rw [log_fin_pos this])⟩
  · intro x h
    refine triangular_out hac hcb ?_
    by_contra h'
    exact h ⟨not_lt.1 fun h0 => h' (.inl h0), not_lt.1 fun h0 => h' (.inr h0)⟩

example : DefaultOk .triangular [.nan, .nan, .nan, .fin 0, .fin 1, .fin 1] := C52_triangular _ _ _ (by norm_num) (by norm_num) (by norm_num)

/-- **C52**, half-normal, any location. -/
theorem C52_halfnormal (l : ℝ) {σ : ℝ} (hσ : 0 < σ) : DefaultOk .halfnormal [g, s, dt, .fin l, .fin σ] := by
  refine ⟨_, rfl, ?_⟩
  rw [support_Ioi .halfnormal [g, s, dt, .fin l, .fin σ] (fun _ h => ⟨_, halfnormal_eval_ge hσ (le_of_lt h)⟩) fun _ h => halfnormal_eval_lt hσ h]
  exact C49_interval_lower l

example : DefaultOk .halfnormal [.nan, .nan, .nan, .fin 3, .fin 2] := C52_halfnormal _ _ _ 3 (by norm_num)

/-- **C52**, inverse Gaussian. -/
theorem C52_wald {μ l : ℝ} (hμ : 0 < μ) (hl : 0 < l) : DefaultOk .wald [g, s, dt, .fin μ, .fin l] :=
  default_log rfl (fun _ h => ⟨_, wald_eval_pos hμ hl h⟩) fun _ h => wald_eval_nonpos hμ hl (le_of_lt h)

example : DefaultOk .wald [.nan, .nan, .nan, .fin 3, .fin 2] := C52_wald _ _ _ (by norm_num) (by norm_num)

/-- **C52**, exponential. -/
theorem C52_exponential {μ : ℝ} (hμ : 0 < μ) : DefaultOk .exponential [g, s, dt, .fin μ] :=
  default_log rfl (fun _ h => ⟨_, exponential_eval_nonneg hμ (le_of_lt h)⟩) fun _ h => exponential_eval_neg hμ h

example : DefaultOk .exponential [.nan, .nan, .nan, .fin 3] := C52_exponential _ _ _ (by norm_num)

/-- **C52**, log-normal. -/
theorem C52_lognormal (μ : ℝ) {σ : ℝ} (hσ : 0 < σ) : DefaultOk .lognormal [g, s, dt, .fin μ, .fin σ] :=
  default_log rfl (fun _ h => ⟨_, lognormal_eval_pos μ hσ h⟩) fun _ h => lognormal_eval_nonpos μ hσ (le_of_lt h)

example : DefaultOk .lognormal [.nan, .nan, .nan, .fin (-3), .fin 2] := C52_lognormal _ _ _ _ (by norm_num)

/-- **C52**, gamma. -/
theorem C52_gamma {α θ : ℝ} (hα : 0 < α) (hθ : 0 < θ) : DefaultOk .gamma [g, s, dt, .fin α, .fin θ] :=
  default_log rfl (fun _ h => ⟨_, gamma_eval_pos hα hθ h⟩) fun _ h => gamma_eval_neg hα hθ h

example : DefaultOk .gamma [.nan, .nan, .nan, .fin 3, .fin 2] := C52_gamma _ _ _ (by norm_num) (by norm_num)

/-- **C52**, inverse gamma. -/
theorem C52_invgamma {α β : ℝ} (hα : 0 < α) (hβ : 0 < β) : DefaultOk .invgamma [g, s, dt, .fin α, .fin β] :=
  default_log rfl (fun _ h => ⟨_, invgamma_eval_pos hα hβ h⟩) fun _ h => invgamma_eval_nonpos hα hβ (le_of_lt h)

example : DefaultOk .invgamma [.nan, .nan, .nan, .fin 3, .fin 2] := C52_invgamma _ _ _ (by norm_num) (by norm_num)

/-- **C52**, chi-square. -/
theorem C52_chisquare {ν : ℝ} (hν : 0 < ν) : DefaultOk .chisquare [g, s, dt, .fin ν] := by
  have e : ∀ x : ℝ, transDistLogprob .chisquare (.fin x) [g, s, dt, .fin ν] = gammaLogprob (.fin x) (.fin (ν / 2)) (.fin 2) := fun x => by
    show chisquareLogprob (.fin x) (.fin ν) = _
    rw [chisquareLogprob, ofNat_eq, div_fin _ two_ne_zero]
  exact default_log rfl (fun x h => ⟨_, (e x).trans (gamma_eval_pos (by positivity) two_pos h)⟩) fun x h =>
    (e x).trans (gamma_eval_neg (by positivity) two_pos h)

example : DefaultOk .chisquare [.nan, .nan, .nan, .fin 3] := C52_chisquare _ _ _ (by norm_num)

/-- **C52**, Weibull. -/
theorem C52_weibull {c : ℝ} (hc : 0 < c) : DefaultOk .weibull [g, s, dt, .fin c] :=
  default_log rfl (fun _ h => ⟨_, weibull_eval_pos hc h⟩) fun _ h => weibull_eval_neg hc h

example : DefaultOk .weibull [.nan, .nan, .nan, .fin 3] := C52_weibull _ _ _ (by norm_num)

/-- **C52**, beta. -/
theorem C52_beta {α β : ℝ} (hα : 0 < α) (hβ : 0 < β) : DefaultOk .beta [g, s, dt, .fin α, .fin β] := by
  refine ⟨_, rfl, ?_⟩
  rw [support_Ioo .beta [g, s, dt, .fin α, .fin β] zero_lt_one (fun _ h1 h2 => ⟨_, beta_eval_in hα hβ h1 h2⟩) fun _ h => beta_eval_out hα hβ h]
  exact C49_logodds

example : DefaultOk .beta [.nan, .nan, .nan, .fin 3, .fin 2] := C52_beta _ _ _ (by norm_num) (by norm_num)

theorem support_halfcauchy (l : ℝ) {b : ℝ} (hb : 0 < b) : interior (support .halfcauchy [g, s, dt, .fin l, .fin b]) = Ioi l :=
  support_Ioi _ _ (fun _ h => ⟨_, halfcauchy_eval_ge hb (le_of_lt h)⟩) fun _ h => halfcauchy_eval_lt hb h

/-- **C52**, half-Cauchy: right exactly when the location is zero.  Missing: other locations, where the claim is false. -/
theorem C52_halfcauchy_partial (l : ℝ) {b : ℝ} (hb : 0 < b) : DefaultOk .halfcauchy [g, s, dt, .fin l, .fin b] ↔ l = 0 := by
  constructor
  · rintro ⟨t, ht, hinv⟩
    cases ht
    rw [support_halfcauchy g s dt l hb] at hinv
    rcases lt_trichotomy l 0 with h | h | h
    · obtain ⟨y, _, e, _⟩ := hinv.fwd 0 h
      simp [RVTransform.log] at e
    · exact h
    · obtain ⟨x, hx, e, _⟩ := hinv.bwd (Real.log l) trivial
      simp only [RVTransform.log, exp_fin, Real.exp_log h, Except.ok.injEq, fin_inj] at e
      exact absurd hx (by rw [← e]; simp)
  · rintro rfl
    exact ⟨_, rfl, by rw [support_halfcauchy g s dt 0 hb]; exact C49_log⟩

/-- **C52** is false for the half-Cauchy distribution with location `1`: the unconstrained value `-1` is mapped to a point of log-probability `-inf`. -/
theorem C52_halfcauchy_wrong : ∃ x, RVTransform.log.backward (.fin (-1)) = .ok (.fin x) ∧
    transDistLogprob .halfcauchy (.fin x) [g, s, dt, .fin 1, .fin 1] = .ok .ninf :=
  ⟨Real.exp (-1), rfl, halfcauchy_eval_lt one_pos (by rw [Real.exp_lt_one_iff]; norm_num)⟩

theorem support_pareto {a m : ℝ} (ha : 0 < a) (hm : 0 < m) : interior (support .pareto [g, s, dt, .fin a, .fin m]) = Ioi m :=
  support_Ioi _ _ (fun _ h => ⟨_, pareto_eval_ge ha hm (le_of_lt h)⟩) fun _ h => pareto_eval_lt ha hm h

/-- **C52**, Pareto: right exactly when shape and scale coincide, because the shape `alpha` is used as the lower bound instead of the scale `m`.
Missing: all other parameters, where the claim is false. -/
theorem C52_pareto_partial {a m : ℝ} (ha : 0 < a) (hm : 0 < m) : DefaultOk .pareto [g, s, dt, .fin a, .fin m] ↔ a = m := by
  constructor
  · rintro ⟨t, ht, hinv⟩
    cases ht
    rw [support_pareto g s dt ha hm] at hinv
    rcases lt_trichotomy a m with h | h | h
    · obtain ⟨x, hx, e, _⟩ := hinv.bwd (Real.log (m - a)) trivial
      simp only [RVTransform.interval, exp_fin, Real.exp_log (sub_pos.2 h), add_fin, Except.ok.injEq, fin_inj] at e
      exact absurd hx (by rw [← e]; simp)
    · exact h
    · obtain ⟨y, _, e, _⟩ := hinv.fwd a h
      simp [RVTransform.interval] at e
  · rintro rfl
    exact ⟨_, rfl, by rw [support_pareto g s dt ha ha]; exact C49_interval_lower a⟩

/-- **C52** is false for the Pareto distribution with shape `1` and scale `2`: the unconstrained value `-1` is mapped to a point of
log-probability `-inf`. -/
theorem C52_pareto_wrong : ∃ t x, defaultTransform .pareto [g, s, dt, .fin 1, .fin 2] = .ok t ∧ t.backward (.fin (-1)) = .ok (.fin x) ∧
    transDistLogprob .pareto (.fin x) [g, s, dt, .fin 1, .fin 2] = .ok .ninf :=
  ⟨_, Real.exp (-1) + 1, rfl, by simp [RVTransform.interval], pareto_eval_lt one_pos two_pos (by
    have : Real.exp (-1) < 1 := by rw [Real.exp_lt_one_iff]; norm_num
    linarith)⟩

/-- **C52**, von Mises: every unconstrained value is mapped into the support.  Missing: `forward` is the identity on `(-π, π]`, so it does not
reach the whole real line (`C52_vonmises_not_onto`). -/
theorem C52_vonmises_partial (μ : ℝ) {κ : ℝ} (hκ : 0 < κ) (y : ℝ) : ∃ t x, defaultTransform .vonmises [g, s, dt, .fin μ, .fin κ] = .ok t ∧
    t.backward (.fin y) = .ok (.fin x) ∧ x ∈ support .vonmises [g, s, dt, .fin μ, .fin κ] := by
  obtain ⟨x, hx, k, e, _⟩ := C49_circular_wraps y
  exact ⟨_, x, rfl, e, _, vonmises_in μ hκ ⟨hx.1.le, hx.2⟩⟩

theorem C52_vonmises_not_onto (μ : ℝ) {κ : ℝ} (hκ : 0 < κ) : ¬ DefaultOk .vonmises [g, s, dt, .fin μ, .fin κ] := by
  rintro ⟨t, ht, hinv⟩
  cases ht
  obtain ⟨x, hx, _, e⟩ := hinv.bwd 5 trivial
  simp only [RVTransform.circular, Except.ok.injEq, fin_inj] at e
  have := interior_subset hx
  rw [e] at this
  refine not_support (d := .vonmises) (inputs := [g, s, dt, .fin μ, .fin κ]) (vonmises_out μ hκ ?_) this
  intro h
  have := h.2
  linarith [Real.pi_le_four]

/-- **C52** put to use: under its default transform a gamma variable has a proper density on the whole line. -/
example {α θ : ℝ} (hα : 0 < α) (hθ : 0 < θ) : ∫⁻ y, dens (transformedLogprob .log (fun v => gammaLogprob v (.fin α) (.fin θ)) true (.fin y)) =
    ProbabilityTheory.gammaMeasure α (1 / θ) univ := by
  refine (C51_transformed_mass C49_log C50_log (C19_gamma_partial hα hθ).1 ?_).2
  rw [ProbabilityTheory.gammaMeasure, MeasureTheory.withDensity_apply _ measurableSet_Ioi.compl, compl_Ioi,
    MeasureTheory.setLIntegral_congr MeasureTheory.Iio_ae_eq_Iic.symm]
  exact ProbabilityTheory.lintegral_gammaPDF_of_nonpos le_rfl

end Verif
