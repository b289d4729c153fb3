import Verif.Lemmas.MvNormal
import Verif.Lemmas.Vec
import Verif.Spec.MvDensity
import Mathlib.Analysis.Matrix.LDL
import Mathlib.Probability.Distributions.Gaussian.Real

/-! # C37: multivariate normal -/

namespace Verif
open FVal MeasureTheory ProbabilityTheory Matrix WithLp
open scoped ENNReal

variable {n : ℕ}

/-- `L` is the Cholesky factor of `S`: lower triangular, positive diagonal, `L Lᵀ = S`. -/
structure IsCholFactor (S L : Matrix (Fin n) (Fin n) ℝ) : Prop where
  lower : ∀ i j, i < j → L i j = 0
  pos : ∀ i, 0 < L i i
  eq : L * Lᵀ = S

/-- Contract of `Cholesky(lower=True)`: a positive-definite matrix is factored. -/
def CholContract (chol : Matrix (Fin n) (Fin n) ℝ → Option (Matrix (Fin n) (Fin n) ℝ)) : Prop :=
  ∀ S : Matrix (Fin n) (Fin n) ℝ, S.PosDef → ∃ L, chol S = some L ∧ IsCholFactor S L

theorem det_lower {S L : Matrix (Fin n) (Fin n) ℝ} (h : IsCholFactor S L) : L.det = ∏ i, L i i :=
  Matrix.det_of_isLowerTriangular L fun i j hij => h.lower i j (by simpa using hij)

theorem det_lower_pos {S L : Matrix (Fin n) (Fin n) ℝ} (h : IsCholFactor S L) : 0 < L.det := by
  rw [det_lower h]; exact Finset.prod_pos fun i _ => h.pos i

theorem prod_gaussianPDF (z : Fin n → ℝ) : ∏ i, gaussianPDFReal 0 1 (z i) =
    Real.exp (-(1 / 2) * n * Real.log (2 * Real.pi) - 1 / 2 * ∑ i, z i ^ 2) := by
  have e : ∀ x : ℝ, gaussianPDFReal 0 1 x = Real.exp (-(1 / 2) * Real.log (2 * Real.pi) - 1 / 2 * x ^ 2) := fun x => by
    rw [gaussianPDFReal, sub_eq_add_neg (-(1 / 2) * Real.log (2 * Real.pi)), Real.exp_add]
    congr 1
    · rw [show -(1 / 2) * Real.log (2 * Real.pi) = -(Real.log (2 * Real.pi) / 2) by ring, Real.exp_neg,
        ← Real.log_sqrt (by positivity), Real.exp_log (by positivity)]
      simp
    · congr 1; simp; ring
  simp_rw [e]
  rw [← Real.exp_sum, Finset.sum_sub_distrib, Finset.sum_const, Finset.card_univ, Fintype.card_fin, nsmul_eq_mul, ← Finset.mul_sum]
  congr 1
  ring

theorem chk_switch {α : Type*} (f : α → FVal) {c : Prop} (h : c) (a b : α) : checkParam (f (switch c a b)) [c] = .ok (f a) := by
  rw [switch_pos h, checkParam_ok (by simpa using h)]

theorem mvnormal_eval {chol : Matrix (Fin n) (Fin n) ℝ → Option (Matrix (Fin n) (Fin n) ℝ)} {S L : Matrix (Fin n) (Fin n) ℝ}
    (hc : chol S = some L) (h : IsCholFactor S L) (x m : Fin n → ℝ) :
    mvnormalLogprob chol x m S =
      .ok (fin (Real.log ((∏ i, gaussianPDFReal 0 1 (solveLower L (x - m) i)) / L.det))) := by
  have hpos := h.pos
  have hdet := det_lower_pos h
  rw [mvnormalLogprob, mvnormalWith, hc]
  dsimp only
  refine (chk_switch (fun A : Matrix (Fin n) (Fin n) ℝ => -half * fin n * log (2 * fin Real.pi) -
    half * fin (∑ i, solveLower A (x - m) i ^ 2) - fsum (List.ofFn fun i => log (fin (L i i)))) hpos L _).trans ?_
  rw [fsum_ofFn_log fun i => (hpos i).le, ← det_lower h, log_fin_pos hdet, half]
  have h2 : (0 : ℝ) < 2 * Real.pi := by positivity
  fv [log_fin_pos h2]
  rw [prod_gaussianPDF, Real.log_div (Real.exp_pos _).ne' hdet.ne', Real.log_exp]

/-- **C37**, the formula: for a positive-definite covariance `S` of any dimension the log-probability is
`-n/2 log 2π - 1/2 log det S - 1/2 (x - m)ᵀ S⁻¹ (x - m)`. -/
theorem C37_mvnormal_formula {chol : Matrix (Fin n) (Fin n) ℝ → Option (Matrix (Fin n) (Fin n) ℝ)} (hchol : CholContract chol)
    {S : Matrix (Fin n) (Fin n) ℝ} (hS : S.PosDef) (m x : Fin n → ℝ) :
    mvnormalLogprob chol x m S =
      .ok (fin (-(n / 2) * Real.log (2 * Real.pi) - 1 / 2 * Real.log S.det - 1 / 2 * ((x - m) ⬝ᵥ S⁻¹ *ᵥ (x - m)))) := by
  obtain ⟨L, hc, h⟩ := hchol S hS
  have hdet := det_lower_pos h
  rw [mvnormal_eval hc h, prod_gaussianPDF, Real.log_div (Real.exp_pos _).ne' hdet.ne', Real.log_exp]
  congr 2
  have hz := solveLower_spec h.lower (fun i => (h.pos i).ne') (x - m)
  set z := solveLower L (x - m)
  have hu : IsUnit L.det := hdet.ne'.isUnit
  have e1 : S.det = L.det ^ 2 := by rw [← h.eq, det_mul, det_transpose, pow_two]
  have e2 : (x - m) ⬝ᵥ S⁻¹ *ᵥ (x - m) = ∑ i, z i ^ 2 := by
    rw [← h.eq, Matrix.mul_inv_rev, ← mulVec_mulVec, ← hz, mulVec_mulVec _ L⁻¹, nonsing_inv_mul _ hu, one_mulVec,
      ← Matrix.transpose_nonsing_inv, mulVec_transpose, ← dotProduct_mulVec_comm_aux hu z]
    simp [dotProduct, pow_two]
  rw [e1, e2, Real.log_pow]
  push_cast
  ring
where
  dotProduct_mulVec_comm_aux {L : Matrix (Fin n) (Fin n) ℝ} (hu : IsUnit L.det) (z : Fin n → ℝ) :
      z ⬝ᵥ z = (L *ᵥ z) ⬝ᵥ (z ᵥ* L⁻¹) := by
    rw [dotProduct_comm, dotProduct_comm (L *ᵥ z), ← dotProduct_mulVec, mulVec_mulVec, nonsing_inv_mul _ hu, one_mulVec]

/-- The affine map `z ↦ m + L z`. -/
noncomputable def affineEquiv (m : Fin n → ℝ) {L : Matrix (Fin n) (Fin n) ℝ} (hu : IsUnit L.det) : (Fin n → ℝ) ≃ᵐ (Fin n → ℝ) where
  toFun z := m + L *ᵥ z
  invFun x := L⁻¹ *ᵥ (x - m)
  left_inv z := by simp [mulVec_mulVec, nonsing_inv_mul _ hu]
  right_inv x := by simp [mulVec_mulVec, mul_nonsing_inv _ hu]
  measurable_toFun := by
    have : Continuous fun z : Fin n → ℝ => m + L *ᵥ z := by fun_prop
    exact this.measurable
  measurable_invFun := by
    have : Continuous fun x : Fin n → ℝ => L⁻¹ *ᵥ (x - m) := by fun_prop
    exact this.measurable

theorem map_affine_volume (m : Fin n → ℝ) {L : Matrix (Fin n) (Fin n) ℝ} (hd : 0 < L.det) (hu : IsUnit L.det) :
    (volume : Measure (Fin n → ℝ)) = ENNReal.ofReal L.det • Measure.map (affineEquiv m hu) volume := by
  have h := Real.map_matrix_volume_pi_eq_smul_volume_pi hd.ne'
  have hcomp : (affineEquiv m hu : (Fin n → ℝ) → Fin n → ℝ) = (fun y => m + y) ∘ toLin' L := by
    funext z; simp [affineEquiv]
  have hmeas : Measurable (toLin' L) := by
    have : Continuous (toLin' L) := LinearMap.continuous_on_pi _
    exact this.measurable
  rw [hcomp, ← Measure.map_map (measurable_const_add m) hmeas, h, Measure.map_smul, map_add_left_eq_self, smul_smul,
    ← ENNReal.ofReal_mul hd.le, abs_of_pos (inv_pos.2 hd), mul_inv_cancel₀ hd.ne', ENNReal.ofReal_one, one_smul]

/-- **C37** For every mean `m` and positive-definite covariance `S` of any dimension, the multivariate-normal log-probability never
raises, is never NaN (always finite), and its exponential is the density of the Gaussian law with mean `m` and covariance `S`
(so it has total mass one). -/
theorem C37_mvnormal {chol : Matrix (Fin n) (Fin n) ℝ → Option (Matrix (Fin n) (Fin n) ℝ)} (hchol : CholContract chol)
    {S : Matrix (Fin n) (Fin n) ℝ} (hS : S.PosDef) (m : Fin n → ℝ) :
    IsLogDensityV (fun x => mvnormalLogprob chol x m S) ((multivariateGaussian (toLp 2 m) S).map ofLp) ∧
    ∫⁻ x, dens (mvnormalLogprob chol x m S) = 1 := by
  obtain ⟨L, hc, h⟩ := hchol S hS
  have hdet := det_lower_pos h
  have hu : IsUnit L.det := hdet.ne'.isUnit
  have hlaw : ∀ s, MeasurableSet s → ∫⁻ x in s, dens (mvnormalLogprob chol x m S) = ((multivariateGaussian (toLp 2 m) S).map ofLp) s := by
    intro s hs
    have hT : (affineEquiv m hu : (Fin n → ℝ) → Fin n → ℝ) = fun z => m + L *ᵥ z := rfl
    have hg : (fun _ : Fin n => gaussianReal 0 1) = fun _ => (volume : Measure ℝ).withDensity (gaussianPDF 0 1) := by
      funext i; exact gaussianReal_of_var_ne_zero 0 one_ne_zero
    have hsf : ∀ _i : Fin n, SigmaFinite ((volume : Measure ℝ).withDensity (gaussianPDF 0 1)) := fun _ => by
      rw [← gaussianReal_of_var_ne_zero 0 one_ne_zero]; infer_instance
    rw [← h.eq, multivariateGaussian_eq_map, h.eq, ← hT, Measure.map_apply (affineEquiv m hu).measurable hs, hg,
      @pi_withDensity n (fun _ => gaussianPDF 0 1) (fun _ => measurable_gaussianPDF 0 1) hsf, withDensity_apply _ ((affineEquiv m hu).measurable hs)]
    conv_lhs => rw [map_affine_volume m hdet hu]
    rw [Measure.restrict_smul, lintegral_smul_measure, ← lintegral_indicator hs, (affineEquiv m hu).measurableEmbedding.lintegral_map,
      ← lintegral_indicator ((affineEquiv m hu).measurable hs), smul_eq_mul, ← lintegral_const_mul' _ _ (by simp)]
    refine lintegral_congr fun z => ?_
    by_cases hz : affineEquiv m hu z ∈ s
    · rw [Set.indicator_of_mem hz, Set.indicator_of_mem (by exact hz), mvnormal_eval hc h]
      have e : solveLower L (affineEquiv m hu z - m) = z := by
        have := solveLower_spec h.lower (fun i => (h.pos i).ne') (affineEquiv m hu z - m)
        have hinj := congrArg (fun v => L⁻¹ *ᵥ v) this
        simpa [hT, mulVec_mulVec, nonsing_inv_mul _ hu] using hinj
      have hp : 0 < ∏ i, gaussianPDFReal 0 1 (z i) := Finset.prod_pos fun i _ => gaussianPDFReal_pos _ _ _ one_ne_zero
      rw [e, dens_log (div_pos hp hdet), ← ENNReal.ofReal_mul hdet.le, mul_div_cancel₀ _ hdet.ne',
        ENNReal.ofReal_prod_of_nonneg fun i _ => gaussianPDFReal_nonneg _ _ _]
      rfl
    · rw [Set.indicator_of_notMem hz, Set.indicator_of_notMem (by exact hz), mul_zero]
  refine ⟨⟨fun x => ?_, hlaw⟩, ?_⟩
  · rw [mvnormal_eval hc h]; exact clean_fin _
  · have h1 := hlaw _ MeasurableSet.univ
    rw [Measure.restrict_univ] at h1
    rw [h1]
    have : IsProbabilityMeasure ((multivariateGaussian (toLp 2 m) S).map ofLp) :=
      Measure.isProbabilityMeasure_map (by fun_prop)
    exact measure_univ

/-- **C37/C42** A covariance the factorisation rejects (NaN factor, or a factor whose diagonal is not positive) raises
`ParameterValueError`. -/
theorem C37_mvnormal_invalid {chol : Matrix (Fin n) (Fin n) ℝ → Option (Matrix (Fin n) (Fin n) ℝ)} {S : Matrix (Fin n) (Fin n) ℝ}
    (h : ∀ L, chol S = some L → ∃ i, L i i ≤ 0) (x m : Fin n → ℝ) :
    mvnormalLogprob chol x m S = .error .parameterValue := by
  rw [mvnormalLogprob, mvnormalWith]
  cases hc : chol S with
  | none => rfl
  | some L =>
    obtain ⟨i, hi⟩ := h L hc
    exact checkParam_err (by simpa using ⟨i, hi⟩)

/-- Every positive-definite matrix has a Cholesky factor, so the contract can be met. -/
theorem exists_cholFactor {S : Matrix (Fin n) (Fin n) ℝ} (hS : S.PosDef) : ∃ L, IsCholFactor S L := by
  set W := LDL.lowerInv hS with hW
  have hWtri : ∀ i j, i < j → W i j = 0 := fun i j h => LDL.lowerInv_triangular hS h
  have hinv : Invertible W := LDL.invertibleLowerInv hS
  have hWdet : W.det ≠ 0 := (Matrix.isUnit_det_of_invertible W).ne_zero
  have hd : ∀ i, 0 < LDL.diagEntries hS i := by
    intro i
    have hne : W i ≠ 0 := by
      intro h0
      exact hWdet (Matrix.det_eq_zero_of_row_eq_zero i fun j => congrFun h0 j)
    have h1 := hS.dotProduct_mulVec_pos hne
    have h2 : LDL.diagEntries hS i = star (W i) ⬝ᵥ S *ᵥ W i := by
      rw [LDL.diagEntries, EuclideanSpace.inner_toLp_toLp]
      simp [dotProduct_comm, hW]
    rw [h2]; exact h1
  set A := LDL.lower hS with hA
  have hAtri : ∀ i j, i < j → A i j = 0 := by
    have hb : BlockTriangular W OrderDual.toDual := fun i j h => hWtri i j (by simpa using h)
    have := blockTriangular_inv_of_blockTriangular hb
    intro i j h
    exact this (by simpa using h)
  have hAdet : A.det ≠ 0 := by
    rw [hA, LDL.lower, det_nonsing_inv]
    simpa using hWdet
  have hAdiag : ∀ i, A i i ≠ 0 := by
    rw [Matrix.det_of_isLowerTriangular A fun i j h => hAtri i j (by simpa using h)] at hAdet
    intro i h0
    exact hAdet (Finset.prod_eq_zero (Finset.mem_univ i) h0)
  let c : Fin n → ℝ := fun i => (if 0 < A i i then 1 else -1) * Real.sqrt (LDL.diagEntries hS i)
  have hc2 : ∀ i, c i * c i = LDL.diagEntries hS i := fun i => by
    have := Real.mul_self_sqrt (hd i).le
    simp only [c]
    split_ifs <;> linarith
  refine ⟨A * diagonal c, fun i j h => ?_, fun i => ?_, ?_⟩
  · rw [mul_diagonal, hAtri i j h, zero_mul]
  · rw [mul_diagonal]
    have hs := Real.sqrt_pos.2 (hd i)
    simp only [c]
    split_ifs with h
    · simpa using mul_pos h hs
    · have : A i i < 0 := lt_of_le_of_ne (not_lt.1 h) (hAdiag i)
      nlinarith
  · rw [transpose_mul, diagonal_transpose, Matrix.mul_assoc, ← Matrix.mul_assoc (diagonal c), diagonal_mul_diagonal]
    simp_rw [hc2]
    have := LDL.lower_conj_diag hS
    rw [LDL.diag, Matrix.mul_assoc] at this
    simpa using this

theorem exists_cholContract : ∃ chol : Matrix (Fin n) (Fin n) ℝ → Option (Matrix (Fin n) (Fin n) ℝ), CholContract chol := by
  classical
  refine ⟨fun S => if h : S.PosDef then some (exists_cholFactor h).choose else none, fun S hS => ?_⟩
  exact ⟨_, dif_pos hS, (exists_cholFactor hS).choose_spec⟩

example : ∃ chol, IsLogDensityV (fun x => mvnormalLogprob chol x ![1, 2, 3] (1 : Matrix (Fin 3) (Fin 3) ℝ))
    ((multivariateGaussian (toLp 2 ![1, 2, 3]) (1 : Matrix (Fin 3) (Fin 3) ℝ)).map ofLp) := by
  obtain ⟨chol, h⟩ := exists_cholContract (n := 3)
  exact ⟨chol, (C37_mvnormal h Matrix.PosDef.one _).1⟩

end Verif
