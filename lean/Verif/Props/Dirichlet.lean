import Verif.Lemmas.Dirichlet
import Verif.Lemmas.Vec
import Verif.Lemmas.Dist2
import Mathlib.Data.Fin.VecNotation
import Mathlib.Tactic.FinCases

/-! # C38: the Dirichlet distribution -/

namespace Verif
open FVal MeasureTheory ProbabilityTheory ENNReal

/-- The log-probability of a real vector. -/
noncomputable def dirichletAt {n : ℕ} (α x : Fin n → ℝ) : Except Err FVal :=
  dirichletLogprob (List.ofFn fun i => fin (x i)) (List.ofFn fun i => fin (α i))

section
variable {m : ℕ} {α x : Fin (m + 1) → ℝ}

theorem dirichletAt_in (hα : ∀ i, 0 < α i) (hx : ∀ i, 0 ≤ x i ∧ x i ≤ 1) :
    dirichletAt α x = .ok (fsum (List.ofFn fun i => xlogy0 (fin (α i - 1)) (fin (x i)) - fin (Real.log (Real.Gamma (α i)))) +
      fin (Real.log (Real.Gamma (∑ i, α i)))) := by
  have hA : 0 < ∑ i, α i := Finset.sum_pos (fun i _ => hα i) ⟨0, Finset.mem_univ _⟩
  rw [dirichletAt, dirichletLogprob]
  beta_reduce
  rw [checkParam_ok (by simpa only [forall_mem_ofFn, List.foldr, and_true, zero_eq, lt_fin] using hα), switch_pos (by simpa only [forall_mem_ofFn, zero_eq, one_eq, le_fin] using ⟨fun i => (hx i).1, fun i => (hx i).2⟩),
    zipWith_ofFn, fsum_ofFn_fin, gammaln_fin_pos hA]
  congr 4
  funext i
  rw [gammaln_fin_pos (hα i)]
  simp

theorem dirichletAt_out (hα : ∀ i, 0 < α i) (hx : ∃ i, x i < 0 ∨ 1 < x i) : dirichletAt α x = .ok ninf := by
  rw [dirichletAt, dirichletLogprob]
  beta_reduce
  rw [checkParam_ok (by simpa only [forall_mem_ofFn, List.foldr, and_true, zero_eq, lt_fin] using hα), switch_neg]
  simp only [forall_mem_ofFn, zero_eq, one_eq, le_fin]
  rintro ⟨h1, h2⟩
  obtain ⟨i, h | h⟩ := hx
  · exact absurd (h1 i) (not_le.2 h)
  · exact absurd (h2 i) (not_le.2 h)

theorem dirichletAt_pos (hα : ∀ i, 0 < α i) (hx : ∀ i, 0 < x i ∧ x i ≤ 1) :
    dirichletAt α x = .ok (fin (Real.log (dirichletPDF α x))) := by
  have hA : 0 < ∑ i, α i := Finset.sum_pos (fun i _ => hα i) ⟨0, Finset.mem_univ _⟩
  have hG := Real.Gamma_pos_of_pos hA
  rw [dirichletAt_in hα fun i => ⟨(hx i).1.le, (hx i).2⟩]
  have e : (fun i => xlogy0 (fin (α i - 1)) (fin (x i)) - fin (Real.log (Real.Gamma (α i)))) =
      fun i => fin (Real.log (x i ^ (α i - 1) / Real.Gamma (α i))) := by
    funext i
    have hGi := Real.Gamma_pos_of_pos (hα i)
    rw [xlogy0_pos _ (hx i).1, sub_fin, Real.log_div (Real.rpow_pos_of_pos (hx i).1 _).ne' hGi.ne', Real.log_rpow (hx i).1]
  have hpos : ∀ i, 0 < x i ^ (α i - 1) / Real.Gamma (α i) := fun i =>
    div_pos (Real.rpow_pos_of_pos (hx i).1 _) (Real.Gamma_pos_of_pos (hα i))
  rw [e, fsum_ofFn_fin, add_fin, dirichletPDF, Real.log_mul hG.ne' (Finset.prod_pos fun i _ => hpos i).ne',
    Real.log_prod fun i _ => (hpos i).ne', add_comm]

theorem fsum_fin_or_ninf : ∀ {l : List FVal}, (∀ v ∈ l, v = ninf ∨ ∃ r, v = fin r) →
    (fsum l = ninf ∨ ∃ r, fsum l = fin r) ∧ (ninf ∈ l → fsum l = ninf)
  | [], _ => ⟨.inr ⟨0, rfl⟩, by simp⟩
  | v :: l, h => by
    obtain ⟨h1, h2⟩ := fsum_fin_or_ninf (l := l) fun w hw => h w (by simp [hw])
    rw [fsum_cons]
    rcases h v (by simp) with rfl | ⟨r, rfl⟩
    · rcases h1 with h1 | ⟨s, h1⟩ <;> simp [h1]
    · refine ⟨?_, fun hm => ?_⟩
      · rcases h1 with h1 | ⟨s, h1⟩ <;> simp [h1]
      · have : ninf ∈ l := by simpa using hm
        simp [h2 this]

theorem dirichlet_terms (hx : ∀ i, 0 ≤ x i) :
    ∀ v ∈ List.ofFn fun i => xlogy0 (fin (α i - 1)) (fin (x i)) - fin (Real.log (Real.Gamma (α i))), v = ninf ∨ ∃ r, v = fin r := by
  rw [forall_mem_ofFn]
  intro i
  rcases (hx i).eq_or_lt with h | h
  · rw [← h]
    by_cases hm : α i - 1 = 0
    · rw [hm, xlogy0_zero_zero]; exact .inr ⟨_, sub_fin _ _⟩
    · rw [xlogy0_zero_ne hm]; exact .inl rfl
  · rw [xlogy0_pos _ h]; exact .inr ⟨_, sub_fin _ _⟩

/-- **C38** (vectors with sum one, and vectors outside the unit cube) For every concentration vector, of any length, the Dirichlet
log-probability is a log-density of the law of normalised independent Gamma variables; inside the simplex it is the log of
`Γ(∑αᵢ) ∏ xᵢ^(αᵢ-1)/Γ(αᵢ)`, and it is `-inf` if an entry is negative or above one.  Missing: vectors in the unit cube whose sum is
not one, where the property is false (`C38_off_simplex_wrong`), and the boundary (`C38_boundary_wrong`). -/
theorem C38_dirichlet_partial (hα : ∀ i, 0 < α i) :
    IsLogDensityS (dirichletAt α) (dirichletLaw α) ∧
    (∀ x : Fin (m + 1) → ℝ, (∀ i, 0 < x i) → ∑ i, x i = 1 →
      dirichletAt α x = .ok (fin (Real.log (Real.Gamma (∑ i, α i) * ∏ i, x i ^ (α i - 1) / Real.Gamma (α i))))) ∧
    ∀ x : Fin (m + 1) → ℝ, (∃ i, x i < 0 ∨ 1 < x i) → IsNegInf (dirichletAt α x) := by
  have hle : ∀ {x : Fin (m + 1) → ℝ}, (∀ i, 0 ≤ x i) → ∑ i, x i = 1 → ∀ i, x i ≤ 1 := by
    intro x h0 h1 i
    rw [← h1]
    exact Finset.single_le_sum (fun i _ => h0 i) (Finset.mem_univ i)
  refine ⟨⟨fun x => ?_, fun s hs => ?_⟩, fun x h0 h1 => dirichletAt_pos hα fun i => ⟨h0 i, hle (fun i => (h0 i).le) h1 i⟩,
    fun x h => dirichletAt_out hα h⟩
  · by_cases h : ∃ i, x i < 0 ∨ 1 < x i
    · rw [dirichletAt_out hα h]; exact clean_ninf
    · push Not at h
      rw [dirichletAt_in hα h]
      rcases (fsum_fin_or_ninf (dirichlet_terms (α := α) fun i => (h i).1)).1 with e | ⟨r, e⟩
      · rw [e]; exact clean_ninf
      · rw [e]; exact clean_fin _
  · classical
    rw [dirichletLaw_apply hα hs]
    refine lintegral_congr_ae (ae_restrict_of_ae ?_)
    filter_upwards [ae_simplexPoint_ne_zero m] with y hy
    have hsum := sum_simplexPoint y
    split_ifs with h
    · rw [dirichletAt_pos hα fun i => ⟨lt_of_le_of_ne (h i) (hy i).symm, hle h hsum i⟩]
      refine dens_log ?_
      have hA : 0 < ∑ i, α i := Finset.sum_pos (fun i _ => hα i) ⟨0, Finset.mem_univ _⟩
      exact mul_pos (Real.Gamma_pos_of_pos hA) (Finset.prod_pos fun i _ =>
        div_pos (Real.rpow_pos_of_pos (lt_of_le_of_ne (h i) (hy i).symm) _) (Real.Gamma_pos_of_pos (hα i)))
    · push Not at h
      obtain ⟨i, hi⟩ := h
      rw [dirichletAt_out hα ⟨i, .inl hi⟩]
      rfl

/-- **C38, refuted**: every vector with entries in `(0, 1]` has a finite log-probability, whatever its sum. -/
theorem C38_off_simplex_wrong (hα : ∀ i, 0 < α i) (hx : ∀ i, 0 < x i ∧ x i ≤ 1) : ∃ v, dirichletAt α x = .ok (fin v) :=
  ⟨_, dirichletAt_pos hα hx⟩

/-- On the boundary the log-probability is `-inf` wherever an entry is zero with a concentration other than one, although the density
is unbounded there if that concentration is below one. -/
theorem C38_boundary_wrong (hα : ∀ i, 0 < α i) (hx : ∀ i, 0 ≤ x i ∧ x i ≤ 1) {i : Fin (m + 1)} (hi : x i = 0) (hne : α i ≠ 1) :
    dirichletAt α x = .ok ninf := by
  rw [dirichletAt_in hα hx, (fsum_fin_or_ninf (dirichlet_terms (α := α) fun i => (hx i).1)).2]
  · rfl
  · rw [List.mem_ofFn']
    refine ⟨i, ?_⟩
    have : α i - 1 ≠ 0 := sub_ne_zero.2 hne
    show xlogy0 (fin (α i - 1)) (fin (x i)) - fin (Real.log (Real.Gamma (α i))) = ninf
    rw [hi, xlogy0_zero_ne this]; rfl

end

example := C38_dirichlet_partial (α := ![1 / 2, 2, 3]) (by intro i; fin_cases i <;> norm_num)
/-- The vector `(0.2, 0.2)` has a finite log-probability. -/
example := C38_off_simplex_wrong (α := ![2, 2]) (x := ![0.2, 0.2]) (by intro i; fin_cases i <;> norm_num) (by intro i; fin_cases i <;> norm_num)
example := C38_boundary_wrong (α := ![1 / 2, 2]) (x := ![0, 1]) (by intro i; fin_cases i <;> norm_num) (by intro i; fin_cases i <;> norm_num)
  (i := 0) (by simp) (by norm_num)

end Verif
