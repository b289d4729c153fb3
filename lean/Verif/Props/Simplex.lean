import Verif.Model.Simplex
import Verif.Spec.Simplex
import Verif.Lemmas.Vec
import Verif.Lemmas.FVal
import Mathlib.LinearAlgebra.Matrix.SchurComplement
import Mathlib.LinearAlgebra.Determinant
import Mathlib.Analysis.SpecialFunctions.ExpDeriv
import Mathlib.Analysis.Calculus.FDeriv.Pi
import Mathlib.Analysis.Calculus.Deriv.Inv
import Mathlib.Topology.Algebra.Module.FiniteDimension

/-! # C54: the simplex transform, for every dimension -/

namespace Verif
open FVal

section
variable {n : ℕ}

/-- The total that `softmax` divides by. -/
noncomputable def sxZ (y : Fin n → ℝ) : ℝ := ∑ j, Real.exp (y j) + Real.exp (-∑ j, y j)

/-- The weights, the last one taking the leftover coordinate `-∑ y`. -/
noncomputable def sxB (y : Fin n → ℝ) : Fin (n + 1) → ℝ :=
  Fin.snoc (fun i => Real.exp (y i) / sxZ y) (Real.exp (-∑ j, y j) / sxZ y)

theorem sxZ_pos (y : Fin n → ℝ) : 0 < sxZ y :=
  add_pos_of_nonneg_of_pos (Finset.sum_nonneg fun _ _ => (Real.exp_pos _).le) (Real.exp_pos _)

theorem sxB_mem (y : Fin n → ℝ) : sxB y ∈ openSimplex (n + 1) := by
  constructor
  · intro i
    refine Fin.lastCases ?_ (fun i => ?_) i
    · simp only [sxB, Fin.snoc_last]; exact div_pos (Real.exp_pos _) (sxZ_pos y)
    · simp only [sxB, Fin.snoc_castSucc]; exact div_pos (Real.exp_pos _) (sxZ_pos y)
  · rw [Fin.sum_univ_castSucc]
    simp only [sxB, Fin.snoc_last, Fin.snoc_castSucc]
    rw [← Finset.sum_div, ← add_div]
    exact div_self (sxZ_pos y).ne'

theorem map_vec (f : FVal → FVal) (g : ℝ → ℝ) (x : Fin n → ℝ) (h : ∀ i, f (fin (x i)) = fin (g (x i))) :
    (vec x).map f = vec fun i => g (x i) := by
  rw [vec, vec, List.map_ofFn]
  congr 1
  funext i
  exact h i

theorem vec_snoc (y : Fin n → ℝ) (a : ℝ) : vec y ++ [fin a] = vec (Fin.snoc y a : Fin (n + 1) → ℝ) := by
  simp only [vec]
  rw [List.ofFn_succ_last]
  simp

theorem fsum_vec (y : Fin n → ℝ) : fsum (vec y) = fin (∑ i, y i) := fsum_ofFn_fin y

theorem length_vec (y : Fin n → ℝ) : (vec y).length = n := by simp [vec]

theorem fmax_fin : ∀ l : List ℝ, l ≠ [] → ∃ m, fmax (l.map fin) = fin m
  | [], h => absurd rfl h
  | [a], _ => ⟨a, rfl⟩
  | a :: b :: l, _ => by
    obtain ⟨m, hm⟩ := fmax_fin (b :: l) (by simp)
    simp only [List.map_cons] at hm ⊢
    simp only [fmax, hm, FVal.max2, switch]
    split_ifs
    · exact ⟨m, rfl⟩
    · exact ⟨a, rfl⟩

theorem fmax_vec (y : Fin (n + 1) → ℝ) : ∃ m, fmax (vec y) = fin m := by
  have := fmax_fin (List.ofFn y) (by simp)
  rwa [List.map_ofFn] at this

theorem sum_snoc (y : Fin n → ℝ) (a : ℝ) (f : ℝ → ℝ) :
    ∑ i : Fin (n + 1), f ((Fin.snoc y a : Fin (n + 1) → ℝ) i) = ∑ i, f (y i) + f a := by
  rw [Fin.sum_univ_castSucc]; simp

theorem backward_eq (y : Fin n → ℝ) : simplexBackward (vec y) = vec (sxB y) := by
  unfold simplexBackward
  rw [fsum_vec, neg_fin, vec_snoc]
  set w : Fin (n + 1) → ℝ := Fin.snoc y (-∑ i, y i) with hw
  obtain ⟨m, hm⟩ := fmax_vec w
  dsimp only
  rw [hm, map_vec _ (fun v => Real.exp (v - m)) w (fun i => by simp), fsum_vec]
  have hs : ∑ i, Real.exp (w i - m) = sxZ y * Real.exp (-m) := by
    simp only [sub_eq_add_neg, Real.exp_add]
    rw [← Finset.sum_mul, hw, sum_snoc y _ Real.exp, sxZ]
  have hpos : (∑ i, Real.exp (w i - m)) ≠ 0 := by
    rw [hs]; exact (mul_pos (sxZ_pos y) (Real.exp_pos _)).ne'
  rw [map_vec (· / fin (∑ i, Real.exp (w i - m))) (fun v => v / ∑ i, Real.exp (w i - m)) (fun i => Real.exp (w i - m))
    (fun i => div_fin _ hpos), hs]
  congr 1
  funext i
  have e (t : ℝ) : Real.exp (t - m) / (sxZ y * Real.exp (-m)) = Real.exp t / sxZ y := by
    rw [sub_eq_add_neg, Real.exp_add, mul_div_mul_right _ _ (Real.exp_pos _).ne']
  rw [e]
  refine Fin.lastCases ?_ (fun i => ?_) i <;> simp [hw, sxB]

/-- The centred log-ratio coordinates. -/
noncomputable def sxF (x : Fin (n + 1) → ℝ) : Fin n → ℝ := fun i =>
  Real.log (x i.castSucc) - (∑ j, Real.log (x j)) / (n + 1)

theorem forward_eq (x : Fin (n + 1) → ℝ) (h : ∀ i, 0 < x i) : simplexForward (vec x) = vec (sxF x) := by
  unfold simplexForward
  rw [map_vec _ Real.log x (fun i => log_fin_pos (h i)), length_vec]
  dsimp only
  have hn : ((n + 1 : ℕ) : ℝ) ≠ 0 := by positivity
  rw [fsum_vec, div_fin _ hn]
  have : (vec fun i => Real.log (x i)).dropLast = vec fun i : Fin n => Real.log (x i.castSucc) := by
    simp only [vec]
    rw [List.ofFn_succ_last]
    simp
  rw [this, map_vec _ (fun v => v - (∑ j, Real.log (x j)) / ((n + 1 : ℕ) : ℝ)) _ (fun i => by simp)]
  push_cast
  rfl

theorem sxF_sxB (y : Fin n → ℝ) : sxF (sxB y) = y := by
  have hz := sxZ_pos y
  have hl (t : ℝ) : Real.log (Real.exp t / sxZ y) = t - Real.log (sxZ y) := by
    rw [Real.log_div (Real.exp_pos _).ne' hz.ne', Real.log_exp]
  have hs : ∑ j, Real.log (sxB y j) = -((n : ℝ) + 1) * Real.log (sxZ y) := by
    rw [Fin.sum_univ_castSucc]
    simp only [sxB, Fin.snoc_last, Fin.snoc_castSucc, hl]
    rw [Finset.sum_sub_distrib]
    simp
    ring
  funext i
  simp only [sxF, hs]
  simp only [sxB, Fin.snoc_castSucc, hl]
  field_simp
  ring

theorem sxB_sxF (x : Fin (n + 1) → ℝ) (h : x ∈ openSimplex (n + 1)) : sxB (sxF x) = x := by
  obtain ⟨hp, hs⟩ := h
  set c := (∑ j, Real.log (x j)) / ((n : ℝ) + 1) with hc
  have he (i : Fin (n + 1)) : Real.exp (Real.log (x i) - c) = x i * Real.exp (-c) := by
    rw [sub_eq_add_neg, Real.exp_add, Real.exp_log (hp i)]
  have hlast : -∑ j, sxF x j = Real.log (x (Fin.last n)) - c := by
    simp only [sxF, ← hc]
    rw [Finset.sum_sub_distrib]
    have : (∑ j, Real.log (x j)) = c * (n + 1) := by rw [hc]; field_simp
    rw [Fin.sum_univ_castSucc] at this
    simp
    linarith
  have hZ : sxZ (sxF x) = Real.exp (-c) := by
    rw [sxZ, hlast, he]
    simp only [sxF, ← hc, he]
    rw [← Finset.sum_mul, ← add_mul, ← Fin.sum_univ_castSucc, hs, one_mul]
  funext i
  refine Fin.lastCases ?_ (fun i => ?_) i
  · simp only [sxB, Fin.snoc_last, hlast, hZ, he]
    field_simp
  · simp only [sxB, Fin.snoc_castSucc, hZ]
    simp only [sxF, ← hc, he]
    field_simp

/-- The Jacobian matrix of the free coordinates. -/
noncomputable def sxJ (y : Fin n → ℝ) : Matrix (Fin n) (Fin n) ℝ := fun i j =>
  sxB y i.castSucc * ((if i = j then 1 else 0) - (sxB y j.castSucc - sxB y (Fin.last n)))

theorem sxJ_det (y : Fin n → ℝ) : (sxJ y).det = (n + 1) * ∏ i, sxB y i := by
  have : sxJ y = Matrix.diagonal (fun i : Fin n => sxB y i.castSucc) *
      (1 + Matrix.replicateCol Unit (fun _ : Fin n => (1 : ℝ)) *
        Matrix.replicateRow Unit fun j : Fin n => -(sxB y j.castSucc - sxB y (Fin.last n))) := by
    ext i j
    rw [Matrix.diagonal_mul]
    simp only [sxJ, Matrix.one_apply, Matrix.mul_apply, Matrix.add_apply, Matrix.replicateCol_apply, Matrix.replicateRow_apply,
      Finset.univ_unique, Finset.sum_singleton]
    ring
  rw [this, Matrix.det_mul, Matrix.det_diagonal, Matrix.det_one_add_replicateCol_mul_replicateRow,
    Fin.prod_univ_castSucc]
  have hs := (sxB_mem y).2
  rw [Fin.sum_univ_castSucc] at hs
  have : (fun j : Fin n => -(sxB y j.castSucc - sxB y (Fin.last n))) ⬝ᵥ (fun _ => (1 : ℝ)) =
      -∑ j : Fin n, sxB y j.castSucc + n * sxB y (Fin.last n) := by
    simp [dotProduct]
    ring
  rw [this]
  have : ∑ j : Fin n, sxB y j.castSucc = 1 - sxB y (Fin.last n) := by linarith
  rw [this]; ring

theorem sxZ_hasFDerivAt (y : Fin n → ℝ) : HasFDerivAt sxZ
    (∑ j, Real.exp (y j) • ContinuousLinearMap.proj (R := ℝ) (φ := fun _ : Fin n => ℝ) j +
      Real.exp (-∑ j, y j) • -∑ j, ContinuousLinearMap.proj (R := ℝ) (φ := fun _ : Fin n => ℝ) j) y := by
  unfold sxZ
  refine HasFDerivAt.add ?_ ?_
  · exact HasFDerivAt.fun_sum fun j _ => (hasFDerivAt_apply j y).exp
  · exact (HasFDerivAt.fun_sum fun j _ => hasFDerivAt_apply j y).neg.exp

theorem sxB_hasFDerivAt (y : Fin n → ℝ) : HasFDerivAt (fun y (i : Fin n) => sxB y i.castSucc)
    (LinearMap.toContinuousLinearMap (Matrix.toLin' (sxJ y))) y := by
  rw [hasFDerivAt_pi']
  intro i
  have h1 := (hasFDerivAt_apply (𝕜 := ℝ) i y).exp
  have h2 := (sxZ_hasFDerivAt y)
  have h3 := (hasDerivAt_inv (sxZ_pos y).ne').comp_hasFDerivAt y h2
  have h4 := h1.mul h3
  have e : (fun y : Fin n → ℝ => sxB y i.castSucc) = (fun y => Real.exp (y i)) * ((fun z : ℝ => z⁻¹) ∘ sxZ) := by
    funext y; simp [sxB, div_eq_mul_inv]
  rw [e]
  refine h4.congr_fderiv ?_
  ext v
  have hz := (sxZ_pos y).ne'
  simp only [_root_.add_apply, _root_.smul_apply, ContinuousLinearMap.proj_apply,
    ContinuousLinearMap.comp_apply, LinearMap.coe_toContinuousLinearMap', Matrix.toLin'_apply, Matrix.mulVec, dotProduct,
    sxJ, _root_.neg_apply, smul_eq_mul, Function.comp, _root_.sum_apply]
  simp only [sxB, Fin.snoc_castSucc, Fin.snoc_last]
  have r : ∑ x : Fin n, Real.exp (y i) / sxZ y * ((if i = x then (1 : ℝ) else 0) -
      (Real.exp (y x) / sxZ y - Real.exp (-∑ j, y j) / sxZ y)) * v x =
      Real.exp (y i) / sxZ y * (v i - (∑ x, Real.exp (y x) * v x) / sxZ y + Real.exp (-∑ j, y j) / sxZ y * ∑ x, v x) := by
    rw [Finset.sum_div, Finset.mul_sum]
    have : v i = ∑ x, (if i = x then (1 : ℝ) else 0) * v x := by simp
    rw [this, ← Finset.sum_sub_distrib, ← Finset.sum_add_distrib, Finset.mul_sum]
    refine Finset.sum_congr rfl fun x _ => ?_
    ring
  rw [r]
  field_simp
  ring

theorem coords_vec_castSucc (x : Fin (n + 1) → ℝ) : coords n (vec x) = fun i => x i.castSucc := by
  funext i
  have : (vec x)[i.val]? = some (fin (x i.castSucc)) := by
    simp only [vec]
    rw [List.getElem?_ofFn]
    have hi : i.val < n + 1 := by omega
    simp only [hi, dite_true]
    rfl
  simp only [coords, this]

theorem logJac_eq (y : Fin n → ℝ) : simplexLogJacDet (vec y) = fin (Real.log ((n + 1) * ∏ i, sxB y i)) := by
  have hz := sxZ_pos y
  have hn : (0 : ℝ) < (n : ℝ) + 1 := by positivity
  unfold simplexLogJacDet
  dsimp only
  rw [length_vec, fsum_vec, map_vec _ (fun v => v + ∑ i, y i) y (fun i => rfl), vec_snoc,
    map_vec _ Real.exp _ (fun i => rfl), fsum_vec, sum_snoc _ _ Real.exp, log_fin_pos hn]
  have hs : ∑ i, Real.exp (y i + ∑ j, y j) + Real.exp 0 = sxZ y * Real.exp (∑ j, y j) := by
    simp only [Real.exp_add, sxZ]
    rw [← Finset.sum_mul, add_mul, ← Real.exp_add]
    simp
  rw [hs, log_fin_pos (mul_pos hz (Real.exp_pos _))]
  simp only [mul_fin, add_fin, sub_fin]
  congr 1
  rw [Real.log_mul hz.ne' (Real.exp_pos _).ne', Real.log_exp,
    Real.log_mul hn.ne' (Finset.prod_pos fun i _ => (sxB_mem y).1 i).ne', Real.log_prod (fun i _ => ((sxB_mem y).1 i).ne')]
  have hl (t : ℝ) : Real.log (Real.exp t / sxZ y) = t - Real.log (sxZ y) := by
    rw [Real.log_div (Real.exp_pos _).ne' hz.ne', Real.log_exp]
  rw [Fin.sum_univ_castSucc]
  simp only [sxB, Fin.snoc_last, Fin.snoc_castSucc, hl]
  rw [Finset.sum_sub_distrib]
  simp
  ring

end

/-- C54: `backward` takes every unconstrained vector into the open simplex, and `forward` takes it back. -/
theorem C54_backward_then_forward {n : ℕ} (y : Fin n → ℝ) :
    ∃ x ∈ openSimplex (n + 1), simplexBackward (vec y) = vec x ∧ simplexForward (vec x) = vec y :=
  ⟨sxB y, sxB_mem y, backward_eq y, by rw [forward_eq _ (sxB_mem y).1, sxF_sxB]⟩

example := C54_backward_then_forward ![(1 : ℝ), -2, 3]

/-- C54: every point of the open simplex is reached: `backward` undoes `forward`. -/
theorem C54_forward_then_backward {n : ℕ} (x : Fin (n + 1) → ℝ) (h : x ∈ openSimplex (n + 1)) :
    ∃ y : Fin n → ℝ, simplexForward (vec x) = vec y ∧ simplexBackward (vec y) = vec x :=
  ⟨sxF x, forward_eq x h.1, by rw [backward_eq, sxB_sxF x h]⟩

example := C54_forward_then_backward ![1 / 2, 1 / 4, 1 / 4]
  ⟨by intro i; fin_cases i <;> norm_num, by simp [Fin.sum_univ_succ]; norm_num⟩

/-- C54: `log_jac_det` is the logarithm of the absolute determinant of the derivative of the first `n` coordinates of `backward`,
and that determinant is not zero. -/
theorem C54_log_jac_det {n : ℕ} (y : Fin n → ℝ) :
    ∃ L : (Fin n → ℝ) →L[ℝ] (Fin n → ℝ),
      HasFDerivAt (fun y => coords n (simplexBackward (vec y))) L y ∧ L.det ≠ 0 ∧
      simplexLogJacDet (vec y) = fin (Real.log |L.det|) := by
  have hd : (LinearMap.toContinuousLinearMap (Matrix.toLin' (sxJ y))).det = (n + 1) * ∏ i, sxB y i := by
    rw [LinearMap.det_toContinuousLinearMap, LinearMap.det_toLin', sxJ_det]
  have hpos : 0 < ((n : ℝ) + 1) * ∏ i, sxB y i := mul_pos (by positivity) (Finset.prod_pos fun i _ => (sxB_mem y).1 i)
  refine ⟨_, ?_, hd ▸ hpos.ne', ?_⟩
  · have e : (fun y : Fin n → ℝ => coords n (simplexBackward (vec y))) = fun y (i : Fin n) => sxB y i.castSucc := by
      funext y; rw [backward_eq, coords_vec_castSucc]
    rw [e]
    exact sxB_hasFDerivAt y
  · rw [logJac_eq, hd, abs_of_pos hpos]

example := C54_log_jac_det ![(1 : ℝ), -2, 3]

end Verif
