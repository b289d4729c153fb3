import Verif.Model.NormalSums
import Verif.Spec.NormalSums
import Verif.Spec.MvDensity
import Verif.Props.Convolutions
import Verif.Props.Graph
import Verif.Lemmas.PiDensity
import Mathlib.Probability.Distributions.Gaussian.HasGaussianLaw.Independence
import Mathlib.Data.Fin.VecNotation
import Mathlib.Tactic.FinCases

/-! # C120: several sums of the same normal variables -/

namespace Verif
open FVal MeasureTheory ProbabilityTheory

/-- The node of a sum or difference of normal variables with the given means and standard deviations. -/
def SumRow.node {n : ℕ} (m σ : Fin n → ℝ) (r : SumRow n) : Bool × List SumInput :=
  match r with
  | .sum ids => (false, ids.map fun i : Fin n => .normal i.1 (fin (m i)) (fin (σ i)))
  | .diff a b => (true, [.normal a (fin (m a)) (fin (σ a)), .normal b (fin (m b)) (fin (σ b))])

/-- The variance that the code gives to it. -/
def SumRow.codeVar {n : ℕ} (σ : Fin n → ℝ) (r : SumRow n) : ℝ := (r.mem.map fun i => σ i ^ 2).sum

theorem SumRow.codeVar_pos {n : ℕ} {σ : Fin n → ℝ} (hσ : ∀ i, 0 < σ i) {r : SumRow n} (h : 2 ≤ r.mem.length) : 0 < r.codeVar σ := by
  unfold SumRow.codeVar
  rcases hr : r.mem with _ | ⟨a, l⟩
  · simp [hr] at h
  · rw [List.map_cons, List.sum_cons]
    have h1 := hσ a
    have h2 : 0 ≤ (l.map fun i => σ i ^ 2).sum := List.sum_nonneg fun x hx => by
      obtain ⟨q, -, rfl⟩ := List.mem_map.mp hx
      exact sq_nonneg _
    positivity

theorem sum_count {n : ℕ} (ids : List (Fin n)) (x : Fin n → ℝ) : (ids.map x).sum = ∑ i, (ids.count i : ℝ) * x i := by
  induction ids with
  | nil => simp
  | cons a l ih =>
    rw [List.map_cons, List.sum_cons, ih]
    simp only [List.count_cons, Nat.cast_add, add_mul, Finset.sum_add_distrib]
    rw [add_comm]
    congr 1
    simp [beq_iff_eq, Finset.sum_ite_eq]

theorem SumRow.draw_eq {n : ℕ} (r : SumRow n) (x : Fin n → ℝ) : r.draw x = ∑ i, r.weight i * x i := by
  cases r with
  | sum ids => exact sum_count ids x
  | diff a b => simp [SumRow.draw, SumRow.weight, sub_mul, Finset.sum_sub_distrib]

theorem node_injective {n : ℕ} (m σ : Fin n → ℝ) : Function.Injective (SumRow.node m σ) := by
  intro r s h
  cases r with
  | sum ids =>
    cases s with
    | sum ids' =>
      simp only [SumRow.node, Prod.mk.injEq, true_and] at h
      congr 1
      refine List.map_injective_iff.mpr (fun a b hab => ?_) h
      simp only [SumInput.normal.injEq] at hab
      exact Fin.ext hab.1
    | diff a b => simp [SumRow.node] at h
  | diff a b =>
    cases s with
    | sum ids' => simp [SumRow.node] at h
    | diff c d =>
      simp only [SumRow.node, Prod.mk.injEq, List.cons.injEq, SumInput.normal.injEq, true_and, and_true] at h
      rw [Fin.ext h.1.1, Fin.ext h.2.1]

theorem nodes_nodup {n J : ℕ} (m σ : Fin n → ℝ) {rows : Fin J → SumRow n} (h : Function.Injective rows) : (List.ofFn fun j => (rows j).node m σ).Nodup :=
  List.nodup_ofFn.mpr ((node_injective m σ).comp h)

theorem sumTerm_node {n : ℕ} (m : Fin n → ℝ) {σ : Fin n → ℝ} (hσ : ∀ i, 0 < σ i) {all : List (Bool × List SumInput)} (hall : all.Nodup) {r : SumRow n} (h : 2 ≤ r.mem.length) (v : ℝ) :
    sumTerm all (r.node m σ) (fin v) = normalLogprob (fin v) (fin (r.draw m)) (fin (Real.sqrt (r.codeVar σ))) := by
  have hp := (SumRow.codeVar_pos hσ h).le
  cases r with
  | sum ids =>
    have e : (SumRow.node m σ (.sum ids)) = (false, normalInputs (ids.map fun i => (i.1, m i, σ i))) := by
      simp [SumRow.node, normalInputs, Function.comp_def]
    have h1 : ¬ (normalInputs (ids.map fun i : Fin n => (i.1, m i, σ i))).length < 2 := by
      simp only [normalInputs, List.length_map]
      exact not_lt.mpr h
    rw [e]
    simp only [sumTerm, sumNormalsLogprob, addIndependentNormals, if_neg h1, if_neg (List.nodup_iff_forall_not_duplicate.mp hall _), normalParams_inputs, Option.map_some, List.map_map]
    have e1 : (Prod.fst ∘ (fun p : ℕ × ℝ × ℝ => ((fin p.2.1 : FVal), (fin p.2.2 : FVal))) ∘ fun i : Fin n => ((i : ℕ), m i, σ i)) = fin ∘ m := rfl
    have e2 : ((fun p : FVal × FVal => FVal.sq p.2) ∘ (fun p : ℕ × ℝ × ℝ => ((fin p.2.1 : FVal), (fin p.2.2 : FVal))) ∘ fun i : Fin n => ((i : ℕ), m i, σ i)) =
      fin ∘ fun i => σ i ^ 2 := rfl
    rw [e1, e2, ← List.map_map, ← List.map_map, addAll_fin, addAll_fin]
    have e3 : FVal.sqrt (fin (ids.map fun i => σ i ^ 2).sum) = fin (Real.sqrt (SumRow.codeVar σ (.sum ids))) := sqrt_fin hp
    rw [e3]
    rfl
  | diff a b =>
    have e : (SumRow.node m σ (.diff a b)) = (true, normalInputs [(a.1, m a, σ a), (b.1, m b, σ b)]) := rfl
    have h1 : ¬ (normalInputs [((a : ℕ), m a, σ a), ((b : ℕ), m b, σ b)]).length < 2 := by simp [normalInputs]
    rw [e]
    simp only [sumTerm, sumNormalsLogprob, addIndependentNormals, if_neg h1, if_neg (List.nodup_iff_forall_not_duplicate.mp hall _), normalParams_inputs, Option.map_some]
    have e2 : addAll ([((a : ℕ), m a, σ a), ((b : ℕ), m b, σ b)].map (fun p : ℕ × ℝ × ℝ => ((fin p.2.1 : FVal), (fin p.2.2 : FVal))) |>.map fun p => FVal.sq p.2) =
      fin (SumRow.codeVar σ (.diff a b)) := by
      have := addAll_fin [σ a ^ 2, σ b ^ 2]
      exact this
    rw [e2, sqrt_fin hp]
    rfl

section
variable {Ω : Type*} {mΩ : MeasurableSpace Ω} {P : Measure Ω} [IsProbabilityMeasure P] {n : ℕ} {X : Fin n → Ω → ℝ} {m σ : Fin n → ℝ}

theorem gauss_law (hX : ∀ i, Measurable (X i)) (hlaw : ∀ i, P.map (X i) = gaussianReal (m i) (σ i ^ 2).toNNReal) (i : Fin n) : HasGaussianLaw (X i) P where
  isGaussian_map := by rw [hlaw i]; infer_instance

theorem gauss_var (hX : ∀ i, Measurable (X i)) (hlaw : ∀ i, P.map (X i) = gaussianReal (m i) (σ i ^ 2).toNNReal) (i : Fin n) : Var[X i; P] = σ i ^ 2 := by
  have := variance_map (X := id) (Y := X i) (μ := P) measurable_id.aemeasurable (hX i).aemeasurable
  rw [hlaw i, variance_id_gaussianReal] at this
  rw [show X i = id ∘ X i from rfl, ← this, Real.coe_toNNReal _ (sq_nonneg _)]

theorem gauss_mean (hX : ∀ i, Measurable (X i)) (hlaw : ∀ i, P.map (X i) = gaussianReal (m i) (σ i ^ 2).toNNReal) (i : Fin n) : ∫ ω, X i ω ∂P = m i := by
  have := integral_map (φ := X i) (μ := P) (f := fun x : ℝ => x) (hX i).aemeasurable measurable_id.aestronglyMeasurable
  rw [hlaw i, integral_id_gaussianReal] at this
  exact this.symm

theorem rows_cov (hX : ∀ i, Measurable (X i)) (hind : iIndepFun X P) (hlaw : ∀ i, P.map (X i) = gaussianReal (m i) (σ i ^ 2).toNNReal) (r s : SumRow n) :
    cov[fun ω => r.draw (X · ω), fun ω => s.draw (X · ω); P] = r.cov σ s := by
  have hL : ∀ i, MemLp (X i) 2 P := fun i => (gauss_law hX hlaw i).memLp (by simp)
  simp only [SumRow.draw_eq]
  rw [covariance_fun_sum_fun_sum (fun i => (hL i).const_mul _) (fun i => (hL i).const_mul _), SumRow.cov]
  refine Finset.sum_congr rfl fun i _ => ?_
  rw [Finset.sum_eq_single i]
  · rw [covariance_const_mul_left, covariance_const_mul_right, covariance_self (hX i).aemeasurable, gauss_var hX hlaw]
    ring
  · intro j _ hj
    rw [covariance_const_mul_left, covariance_const_mul_right, (hind.indepFun hj.symm).covariance_eq_zero (hL i) (hL j)]
    simp
  · simp

/-- The law of the draws is the product of the laws that the code gives to them, exactly when the covariances are right. -/
theorem rows_law (hX : ∀ i, Measurable (X i)) (hind : iIndepFun X P) (hlaw : ∀ i, P.map (X i) = gaussianReal (m i) (σ i ^ 2).toNNReal) {J : ℕ} (rows : Fin J → SumRow n) :
    P.map (fun ω j => (rows j).draw (X · ω)) = Measure.pi (fun j => gaussianReal ((rows j).draw m) ((rows j).codeVar σ).toNNReal) ↔
      (∀ j, (rows j).cov σ (rows j) = (rows j).codeVar σ) ∧ ∀ j k, j ≠ k → (rows j).cov σ (rows k) = 0 := by
  have hdm : ∀ r : SumRow n, Measurable fun ω => r.draw (X · ω) := fun r => by
    simp only [SumRow.draw_eq]
    fun_prop
  have hmeas : Measurable fun ω j => (rows j).draw (X · ω) := measurable_pi_lambda _ fun j => hdm (rows j)
  have hv0 : ∀ j, 0 ≤ (rows j).codeVar σ := fun j => List.sum_nonneg fun x hx => by
    obtain ⟨q, -, rfl⟩ := List.mem_map.mp hx
    exact sq_nonneg _
  have hG : HasGaussianLaw (fun ω j => (rows j).draw (X · ω)) P := by
    have h := (hind.hasGaussianLaw (gauss_law hX hlaw)).map
      (ContinuousLinearMap.pi fun j : Fin J => ∑ i, (rows j).weight i • (ContinuousLinearMap.proj i : (Fin n → ℝ) →L[ℝ] ℝ))
    refine h.congr (.of_forall fun ω => ?_)
    funext j
    simp [SumRow.draw_eq]
  have hG1 : ∀ j, HasGaussianLaw (fun ω => (rows j).draw (X · ω)) P := fun j =>
    hG.map (ContinuousLinearMap.proj j : (Fin J → ℝ) →L[ℝ] ℝ)
  have hm : ∀ r : SumRow n, ∫ ω, r.draw (X · ω) ∂P = r.draw m := fun r => by
    simp only [SumRow.draw_eq]
    rw [integral_finsetSum _ fun i _ => ((gauss_law hX hlaw i).integrable).const_mul _]
    exact Finset.sum_congr rfl fun i _ => by rw [integral_const_mul, gauss_mean hX hlaw]
  have hvar : ∀ j, Var[fun ω => (rows j).draw (X · ω); P] = (rows j).cov σ (rows j) := fun j => by
    rw [← rows_cov hX hind hlaw, covariance_self (hdm _).aemeasurable]
  have h1 : ∀ j, P.map (fun ω => (rows j).draw (X · ω)) = gaussianReal ((rows j).draw m) ((rows j).cov σ (rows j)).toNNReal := fun j => by
    rw [(hG1 j).map_eq_gaussianReal, hm, hvar]
  constructor
  · intro h
    have hmarg : ∀ j, P.map (fun ω => (rows j).draw (X · ω)) = gaussianReal ((rows j).draw m) ((rows j).codeVar σ).toNNReal := fun j => by
      have e : (fun ω => (rows j).draw (X · ω)) = (fun y : Fin J → ℝ => y j) ∘ fun ω j => (rows j).draw (X · ω) := rfl
      rw [e, ← Measure.map_map (measurable_pi_apply j) hmeas, h]
      exact (measurePreserving_eval (μ := fun j => gaussianReal ((rows j).draw m) ((rows j).codeVar σ).toNNReal) j).map_eq
    have hI : iIndepFun (fun j ω => (rows j).draw (X · ω)) P := by
      rw [iIndepFun_iff_map_fun_eq_pi_map fun j => (hdm _).aemeasurable, h]
      congr 1
      funext j
      exact (hmarg j).symm
    refine ⟨fun j => ?_, fun j k hjk => ?_⟩
    · have h2 := (h1 j).symm.trans (hmarg j)
      rw [gaussianReal_ext_iff] at h2
      have h3 := congrArg NNReal.toReal h2.2
      rwa [Real.coe_toNNReal _ (hv0 j), Real.coe_toNNReal _ (by rw [← hvar]; exact variance_nonneg _ _)] at h3
    · rw [← rows_cov hX hind hlaw]
      exact (hI.indepFun hjk).covariance_eq_zero ((hG1 j).memLp (by simp)) ((hG1 k).memLp (by simp))
  · rintro ⟨hv, hc⟩
    have hI : iIndepFun (fun j ω => (rows j).draw (X · ω)) P :=
      HasGaussianLaw.iIndepFun_of_covariance_eq_zero hG fun j k hjk => by rw [rows_cov hX hind hlaw, hc j k hjk]
    rw [iIndepFun_iff_map_fun_eq_pi_map fun j => (hdm _).aemeasurable] at hI
    rw [hI]
    congr 1
    funext j
    rw [h1, hv]

theorem dens_sumsJoint (hσ : ∀ i, 0 < σ i) {J : ℕ} (rows : Fin J → SumRow n) (hinj : Function.Injective rows) (h2 : ∀ j, 2 ≤ (rows j).mem.length) (y : Fin J → ℝ) :
    (∃ r, sumsJoint (List.ofFn fun j => (rows j).node m σ) (List.ofFn fun j => fin (y j)) = .ok (fin r)) ∧
    dens (sumsJoint (List.ofFn fun j => (rows j).node m σ) (List.ofFn fun j => fin (y j))) =
      ∏ j, gaussianPDF ((rows j).draw m) ((rows j).codeVar σ).toNNReal (y j) := by
  have hz : List.zipWith (sumTerm (List.ofFn fun j => (rows j).node m σ)) (List.ofFn fun j => (rows j).node m σ) (List.ofFn fun j => fin (y j)) =
      List.ofFn fun j => sumTerm (List.ofFn fun j => (rows j).node m σ) ((rows j).node m σ) (fin (y j)) := by
    refine List.ext_getElem (by simp) fun i h1 h2 => ?_
    simp
  have hs : ∀ j, 0 < Real.sqrt ((rows j).codeVar σ) := fun j => Real.sqrt_pos.mpr (SumRow.codeVar_pos hσ (h2 j))
  constructor
  · rw [sumsJoint, hz]
    have key : ∀ l : List (Except Err FVal), (∀ t ∈ l, ∃ r : ℝ, t = .ok (fin r)) → ∃ r : ℝ, Graph.sumE l = .ok (fin r) := by
      intro l
      induction l with
      | nil => exact fun _ => ⟨0, rfl⟩
      | cons a l ih =>
        intro h
        obtain ⟨r, rfl⟩ := h a (by simp)
        obtain ⟨s, hs⟩ := ih fun t ht => h t (by simp [ht])
        exact ⟨r + s, by simp only [Graph.sumE, hs, add_fin]⟩
    refine key _ fun t ht => ?_
    obtain ⟨j, rfl⟩ := (List.mem_ofFn' _ _).mp ht
    beta_reduce
    rw [sumTerm_node m hσ (nodes_nodup m σ hinj) (h2 j)]
    exact (C09_normal _ (hs j)).2 _
  · rw [sumsJoint, hz, Graph.dens_sumE, List.map_ofFn, List.prod_ofFn]
    refine Finset.prod_congr rfl fun j _ => ?_
    have hv : (Real.sqrt ((rows j).codeVar σ) ^ 2) = (rows j).codeVar σ := Real.sq_sqrt (SumRow.codeVar_pos hσ (h2 j)).le
    have hne := toNNReal_sq_ne (hs j)
    simp only [Function.comp]
    rw [sumTerm_node m hσ (nodes_nodup m σ hinj) (h2 j), normal_eval _ _ (hs j), dens_log (gaussianPDFReal_pos _ _ _ hne), hv]
    rfl

/-- A failing term makes the sum fail. -/
theorem sumE_error {l : List (Except Err FVal)} {e : Err} (h : .error e ∈ l) : ∃ e', Graph.sumE l = .error e' := by
  induction l with
  | nil => cases h
  | cons a l ih =>
    rcases a with e' | v
    · exact ⟨e', rfl⟩
    · obtain ⟨e', he⟩ := ih (by simpa using h)
      exact ⟨e', by simp [Graph.sumE, he]⟩

theorem same_raises (m σ : Fin n → ℝ) {J : ℕ} {rows : Fin J → SumRow n} {j k : Fin J} (hjk : rows j = rows k) (hne : j ≠ k) (y : Fin J → ℝ) :
    ∃ e, sumsJoint (List.ofFn fun j => (rows j).node m σ) (List.ofFn fun j => fin (y j)) = .error e := by
  have hd : List.Duplicate ((rows j).node m σ) (List.ofFn fun j => (rows j).node m σ) := by
    rw [List.duplicate_iff_exists_distinct_get]
    rcases lt_or_gt_of_ne hne with h | h
    · exact ⟨⟨j, by simp⟩, ⟨k, by simp⟩, h, by simp, by simp [hjk]⟩
    · exact ⟨⟨k, by simp⟩, ⟨j, by simp⟩, h, by simp [hjk], by simp⟩
  have : ∃ e, sumTerm (List.ofFn fun j => (rows j).node m σ) ((rows j).node m σ) (fin (y j)) = .error e := by
    rw [sumTerm]
    split
    · exact ⟨_, rfl⟩
    · rw [if_pos hd]
      exact ⟨_, rfl⟩
  obtain ⟨e, he⟩ := this
  refine sumE_error (e := e) (List.mem_iff_getElem.mpr ⟨j, by simp, ?_⟩)
  simp [he]

/-- **C120** Independent normal variables (any number, any means, positive standard deviations) are drawn, and the variables of the model are any number of sums and
differences of them; the normal variables have no values.  `joint_logprob` is a joint log-density of the sums exactly when no two of them are correlated and in each of
them the variance of the sum is the sum of the variances.  Missing: the code does not check this, so for sums that share a variable the result is in general not the
joint density (`C120_shared_wrong`). -/
theorem C120_joint_partial (hX : ∀ i, Measurable (X i)) (hind : iIndepFun X P) (hσ : ∀ i, 0 < σ i) (hlaw : ∀ i, P.map (X i) = gaussianReal (m i) (σ i ^ 2).toNNReal)
    {J : ℕ} (rows : Fin J → SumRow n) (h2 : ∀ j, 2 ≤ (rows j).mem.length) :
    IsLogDensityV (fun y => sumsJoint (List.ofFn fun j => (rows j).node m σ) (List.ofFn fun j => fin (y j))) (P.map fun ω j => (rows j).draw (X · ω)) ↔
      (∀ j, (rows j).cov σ (rows j) = ((rows j).mem.map fun i => σ i ^ 2).sum) ∧ ∀ j k, j ≠ k → (rows j).cov σ (rows k) = 0 := by
  have hpos : ∀ j, 0 < (rows j).codeVar σ := fun j => SumRow.codeVar_pos hσ (h2 j)
  by_cases hinj : Function.Injective rows
  swap
  · obtain ⟨j, k, hjk, hne⟩ : ∃ j k, rows j = rows k ∧ j ≠ k := by simpa [Function.Injective] using hinj
    constructor
    · intro h
      obtain ⟨v, hv, -⟩ := h.clean 0
      obtain ⟨e, he⟩ := same_raises m σ hjk hne 0
      rw [he] at hv
      cases hv
    · rintro ⟨ha, hb⟩
      have h1 := hb j k hne
      rw [← hjk, ha j] at h1
      exact absurd h1 (hpos j).ne'
  have hne : ∀ j, ((rows j).codeVar σ).toNNReal ≠ 0 := fun j => by simpa using hpos j
  have hpi : Measure.pi (fun j => gaussianReal ((rows j).draw m) ((rows j).codeVar σ).toNNReal) =
      (volume : Measure (Fin J → ℝ)).withDensity fun y => dens (sumsJoint (List.ofFn fun j => (rows j).node m σ) (List.ofFn fun j => fin (y j))) := by
    have e : ∀ j, gaussianReal ((rows j).draw m) ((rows j).codeVar σ).toNNReal = (volume : Measure ℝ).withDensity (gaussianPDF ((rows j).draw m) ((rows j).codeVar σ).toNNReal) :=
      fun j => gaussianReal_of_var_ne_zero _ (hne j)
    have : ∀ j, SigmaFinite ((volume : Measure ℝ).withDensity (gaussianPDF ((rows j).draw m) ((rows j).codeVar σ).toNNReal)) := fun j => by rw [← e j]; infer_instance
    simp_rw [(dens_sumsJoint hσ rows hinj h2 _).2]
    rw [volume_pi, ← pi_withDensity_of _ fun j => measurable_gaussianPDF _ _]
    exact congrArg Measure.pi (funext e)
  refine Iff.trans ?_ (rows_law hX hind hlaw rows)
  constructor
  · intro h
    rw [hpi]
    ext s hs
    rw [withDensity_apply _ hs, ← h.law s hs]
  · intro h
    refine ⟨fun y => ?_, fun s hs => ?_⟩
    · obtain ⟨r, hr⟩ := (dens_sumsJoint (m := m) hσ rows hinj h2 y).1
      exact hr ▸ clean_fin r
    · rw [h, hpi, withDensity_apply _ hs]

end

theorem weight_of_not_mem {n : ℕ} {r : SumRow n} {i : Fin n} (h : i ∉ r.mem) : r.weight i = 0 := by
  cases r with
  | sum ids => simp [SumRow.weight, List.count_eq_zero.mpr (show i ∉ ids from h)]
  | diff a b =>
    simp only [SumRow.mem, List.mem_cons, List.not_mem_nil, or_false, not_or] at h
    simp [SumRow.weight, h.1, h.2]

theorem cov_of_nodup {n : ℕ} (σ : Fin n → ℝ) {r : SumRow n} (h : r.mem.Nodup) : r.cov σ r = (r.mem.map fun i => σ i ^ 2).sum := by
  rw [SumRow.cov, sum_count]
  refine Finset.sum_congr rfl fun i _ => ?_
  have hc : r.weight i * r.weight i = r.mem.count i := by
    by_cases hi : i ∈ r.mem
    · rw [List.count_eq_one_of_mem h hi]
      cases r with
      | sum ids => simp [SumRow.weight, List.count_eq_one_of_mem (show ids.Nodup from h) hi]
      | diff a b =>
        have hab : a ≠ b := by simpa [SumRow.mem] using h
        simp only [SumRow.mem, List.mem_cons, List.not_mem_nil, or_false] at hi
        rcases hi with rfl | rfl
        · simp [SumRow.weight, hab]
        · simp [SumRow.weight, hab.symm]
    · rw [weight_of_not_mem hi, List.count_eq_zero.mpr hi]
      simp
  rw [hc]

/-- **C120** In particular, the result is the joint log-density when no variable occurs twice in a sum, and no variable occurs in two of the sums. -/
theorem C120_disjoint {Ω : Type*} {mΩ : MeasurableSpace Ω} {P : Measure Ω} [IsProbabilityMeasure P] {n : ℕ} {X : Fin n → Ω → ℝ} {m σ : Fin n → ℝ}
    (hX : ∀ i, Measurable (X i)) (hind : iIndepFun X P) (hσ : ∀ i, 0 < σ i) (hlaw : ∀ i, P.map (X i) = gaussianReal (m i) (σ i ^ 2).toNNReal)
    {J : ℕ} (rows : Fin J → SumRow n) (h2 : ∀ j, 2 ≤ (rows j).mem.length) (hnd : ∀ j, (rows j).mem.Nodup) (hdis : ∀ j k, j ≠ k → (rows j).mem.Disjoint (rows k).mem) :
    IsLogDensityV (fun y => sumsJoint (List.ofFn fun j => (rows j).node m σ) (List.ofFn fun j => fin (y j))) (P.map fun ω j => (rows j).draw (X · ω)) := by
  refine (C120_joint_partial hX hind hσ hlaw rows h2).mpr ⟨fun j => cov_of_nodup σ (hnd j), fun j k hjk => Finset.sum_eq_zero fun i _ => ?_⟩
  by_cases hi : i ∈ (rows j).mem
  · rw [weight_of_not_mem (hdis j k hjk hi)]; ring
  · rw [weight_of_not_mem hi]; ring

/-- **C120** A requested sum or difference that has an input which is not a normal variable without a value, or fewer than two inputs, makes the whole joint log-probability
raise, whatever the other requested sums and the values are. -/
theorem C120_declined_raises {rows : List (Bool × List SumInput)} {values : List FVal} (hlen : rows.length ≤ values.length) {row : Bool × List SumInput} (hrow : row ∈ rows)
    (h : row.2.length < 2 ∨ SumInput.other ∈ row.2) : ∃ e, sumsJoint rows values = .error e := by
  obtain ⟨i, hi, rfl⟩ := List.mem_iff_getElem.mp hrow
  refine sumE_error (e := .densityNotFound) (List.mem_iff_getElem.mpr ⟨i, by simp; omega, ?_⟩)
  rw [List.getElem_zipWith, sumTerm]
  have : sumNormalsLogprob rows[i].1 rows[i].2 (values[i]'(by omega)) = none := by
    by_contra hc
    obtain ⟨h1, h2⟩ := (C69_when _ _ _).mp hc
    rcases h with h | h
    · omega
    · obtain ⟨_, _, _, h3⟩ := h2 _ h
      cases h3
  rw [this]

example := C120_declined_raises (rows := [(false, [.normal 0 0 1, .normal 1 0 1]), (false, [.normal 2 0 1, .other])]) (values := [0, 1]) (by simp)
  (row := (false, [.normal 2 0 1, .other])) (by simp) (.inr (by simp))

/-- **C120** Two sums that share a variable, `X₀ + X₁` and `X₀ + X₂` for any means and positive standard deviations: the result is not the joint log-density. -/
theorem C120_shared_wrong {Ω : Type*} {mΩ : MeasurableSpace Ω} {P : Measure Ω} [IsProbabilityMeasure P] {X : Fin 3 → Ω → ℝ} {m σ : Fin 3 → ℝ}
    (hX : ∀ i, Measurable (X i)) (hind : iIndepFun X P) (hσ : ∀ i, 0 < σ i) (hlaw : ∀ i, P.map (X i) = gaussianReal (m i) (σ i ^ 2).toNNReal) :
    ¬ IsLogDensityV (fun y : Fin 2 → ℝ => sumsJoint (List.ofFn fun j => ((![.sum [0, 1], .sum [0, 2]] : Fin 2 → SumRow 3) j).node m σ) (List.ofFn fun j => fin (y j)))
      (P.map fun ω j => ((![.sum [0, 1], .sum [0, 2]] : Fin 2 → SumRow 3) j).draw (X · ω)) := by
  rw [C120_joint_partial hX hind hσ hlaw _ (by intro j; fin_cases j <;> simp [SumRow.mem])]
  rintro ⟨-, h⟩
  have h1 := h 0 1 (by simp)
  simp [SumRow.cov, SumRow.weight, Fin.sum_univ_three, List.count_cons] at h1
  exact absurd h1 (hσ 0).ne'

/-- **C120** The sum and the difference of the same two variables: right exactly when the standard deviations are equal. -/
theorem C120_sum_and_difference {Ω : Type*} {mΩ : MeasurableSpace Ω} {P : Measure Ω} [IsProbabilityMeasure P] {X : Fin 2 → Ω → ℝ} {m σ : Fin 2 → ℝ}
    (hX : ∀ i, Measurable (X i)) (hind : iIndepFun X P) (hσ : ∀ i, 0 < σ i) (hlaw : ∀ i, P.map (X i) = gaussianReal (m i) (σ i ^ 2).toNNReal) :
    IsLogDensityV (fun y : Fin 2 → ℝ => sumsJoint (List.ofFn fun j => ((![.sum [0, 1], .diff 0 1] : Fin 2 → SumRow 2) j).node m σ) (List.ofFn fun j => fin (y j)))
      (P.map fun ω j => ((![.sum [0, 1], .diff 0 1] : Fin 2 → SumRow 2) j).draw (X · ω)) ↔ σ 0 = σ 1 := by
  rw [C120_joint_partial hX hind hσ hlaw _ (by intro j; fin_cases j <;> simp [SumRow.mem])]
  have h0 := hσ 0
  have h1 := hσ 1
  constructor
  · rintro ⟨-, h⟩
    have h1 := h 0 1 (by simp)
    simp [SumRow.cov, SumRow.weight, Fin.sum_univ_two, List.count_cons] at h1
    nlinarith
  · intro h
    refine ⟨fun j => ?_, fun j k hjk => ?_⟩
    · fin_cases j <;> simp [SumRow.cov, SumRow.weight, SumRow.mem, Fin.sum_univ_two, List.count_cons]
    · fin_cases j <;> fin_cases k <;> simp_all [SumRow.cov, SumRow.weight, Fin.sum_univ_two, List.count_cons]

/-- Independent normal variables: the coordinates of a product space. -/
theorem coords_normal {n : ℕ} (m σ : Fin n → ℝ) :
    iIndepFun (fun (i : Fin n) (ω : Fin n → ℝ) => ω i) (Measure.pi fun i => gaussianReal (m i) (σ i ^ 2).toNNReal) ∧
      ∀ i, (Measure.pi fun i => gaussianReal (m i) (σ i ^ 2).toNNReal).map (fun ω : Fin n → ℝ => ω i) = gaussianReal (m i) (σ i ^ 2).toNNReal :=
  ⟨iIndepFun_pi (X := fun (_ : Fin n) (x : ℝ) => x) fun _ => aemeasurable_id,
    fun i => (measurePreserving_eval (μ := fun i => gaussianReal (m i) (σ i ^ 2).toNNReal) i).map_eq⟩

/-- Two disjoint sums of four variables. -/
example := C120_disjoint (m := ![0, 1, -2, 5]) (σ := ![1, 2, 3, 1 / 2]) (fun i => measurable_pi_apply i) (coords_normal _ _).1
  (by intro i; fin_cases i <;> simp) (coords_normal _ _).2 (![.sum [0, 1], .diff 3 2] : Fin 2 → SumRow 4) (by intro j; fin_cases j <;> simp [SumRow.mem])
  (by intro j; fin_cases j <;> simp [SumRow.mem]) (by intro j k h; fin_cases j <;> fin_cases k <;> simp_all [SumRow.mem])

example := C120_shared_wrong (m := ![0, 1, -2]) (σ := ![1, 2, 3]) (fun i => measurable_pi_apply i) (coords_normal _ _).1 (by intro i; fin_cases i <;> simp) (coords_normal _ _).2

example := (C120_sum_and_difference (m := ![0, 1]) (σ := ![2, 2]) (fun i => measurable_pi_apply i) (coords_normal _ _).1 (by intro i; fin_cases i <;> simp) (coords_normal _ _).2).mpr rfl

end Verif
