import Verif.Model.Convolutions
import Verif.Props.Dist1

/-! # C69: sums and differences of normal variables -/

namespace Verif
open FVal MeasureTheory ProbabilityTheory

/-- The node inputs for normal variables with real means and standard deviations. -/
def normalInputs (ps : List (ℕ × ℝ × ℝ)) : List SumInput := ps.map fun p => .normal p.1 (fin p.2.1) (fin p.2.2)

theorem normalParams_inputs (ps : List (ℕ × ℝ × ℝ)) :
    normalParams (normalInputs ps) = some (ps.map fun p => (fin p.2.1, fin p.2.2)) := by
  induction ps with
  | nil => rfl
  | cons p ps ih =>
    show (normalParams (normalInputs ps)).map _ = _
    rw [ih]; rfl

theorem foldl_add_fin (xs : List ℝ) (a : ℝ) : (xs.map fin).foldl (· + ·) (fin a) = fin (a + xs.sum) := by
  induction xs generalizing a with
  | nil => simp
  | cons x xs ih => rw [List.map_cons, List.foldl_cons, add_fin, ih, List.sum_cons, add_assoc]

theorem addAll_fin (xs : List ℝ) : addAll (xs.map fin) = fin xs.sum := by
  cases xs with
  | nil => rfl
  | cons x xs => rw [List.map_cons, addAll, foldl_add_fin, List.sum_cons]

theorem sum_law {Ω : Type*} {mΩ : MeasurableSpace Ω} {P : Measure Ω} [IsProbabilityMeasure P] {n : ℕ} {X : Fin n → Ω → ℝ}
    {m : Fin n → ℝ} {v : Fin n → NNReal} (hX : ∀ i, Measurable (X i)) (hlaw : ∀ i, P.map (X i) = gaussianReal (m i) (v i))
    (hind : iIndepFun X P) (s : Finset (Fin n)) : P.map (∑ i ∈ s, X i) = gaussianReal (∑ i ∈ s, m i) (∑ i ∈ s, v i) := by
  induction s using Finset.induction_on with
  | empty =>
    simp only [Finset.sum_empty, gaussianReal_zero_var]
    show P.map (fun _ => (0 : ℝ)) = _
    rw [Measure.map_const]; simp
  | insert i s hi ih =>
    rw [Finset.sum_insert hi, Finset.sum_insert hi, Finset.sum_insert hi]
    exact gaussianReal_add_gaussianReal_of_indepFun (hind.indepFun_finsetSum_of_notMem hX hi).symm (hlaw i) ih

/-- **C69** For any number (at least two) of jointly independent normal variables with any means and positive standard deviations, the
derived log-probability of their sum is the log-density of the law of that sum.  Missing: the code does not check independence
(`C69_same_variable_wrong`), nor the standard deviations (`C69_negative_sigma_accepted`). -/
theorem C69_sum_partial {Ω : Type*} {mΩ : MeasurableSpace Ω} {P : Measure Ω} [IsProbabilityMeasure P] (ps : List (ℕ × ℝ × ℝ))
    (hn : 2 ≤ ps.length) (hσ : ∀ p ∈ ps, 0 < p.2.2) {X : Fin ps.length → Ω → ℝ} (hX : ∀ i, Measurable (X i)) (hind : iIndepFun X P)
    (hlaw : ∀ i, P.map (X i) = gaussianReal ps[i].2.1 (ps[i].2.2 ^ 2).toNNReal) :
    ∃ lp : ℝ → Except Err FVal, (∀ x, sumNormalsLogprob false (normalInputs ps) (fin x) = some (lp x)) ∧
      IsLogDensity lp (P.map fun ω => ∑ i, X i ω) := by
  have hcov : 0 < (ps.map fun p => p.2.2 ^ 2).sum := by
    obtain _ | ⟨p, ps⟩ := ps
    · simp at hn
    · rw [List.map_cons, List.sum_cons]
      have : 0 < p.2.2 := hσ p (by simp)
      have h2 : 0 ≤ (ps.map fun p => p.2.2 ^ 2).sum := List.sum_nonneg fun x hx => by
        obtain ⟨q, -, rfl⟩ := List.mem_map.mp hx
        exact sq_nonneg _
      positivity
  set M := (ps.map fun p => p.2.1).sum with hM
  set V := (ps.map fun p => p.2.2 ^ 2).sum with hV
  refine ⟨fun x => normalLogprob (fin x) (fin M) (fin (Real.sqrt V)), fun x => ?_, ?_⟩
  · have h1 : ¬ (normalInputs ps).length < 2 := by simp [normalInputs]; omega
    simp only [sumNormalsLogprob, addIndependentNormals, if_neg h1, normalParams_inputs, Option.map_some, List.map_map]
    have e1 : (Prod.fst ∘ fun p : ℕ × ℝ × ℝ => ((fin p.2.1 : FVal), (fin p.2.2 : FVal))) = fin ∘ fun p => p.2.1 := rfl
    have e2 : ((fun p : FVal × FVal => FVal.sq p.2) ∘ fun p : ℕ × ℝ × ℝ => ((fin p.2.1 : FVal), (fin p.2.2 : FVal))) = fin ∘ fun p => p.2.2 ^ 2 := rfl
    rw [e1, e2, ← List.map_map, ← List.map_map, addAll_fin, addAll_fin, sqrt_fin hcov.le]
    rfl
  · have hs : 0 < Real.sqrt V := Real.sqrt_pos.mpr hcov
    have := (C09_normal M hs).1
    have hl := sum_law hX hlaw hind Finset.univ
    have e1 : ∑ i : Fin ps.length, ps[i].2.1 = M := by
      exact Fin.sum_univ_fun_getElem ps fun p => p.2.1
    have e2 : ∑ i : Fin ps.length, (ps[i].2.2 ^ 2).toNNReal = (Real.sqrt V ^ 2).toNNReal := by
      rw [Real.sq_sqrt hcov.le, hV, ← Real.toNNReal_sum_of_nonneg (fun _ _ => sq_nonneg _)]
      congr 1
      exact Fin.sum_univ_fun_getElem ps fun p => p.2.2 ^ 2
    rw [e1, e2] at hl
    rw [show (fun ω => ∑ i, X i ω) = ∑ i, X i by ext; simp, hl]
    exact this

/-- Three independent normal variables (the coordinates of a product space). -/
example : let ps : List (ℕ × ℝ × ℝ) := [(0, 1, 2), (1, -3, 1), (2, 0, 1 / 2)]
    let P : Measure (Fin 3 → ℝ) := Measure.pi fun i => gaussianReal (ps[i.1]'i.2).2.1 ((ps[i.1]'i.2).2.2 ^ 2).toNNReal
    ∃ lp : ℝ → Except Err FVal, (∀ x, sumNormalsLogprob false (normalInputs ps) (fin x) = some (lp x)) ∧
      IsLogDensity lp (P.map fun ω => ∑ i, ω i) := by
  intro ps P
  refine C69_sum_partial (P := P) ps (by simp [ps]) (by simp [ps]) (X := fun i ω => ω i) (fun i => measurable_pi_apply i) ?_ fun i => ?_
  · exact iIndepFun_pi (X := fun (_ : Fin 3) (x : ℝ) => x) fun i => aemeasurable_id
  · exact (measurePreserving_eval (μ := fun i : Fin 3 => gaussianReal (ps[i.1]'i.2).2.1 ((ps[i.1]'i.2).2.2 ^ 2).toNNReal) i).map_eq

/-- **C69** For two independent normal variables, the derived log-probability of the difference is the log-density of its law.  Missing: as
for sums. -/
theorem C69_difference_partial {Ω : Type*} {mΩ : MeasurableSpace Ω} {P : Measure Ω} {X Y : Ω → ℝ} (hind : IndepFun X Y P) (i j : ℕ)
    {m₁ m₂ σ₁ σ₂ : ℝ} (h1 : 0 < σ₁) (h2 : 0 < σ₂) (hX : P.map X = gaussianReal m₁ (σ₁ ^ 2).toNNReal)
    (hY : P.map Y = gaussianReal m₂ (σ₂ ^ 2).toNNReal) :
    ∃ lp : ℝ → Except Err FVal,
      (∀ x, sumNormalsLogprob true [.normal i (fin m₁) (fin σ₁), .normal j (fin m₂) (fin σ₂)] (fin x) = some (lp x)) ∧
      IsLogDensity lp (P.map fun ω => X ω - Y ω) := by
  have hV : 0 < σ₁ ^ 2 + σ₂ ^ 2 := by positivity
  refine ⟨fun x => normalLogprob (fin x) (fin (m₁ - m₂)) (fin (Real.sqrt (σ₁ ^ 2 + σ₂ ^ 2))), fun x => ?_, ?_⟩
  · simp only [sumNormalsLogprob, addIndependentNormals, normalParams, List.length_cons, List.length_nil, Nat.zero_add,
      Nat.reduceAdd, lt_irrefl, if_false, Option.map_some, List.map_cons, List.map_nil, addAll, List.foldl_cons, List.foldl_nil,
      Bool.not_true, Bool.false_eq_true, subAll, sub_fin, sq_fin, add_fin, sqrt_fin hV.le]
    rfl
  · have hYm : AEMeasurable Y P := by
      apply AEMeasurable.of_map_ne_zero; rw [hY]; exact NeZero.ne _
    have hneg : P.map (-Y) = gaussianReal (-m₂) (σ₂ ^ 2).toNNReal := (gaussianReal_neg (X := Y) (P := P) ⟨hYm, hY⟩).map_eq
    have h := gaussianReal_add_gaussianReal_of_indepFun (hind.neg_right) hX hneg
    rw [show (fun ω => X ω - Y ω) = X + -Y by ext; simp [sub_eq_add_neg], h]
    have h3 := (C09_normal (m₁ - m₂) (Real.sqrt_pos.mpr hV)).1
    rwa [Real.sq_sqrt hV.le, Real.toNNReal_add (sq_nonneg _) (sq_nonneg _), sub_eq_add_neg] at h3

example : ∃ lp : ℝ → Except Err FVal,
    (∀ x, sumNormalsLogprob true [.normal 0 (fin 1) (fin 2), .normal 1 (fin 5) (fin 3)] (fin x) = some (lp x)) ∧
    IsLogDensity lp (((gaussianReal 1 ((2 : ℝ) ^ 2).toNNReal).prod (gaussianReal 5 ((3 : ℝ) ^ 2).toNNReal)).map fun ω => ω.1 - ω.2) :=
  C69_difference_partial (X := Prod.fst) (Y := Prod.snd)
    (indepFun_prod (X := fun x : ℝ => x) (Y := fun x : ℝ => x) measurable_id measurable_id) 0 1 (by norm_num) (by norm_num)
    Measure.fst_prod Measure.snd_prod

theorem IsLogDensity.unique {lp : ℝ → Except Err FVal} {μ ν : Measure ℝ} (h1 : IsLogDensity lp μ) (h2 : IsLogDensity lp ν) : μ = ν :=
  Measure.ext fun s hs => (h1.law s hs).symm.trans (h2.law s hs)

/-- **C69** (refuted part) The sum of a normal variable with itself is rewritten like a sum of independent ones: for every mean and positive
standard deviation the derived log-probability is not that of the law of `X + X`. -/
theorem C69_same_variable_wrong {Ω : Type*} {mΩ : MeasurableSpace Ω} {P : Measure Ω} {X : Ω → ℝ} (i : ℕ) {m σ : ℝ} (hσ : 0 < σ)
    (hX : P.map X = gaussianReal m (σ ^ 2).toNNReal) :
    ∃ lp : ℝ → Except Err FVal,
      (∀ x, sumNormalsLogprob false [.normal i (fin m) (fin σ), .normal i (fin m) (fin σ)] (fin x) = some (lp x)) ∧
      ¬ IsLogDensity lp (P.map fun ω => X ω + X ω) := by
  have hV : 0 < σ ^ 2 + σ ^ 2 := by positivity
  refine ⟨fun x => normalLogprob (fin x) (fin (m + m)) (fin (Real.sqrt (σ ^ 2 + σ ^ 2))), fun x => ?_, fun h => ?_⟩
  · simp only [sumNormalsLogprob, addIndependentNormals, normalParams, List.length_cons, List.length_nil, Nat.zero_add,
      Nat.reduceAdd, lt_irrefl, if_false, Option.map_some, List.map_cons, List.map_nil, addAll, List.foldl_cons, List.foldl_nil,
      Bool.not_false, if_true, sq_fin, add_fin, sqrt_fin hV.le]
    rfl
  · have h1 := h.unique (C09_normal (m + m) (Real.sqrt_pos.mpr hV)).1
    have hXm : AEMeasurable X P := by
      apply AEMeasurable.of_map_ne_zero; rw [hX]; exact NeZero.ne _
    have h2 := (gaussianReal_const_mul (X := X) (P := P) ⟨hXm, hX⟩ 2).map_eq
    rw [show (fun ω => X ω + X ω) = fun ω => 2 * X ω by ext; ring, h2, gaussianReal_ext_iff] at h1
    have h3 := congrArg NNReal.toReal h1.2
    rw [Real.sq_sqrt hV.le, NNReal.coe_mul, Real.coe_toNNReal _ (sq_nonneg _), Real.coe_toNNReal _ hV.le] at h3
    have h4 : (2 : ℝ) ^ 2 * σ ^ 2 = σ ^ 2 + σ ^ 2 := h3
    have : 0 < σ ^ 2 := by positivity
    linarith

example : ∃ lp : ℝ → Except Err FVal,
    (∀ x, sumNormalsLogprob false [.normal 0 (fin 0) (fin 1), .normal 0 (fin 0) (fin 1)] (fin x) = some (lp x)) ∧
    ¬ IsLogDensity lp ((gaussianReal 0 ((1 : ℝ) ^ 2).toNNReal).map fun ω => ω + ω) :=
  C69_same_variable_wrong (X := id) 0 one_pos Measure.map_id

/-- **C69** (refuted part) A negative standard deviation, which the log-probability of a normal variable rejects, goes unnoticed in a sum. -/
theorem C69_negative_sigma_accepted (i j : ℕ) (m₁ m₂ x : ℝ) {σ₁ σ₂ : ℝ} (h1 : σ₁ < 0) :
    normalLogprob (fin x) (fin m₁) (fin σ₁) = .error .parameterValue ∧
    ∃ r, sumNormalsLogprob false [.normal i (fin m₁) (fin σ₁), .normal j (fin m₂) (fin σ₂)] (fin x) = some (.ok (fin r)) := by
  have hV : 0 < σ₁ ^ 2 + σ₂ ^ 2 := by
    have : 0 < σ₁ ^ 2 := sq_pos_of_neg h1
    positivity
  constructor
  · simp only [normalLogprob]
    rw [checkParam_err]
    simp; linarith
  · obtain ⟨r, hr⟩ := (C09_normal (m₁ + m₂) (Real.sqrt_pos.mpr hV)).2 x
    refine ⟨r, ?_⟩
    simp only [sumNormalsLogprob, addIndependentNormals, normalParams, List.length_cons, List.length_nil, Nat.zero_add,
      Nat.reduceAdd, lt_irrefl, if_false, Option.map_some, List.map_cons, List.map_nil, addAll, List.foldl_cons, List.foldl_nil,
      Bool.not_false, if_true, sq_fin, add_fin, sqrt_fin hV.le]
    exact congrArg some hr

example : ∃ r, sumNormalsLogprob false [.normal 0 (fin 0) (fin (-1)), .normal 1 (fin 0) (fin 1)] (fin 2) = some (.ok (fin r)) :=
  (C69_negative_sigma_accepted 0 1 0 0 2 (σ₁ := -1) (σ₂ := 1) (by norm_num)).2

/-- **C69** The rewrite fires exactly on two or more inputs that are all unvalued normal variables. -/
theorem C69_when (sub : Bool) (inputs : List SumInput) (value : FVal) :
    sumNormalsLogprob sub inputs value ≠ none ↔ 2 ≤ inputs.length ∧ ∀ i ∈ inputs, ∃ id mu sigma, i = .normal id mu sigma := by
  have key : ∀ l : List SumInput, normalParams l ≠ none ↔ ∀ i ∈ l, ∃ id mu sigma, i = .normal id mu sigma := by
    intro l
    induction l with
    | nil => simp [normalParams]
    | cons a l ih => cases a <;> simp_all [normalParams]
  rw [← key]
  unfold sumNormalsLogprob addIndependentNormals
  by_cases h : inputs.length < 2
  · simp [h]
  · rw [if_neg h]
    cases hp : normalParams inputs <;> simp; omega

example : sumNormalsLogprob false [.normal 0 (fin 0) (fin 1), .other] (fin 0) = none := by
  by_contra h
  obtain ⟨_, _, _, h⟩ := ((C69_when _ _ _).mp h).2 .other (by simp)
  cases h

end Verif
