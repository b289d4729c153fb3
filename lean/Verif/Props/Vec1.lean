import Verif.Lemmas.Vec
import Verif.Spec.Vec
import Verif.Spec.Mass
import Mathlib.MeasureTheory.Measure.Dirac
import Mathlib.MeasureTheory.Measure.Count
import Mathlib.Algebra.Order.Antidiag.Pi
import Mathlib.Topology.Algebra.InfiniteSum.Real

/-! # C36, C39, C40: categorical, multinomial and Dirac delta -/

namespace Verif
open FVal MeasureTheory ENNReal

/-! ### Categorical -/

theorem normalise_real {p : List ℝ} (hs : 0 < p.sum) : normalise (p.map fin) = p.map fun x => fin (x / p.sum) := by
  rw [normalise, fsum_map_fin, List.map_map]
  refine List.map_congr_left fun x _ => ?_
  simp [div_fin _ hs.ne']

theorem categoricalMass_hasSum {p : List ℝ} (hs : 0 < p.sum) : HasSum (categoricalMass p) 1 := by
  have h1 : HasSum (fun k => p.getD k 0) p.sum := by
    have : p.sum = ∑ k ∈ Finset.range p.length, p.getD k 0 := by
      clear hs
      induction p with
      | nil => simp
      | cons x p ih => rw [List.sum_cons, List.length_cons, Finset.sum_range_succ', ih]; simp [add_comm]
    rw [this]
    refine hasSum_sum_of_ne_finset_zero fun k hk => ?_
    have : p.length ≤ k := by simpa using hk
    simp [List.getD, this]
  have := h1.div_const p.sum
  rwa [div_self hs.ne'] at this

theorem categorical_check {p : List ℝ} (h0 : ∀ x ∈ p, 0 ≤ x) (hs : 0 < p.sum) :
    [∀ x ∈ normalise (p.map fin), ge x 0, ∀ x ∈ normalise (p.map fin), le x 1].foldr And True := by
  rw [normalise_real hs]
  simp only [List.foldr, and_true, List.mem_map, forall_exists_index, and_imp]
  refine ⟨?_, ?_⟩
  · rintro _ x hx rfl
    simpa using div_nonneg (h0 x hx) hs.le
  · rintro _ x hx rfl
    have : x ≤ p.sum := List.single_le_sum h0 x hx
    simpa using (div_le_one hs).2 this

/-- **C36** (values in `-len(p) .. len(p)-1`) For non-negative weights `p` with positive sum, of any length, the categorical
log-probability of `k` is `log` of the normalised weight `k` for `0 ≤ k < len(p)` and `-inf` for `-len(p) ≤ k < 0`; the masses add up
to one.  Missing: values outside this range, where the property is false (`C36_categorical_raises_out_of_range`). -/
theorem C36_categorical_partial {p : List ℝ} (h0 : ∀ x ∈ p, 0 ≤ x) (hs : 0 < p.sum) :
    (∀ k : ℕ, k < p.length → categoricalLogprob k (p.map fin) = .ok (log (fin (categoricalMass p k)))) ∧
    (∀ k : ℤ, -p.length ≤ k → k < p.length → Clean (categoricalLogprob k (p.map fin)) ∧
      dens (categoricalLogprob k (p.map fin)) = ENNReal.ofReal (onNat (categoricalMass p) k)) ∧
    HasSum (categoricalMass p) 1 := by
  have hlen : (normalise (p.map fin)).length = p.length := by simp [normalise]
  have hpos : ∀ k : ℕ, k < p.length → categoricalLogprob k (p.map fin) = .ok (log (fin (categoricalMass p k))) := by
    intro k hk
    rw [categoricalLogprob]
    beta_reduce
    rw [npIndex_nat (by rw [hlen]; exact hk)]
    show checkParam _ _ = _
    rw [checkParam_ok (categorical_check h0 hs), switch_pos (by rw [hlen]; omega)]
    congr 2
    simp only [normalise_real hs, List.getElem_map, categoricalMass]
    rw [List.getD_eq_getElem _ _ hk]
  refine ⟨hpos, fun k hk1 hk2 => ?_, categoricalMass_hasSum hs⟩
  rcases lt_or_ge k 0 with h | h
  · have : categoricalLogprob k (p.map fin) = .ok ninf := by
      rw [categoricalLogprob]
      beta_reduce
      rw [npIndex_neg h (by rw [hlen]; exact hk1)]
      show checkParam _ _ = _
      rw [checkParam_ok (categorical_check h0 hs), switch_neg (by omega)]
    rw [this, onNat, if_neg (by omega)]
    exact ⟨clean_ninf, by simp⟩
  · obtain ⟨n, rfl⟩ := Int.eq_ofNat_of_zero_le h
    have hn : 0 ≤ categoricalMass p n := by
      rw [categoricalMass, List.getD_eq_getElem _ _ (by omega : n < p.length)]
      exact div_nonneg (h0 _ (List.getElem_mem _)) hs.le
    rw [hpos n (by omega)]
    refine ⟨clean_log_nonneg hn, ?_⟩
    rw [dens_log_nonneg hn]; simp [onNat]

example := C36_categorical_partial (p := [1, 0, 3]) (by simp) (by norm_num)

/-- **C36, refuted**: for every probability vector and every value outside `-len(p) .. len(p)-1` the evaluation raises `IndexError`
instead of giving `-inf`. -/
theorem C36_categorical_raises_out_of_range (p : List FVal) (k : ℤ) (h : k < -p.length ∨ p.length ≤ k) :
    categoricalLogprob k p = .error .indexError := by
  rw [categoricalLogprob]
  beta_reduce
  rw [npIndex_out (by simpa [normalise] using h)]
  rfl

example := C36_categorical_raises_out_of_range [fin 1] 1 (by simp)

/-- **C36**, batches: with one value per row of weights, element `j` of the result is the log of row `j`'s normalised weight. -/
theorem C36_categorical_batch_partial (es : List (ℕ × List ℝ)) (h : ∀ e ∈ es, (∀ x ∈ e.2, 0 ≤ x) ∧ 0 < e.2.sum ∧ e.1 < e.2.length) :
    categoricalBatch (es.map fun e => ((e.1 : ℤ), e.2.map fin)) = .ok (es.map fun e => log (fin (categoricalMass e.2 e.1))) := by
  rw [categoricalBatch]
  induction es with
  | nil => rfl
  | cons e es ih =>
    have he := h e (by simp)
    rw [List.map_cons, List.mapM_cons, (C36_categorical_partial he.1 he.2.1).1 e.1 he.2.2, ih fun e' he' => h e' (by simp [he'])]
    rfl

example := C36_categorical_batch_partial [(0, [1, 3]), (1, [2, 2])] (by simp; norm_num)

/-! ### Multinomial -/

theorem multinomialMass_nonneg {m n : ℕ} {p : Fin m → ℝ} (hp : ∀ i, 0 ≤ p i) (k : Fin m → ℤ) : 0 ≤ multinomialMass n p k := by
  unfold multinomialMass
  split_ifs
  · have := Finset.prod_nonneg fun i (_ : i ∈ Finset.univ) => pow_nonneg (hp i) (k i).toNat
    positivity
  · exact le_rfl

theorem multinomialMass_hasSum {m n : ℕ} {p : Fin m → ℝ} (hs : ∑ i, p i = 1) : HasSum (multinomialMass n p) 1 := by
  classical
  let c : (Fin m → ℕ) → (Fin m → ℤ) := fun k i => k i
  have hc : Function.Injective c := fun a b h => funext fun i => by
    have := congrFun h i
    simpa [c] using this
  rw [← hc.hasSum_iff]
  · have h1 : (1 : ℝ) = ∑ k ∈ Finset.univ.piAntidiag n, (multinomialMass n p ∘ c) k := by
      rw [← one_pow n, ← hs, Finset.sum_pow_eq_sum_piAntidiag]
      refine Finset.sum_congr rfl fun k hk => ?_
      rw [Finset.mem_piAntidiag] at hk
      have hk : ∑ i, k i = n := hk.1
      have h2 : (∀ i, 0 ≤ c k i) ∧ ∑ i, c k i = (n : ℤ) := ⟨fun i => by simp [c], by simp only [c]; exact_mod_cast hk⟩
      simp only [Function.comp_apply, multinomialMass]
      rw [if_pos h2]
      congr 1
      have h3 := Nat.multinomial_spec Finset.univ k
      rw [hk] at h3
      rw [_root_.eq_div_iff (by positivity), mul_comm]
      simp only [c, Int.toNat_natCast]
      exact_mod_cast h3
    rw [h1]
    refine hasSum_sum_of_ne_finset_zero fun k hk => ?_
    rw [Function.comp_apply, multinomialMass, if_neg]
    rintro ⟨_, h⟩
    apply hk
    rw [Finset.mem_piAntidiag]
    refine ⟨?_, by simp⟩
    simp only [c] at h
    exact_mod_cast h
  · intro k hk
    rw [multinomialMass, if_neg]
    rintro ⟨h, _⟩
    exact hk ⟨fun i => (k i).toNat, funext fun i => by simp [c, h i]⟩

/-- **C39** (non-negative `p`) For every natural `n` and probability vector `p` of any length, the multinomial log-probability of
every integer vector is never NaN, its exponential is the multinomial mass, and the masses add up to one.
Missing: vectors with negative entries, which the check accepts (`C39_multinomial_accepts_negative`). -/
theorem C39_multinomial_partial {m : ℕ} (n : ℕ) {p : Fin m → ℝ} (hp : ∀ i, 0 ≤ p i) (hs : ∑ i, p i = 1) :
    IsLogMassV (fun k => multinomialLogprob (List.ofFn fun i => fin (k i)) (fin n) (List.ofFn fun i => fin (p i)))
      (multinomialMass n p) := by
  have key : ∀ k : Fin m → ℤ, multinomialLogprob (List.ofFn fun i => fin (k i)) (fin n) (List.ofFn fun i => fin (p i)) =
      .ok (log (fin (multinomialMass n p k))) := by
    intro k
    have hle : ∀ i, p i ≤ 1 := fun i => by
      rw [← hs]; exact Finset.single_le_sum (fun j _ => hp j) (Finset.mem_univ i)
    rw [multinomialLogprob]
    beta_reduce
    rw [checkParam_ok (by simp [forall_mem_ofFn, fsum_ofFn_fin, hs, hle])]
    have hcond : ((∀ v ∈ List.ofFn (fun i => fin (k i : ℝ)), le 0 v) ∧ eq (fsum (List.ofFn fun i => fin (k i : ℝ))) (fin n)) ↔
        ((∀ i, 0 ≤ k i) ∧ ∑ i, k i = (n : ℤ)) := by
      rw [forall_mem_ofFn, fsum_ofFn_fin]
      simp only [zero_eq, le_fin, eq_fin, Int.cast_nonneg_iff]
      constructor
      · rintro ⟨a, b⟩; exact ⟨a, by exact_mod_cast b⟩
      · rintro ⟨a, b⟩; exact ⟨a, by exact_mod_cast b⟩
    congr 1
    by_cases h : (∀ i, 0 ≤ k i) ∧ ∑ i, k i = (n : ℤ)
    · rw [switch_pos (hcond.2 h), multinomialMass, if_pos h, zipWith_ofFn]
      have e : ∀ i, (-gammaln (fin (k i : ℝ) + 1) + xlogy0 (fin (k i)) (fin (p i)) : FVal) =
          log (fin (p i ^ (k i).toNat / ((k i).toNat.factorial : ℝ))) := by
        intro i
        obtain ⟨j, hj⟩ := Int.eq_ofNat_of_zero_le (h.1 i)
        rw [hj, Int.cast_natCast, Int.toNat_natCast, one_eq, add_fin, gammaln_nat, xlogy0_nat _ (hp i),
          ← log_div_nonneg (pow_nonneg (hp i) j) (by positivity), log_fin_pos (show (0 : ℝ) < j.factorial by positivity)]
        have h0 : 0 ≤ p i ^ j := pow_nonneg (hp i) j
        rcases h0.lt_or_eq with h0 | h0
        · rw [log_fin_pos h0]; simp [sub_eq_add_neg, add_comm]
        · rw [← h0]; simp
      simp_rw [e]
      rw [fsum_ofFn_log fun i => div_nonneg (pow_nonneg (hp i) _) (by positivity), one_eq, add_fin, gammaln_nat,
        log_mul_nonneg (by positivity) (Finset.prod_nonneg fun i _ => div_nonneg (pow_nonneg (hp i) _) (by positivity)),
        Finset.prod_div_distrib]
      congr 2
      ring
    · rw [switch_neg (fun hh => h (hcond.1 hh)), multinomialMass, if_neg h, log_zero]
  refine ⟨fun k => ?_, fun k => ?_, multinomialMass_hasSum hs⟩
  · rw [key]; exact clean_log_nonneg (multinomialMass_nonneg hp k)
  · rw [key, dens_log_nonneg (multinomialMass_nonneg hp k)]

example := C39_multinomial_partial (m := 3) 4 (p := ![1 / 2, 0, 1 / 2]) (by intro i; fin_cases i <;> simp)
  (by simp [Fin.sum_univ_three]; norm_num)

/-- **C39, refuted** for parameters the check accepts: `p = (1, 1, -1)` passes (all entries `≤ 1`, sum `1`) and the log-probability of
`(0, 0, 1)` is NaN. -/
theorem C39_multinomial_accepts_negative :
    multinomialLogprob [fin 0, fin 0, fin 1] (fin 1) [fin 1, fin 1, fin (-1)] = .ok nan := by
  rw [multinomialLogprob]
  beta_reduce
  rw [checkParam_ok (by simp), switch_pos (by simp)]
  congr 1
  have e1 : xlogy0 (fin 0) (fin 1) = fin 0 := by simp [xlogy0, switch, log_fin_pos one_pos]
  have e2 : xlogy0 (fin 1) (fin (-1)) = nan := by
    rw [xlogy0, switch_neg (by simp), log_fin_neg (by norm_num), mul_nan]
  simp only [List.zipWith, fsum_cons, fsum_nil, e1, e2, add_nan, nan_add]

/-! ### Dirac delta -/

/-- **C40** The Dirac-delta log-probability of `v` is `0` when `|v - c| ≤ atol + rtol |c|` and `-inf` otherwise (always one of the two,
also when `v` or `c` is infinite or NaN: infinities match only themselves, NaN nothing). -/
theorem C40_dirac (rtol atol : ℝ) :
    (∀ v c : ℝ, (|v - c| ≤ atol + rtol * |c| → diracLogprob rtol atol (fin v) (fin c) = fin 0) ∧
      (¬ |v - c| ≤ atol + rtol * |c| → diracLogprob rtol atol (fin v) (fin c) = ninf)) ∧
    (∀ v : FVal, diracLogprob rtol atol v nan = ninf ∧ diracLogprob rtol atol nan v = ninf) ∧
    ∀ v : ℝ, diracLogprob rtol atol pinf pinf = fin 0 ∧ diracLogprob rtol atol ninf ninf = fin 0 ∧
      diracLogprob rtol atol pinf ninf = ninf ∧ diracLogprob rtol atol (fin v) pinf = ninf ∧
      diracLogprob rtol atol pinf (fin v) = ninf := by
  refine ⟨fun v c => ⟨fun h => switch_pos h _ _, fun h => switch_neg h _ _⟩, fun v => ⟨?_, ?_⟩, fun v => ⟨?_, ?_, ?_, ?_, ?_⟩⟩
  · cases v <;> exact switch_neg (by simp [isclose]) _ _
  · cases v <;> exact switch_neg (by simp [isclose]) _ _
  · exact switch_pos trivial _ _
  · exact switch_pos trivial _ _
  all_goals exact switch_neg (by simp [isclose]) _ _

/-- **C40**, zero tolerances: the exponential of the log-probability is the mass function (density with respect to counting measure)
of the point mass at `c`. -/
theorem C40_dirac_pointmass (c : ℝ) :
    (Measure.count : Measure ℝ).withDensity (fun v => dens (.ok (diracLogprob 0 0 (fin v) (fin c)))) = Measure.dirac c := by
  have e : (fun v => dens (.ok (diracLogprob 0 0 (fin v) (fin c)))) = ({c} : Set ℝ).indicator 1 := by
    funext v
    by_cases h : v = c
    · subst h
      rw [((C40_dirac 0 0).1 v v).1 (by simp)]
      simp
    · rw [((C40_dirac 0 0).1 v c).2 (by simpa [sub_eq_zero] using h)]
      simp [h]
  rw [e, withDensity_indicator_one (measurableSet_singleton c)]
  ext s hs
  rw [Measure.restrict_apply hs, Measure.dirac_apply' _ hs]
  by_cases h : c ∈ s
  · rw [Set.inter_eq_self_of_subset_right (by simpa using h)]; simp [h]
  · rw [show s ∩ {c} = ∅ by ext x; simp only [Set.mem_inter_iff, Set.mem_singleton_iff, Set.mem_empty_iff_false, iff_false]; rintro ⟨a, rfl⟩; exact h a]
    simp [h]

example : diracLogprob (1 / 100000) (1 / 100000000) (fin 1.000001) (fin 1) = fin 0 :=
  ((C40_dirac _ _).1 _ _).1 (by norm_num [abs_of_pos])

end Verif
