import Verif.Model.Cumsum
import Verif.Lemmas.Axis
import Verif.Spec.Nd
import Verif.Spec.Density
import Mathlib.Probability.Distributions.Gaussian.Real
import Mathlib.LinearAlgebra.Matrix.Block
import Mathlib.MeasureTheory.Measure.Lebesgue.EqHaar
import Mathlib.Algebra.BigOperators.Intervals

/-! # C66: cumulative sums -/

namespace Verif
open MeasureTheory ENNReal Set

theorem InRange.length {c s : List ℕ} (h : InRange c s) : c.length = s.length := List.Forall₂.length_eq h

theorem InRange.getD_lt {c s : List ℕ} (h : InRange c s) {a : ℕ} (ha : a < s.length) : c.getD a 0 < s.getD a 0 := by
  have hc : a < c.length := h.length ▸ ha
  have := List.Forall₂.get h hc ha
  simpa [hc, ha] using this

theorem InRange.set {c s : List ℕ} (h : InRange c s) {a k : ℕ} (hk : k < s.getD a 0) : InRange (c.set a k) s := by
  induction h generalizing a with
  | nil => exact List.Forall₂.nil
  | cons h1 h2 ih =>
    cases a with
    | zero => exact .cons (by simpa using hk) h2
    | succ a => exact .cons h1 (ih (by simpa using hk))

/-- The entries of the differenced value. -/
theorem cumsumValueDiff_get {α : Type*} [Sub α] {a : ℕ} {v d : Arr α} (ha : a < v.ndim) (h : cumsumValueDiff a v = .ok d) :
    d.shape = v.shape ∧ ∀ c, c.length = v.ndim → d.get c = if c.getD a 0 = 0 then v.get c else v.get c - v.get (c.set a (c.getD a 0 - 1)) := by
  unfold Arr.ndim at ha
  unfold cumsumValueDiff at h
  split_ifs at h with h0
  cases h
  have hs : ((v.shape.eraseIdx a).insertIdx a 1) = v.shape.set a 1 := List.insertIdx_eraseIdx_self ha.ne _
  refine ⟨?_, fun c hc => ?_⟩
  · simp only [Arr.concat2, Arr.padAxis, Arr.take0, Arr.diff, Arr.size, hs, List.set_set]
    rw [Arr.size] at h0
    apply List.ext_getElem (by simp)
    intro i hi1 hi2
    rw [List.getElem_set]
    split_ifs with hia
    · subst hia
      simp only [List.getD_eq_getElem?_getD, List.getElem?_set_self ha, List.getElem?_eq_getElem ha, Option.getD_some] at h0 ⊢
      omega
    · rfl
  · have hca : a < c.length := by rw [hc]; exact ha
    have h1 : Arr.size (Arr.padAxis a (Arr.take0 a v)) a = 1 := by
      simp [Arr.size, Arr.padAxis, Arr.take0, hs, List.getElem?_set_self ha]
    simp only [Arr.concat2, h1, Nat.lt_one_iff]
    split_ifs with h2
    · simp only [Arr.padAxis, Arr.take0]
      rw [List.insertIdx_eraseIdx_self hca.ne]
      congr 1
      apply List.ext_getElem (by simp)
      intro i hi1 hi2
      rw [List.getElem_set]
      split_ifs with hia
      · subst hia; simpa [hca] using h2.symm
      · rfl
    · simp only [Arr.diff, List.set_set]
      congr 2
      apply List.ext_getElem (by simp)
      intro i hi1 hi2
      rw [List.getElem_set]
      split_ifs with hia
      · subst hia
        simp only [List.getD_eq_getElem?_getD, List.getElem?_set_self hca, List.getElem?_eq_getElem hca, Option.getD_some] at h2 ⊢
        omega
      · rfl

theorem getD_set_self {c : List ℕ} {a k : ℕ} (h : a < c.length) : (c.set a k).getD a 0 = k := by
  simp [List.getElem?_set_self h]

/-- **C66** The value handed to the base variable is the inverse of the cumulative sum, both ways, along every axis of arrays of every
shape (an empty axis raises). -/
theorem C66_differences_invert_cumsum {α : Type*} [AddCommGroup α] (a : ℕ) (v : Arr α) (ha : a < v.ndim) :
    (v.size a = 0 → cumsumValueDiff a v = .error .indexError) ∧
    (v.size a ≠ 0 → (∃ d, cumsumValueDiff a v = .ok d ∧ Arr.Same (Arr.cumsum a d) v) ∧
      ∃ d, cumsumValueDiff a (Arr.cumsum a v) = .ok d ∧ Arr.Same d v) := by
  constructor
  · intro h; simp [cumsumValueDiff, h]
  · intro h
    constructor
    · obtain ⟨d, hd⟩ : ∃ d, cumsumValueDiff a v = .ok d := by simp [cumsumValueDiff, h]
      obtain ⟨h1, h2⟩ := cumsumValueDiff_get ha hd
      refine ⟨d, hd, h1, fun c hc => ?_⟩
      have hl : c.length = v.ndim := by rw [hc.length]; exact congrArg _ h1
      have hca : a < c.length := hl ▸ ha
      show ∑ k ∈ Finset.range (c.getD a 0 + 1), d.get (c.set a k) = _
      have key : ∀ n, ∑ k ∈ Finset.range (n + 1), d.get (c.set a k) = v.get (c.set a n) := by
        intro n
        induction n with
        | zero => rw [Finset.sum_range_one, h2 _ (by simpa using hl), if_pos (getD_set_self hca)]
        | succ n ih =>
          rw [Finset.sum_range_succ, ih, h2 _ (by simpa using hl), getD_set_self hca, if_neg (by omega), List.set_set]
          simp
      rw [key]
      congr 1
      simp [hca]
    · obtain ⟨d, hd⟩ : ∃ d, cumsumValueDiff a (Arr.cumsum a v) = .ok d := by
        have : (Arr.cumsum a v).size a ≠ 0 := h
        simp [cumsumValueDiff, this]
      obtain ⟨h1, h2⟩ := cumsumValueDiff_get (v := Arr.cumsum a v) ha hd
      refine ⟨d, hd, h1, fun c hc => ?_⟩
      have hl : c.length = v.ndim := by rw [hc.length]; exact congrArg _ h1
      have hca : a < c.length := hl ▸ ha
      have hset : c.set a (c.getD a 0) = c := by simp [hca]
      rw [h2 c hl]
      simp only [Arr.cumsum]
      split_ifs with h0
      · rw [h0, Finset.sum_range_one, ← h0, hset]
      · obtain ⟨n, hn⟩ := Nat.exists_eq_succ_of_ne_zero h0
        rw [getD_set_self hca, hn, Nat.succ_eq_add_one, Nat.add_sub_cancel, Finset.sum_range_succ]
        simp only [List.set_set]
        rw [add_sub_cancel_left, ← Nat.succ_eq_add_one, ← hn, hset]

example : let v : Arr ℤ := ⟨[2, 3], fun c => 10 * c.getD 0 0 + c.getD 1 0 ^ 2⟩
    ∃ d, cumsumValueDiff 1 v = .ok d ∧ Arr.Same (Arr.cumsum 1 d) v :=
  ((C66_differences_invert_cumsum (α := ℤ) 1 ⟨[2, 3], fun c => 10 * c.getD 0 0 + c.getD 1 0 ^ 2⟩ (by decide)).2 (by decide)).1

theorem prev_inRange {s c : List ℕ} (hc : InRange c s) {a : ℕ} (h : c.getD a 0 ≠ 0) : InRange (c.set a (c.getD a 0 - 1)) s := by
  by_cases ha : a < s.length
  · have := hc.getD_lt ha
    exact hc.set (by omega)
  · have : s.length = c.length := hc.length.symm
    have hn : c.length ≤ a := by omega
    exact absurd (by simp [List.getElem?_eq_none hn]) h

/-- First differences along axis `a`, on the entries of arrays of shape `s`. -/
noncomputable def diffMap (s : List ℕ) (a : ℕ) (v : Ix s → ℝ) (c : Ix s) : ℝ :=
  if h : c.1.getD a 0 = 0 then v c else v c - v ⟨c.1.set a (c.1.getD a 0 - 1), prev_inRange c.2 h⟩

/-- The matrix of `diffMap`. -/
noncomputable def diffMatrix (s : List ℕ) (a : ℕ) : Matrix (Ix s) (Ix s) ℝ := fun c c' =>
  (if c' = c then 1 else 0) - if c.1.getD a 0 ≠ 0 ∧ c'.1 = c.1.set a (c.1.getD a 0 - 1) then 1 else 0

theorem diffMatrix_mulVec (s : List ℕ) (a : ℕ) (v : Ix s → ℝ) : Matrix.toLin' (diffMatrix s a) v = diffMap s a v := by
  funext c
  rw [Matrix.toLin'_apply]
  simp only [Matrix.mulVec, dotProduct, diffMatrix, sub_mul, Finset.sum_sub_distrib, ite_mul, one_mul, zero_mul, Finset.sum_ite_eq', Finset.mem_univ,
    if_true, diffMap]
  split_ifs with h
  · rw [Finset.sum_eq_zero fun x _ => if_neg fun h' => h'.1 h, sub_zero]
  · congr 1
    rw [Finset.sum_eq_single ⟨c.1.set a (c.1.getD a 0 - 1), prev_inRange c.2 h⟩]
    · rw [if_pos ⟨h, rfl⟩]
    · intro b _ hb
      rw [if_neg]
      rintro ⟨-, h'⟩
      exact hb (Subtype.ext h')
    · exact fun h => absurd (Finset.mem_univ _) h

theorem diffMatrix_det (s : List ℕ) {a : ℕ} (ha : a < s.length) : (diffMatrix s a).det = 1 := by
  have hne : ∀ c c' : Ix s, c.1.getD a 0 ≠ 0 → c'.1 = c.1.set a (c.1.getD a 0 - 1) → c'.1.getD a 0 < c.1.getD a 0 := by
    intro c c' h1 h2
    rw [h2, getD_set_self (by rw [c.2.length]; exact ha)]; omega
  have hb : (diffMatrix s a).BlockTriangular fun c => OrderDual.toDual (c.1.getD a 0) := by
    intro c c' h
    have h : c.1.getD a 0 < c'.1.getD a 0 := h
    unfold diffMatrix
    rw [if_neg (by rintro rfl; exact lt_irrefl _ h), if_neg, sub_zero]
    rintro ⟨h1, h2⟩
    exact lt_asymm h (hne c c' h1 h2)
  rw [hb.det]
  refine Finset.prod_eq_one fun k _ => ?_
  have : (diffMatrix s a).toSquareBlock (fun c => OrderDual.toDual (c.1.getD a 0)) k = 1 := by
    ext c c'
    simp only [Matrix.toSquareBlock_def, Matrix.one_apply, Matrix.of_apply, diffMatrix]
    rw [if_neg (c := c.1.1.getD a 0 ≠ 0 ∧ _), sub_zero]
    · simp only [Subtype.ext_iff]
      congr 1
      exact propext ⟨Eq.symm, Eq.symm⟩
    · rintro ⟨h1, h2⟩
      have e : c.1.1.getD a 0 = c'.1.1.getD a 0 := OrderDual.toDual_inj.mp (c.2.trans c'.2.symm)
      have := hne _ _ h1 h2
      omega
  rw [this, Matrix.det_one]

theorem diffMap_volume (s : List ℕ) {a : ℕ} (ha : a < s.length) : MeasurePreserving (diffMap s a) := by
  have hdet : LinearMap.det (Matrix.toLin' (diffMatrix s a)) = 1 := by rw [LinearMap.det_toLin', diffMatrix_det s ha]
  have he : diffMap s a = Matrix.toLin' (diffMatrix s a) := funext fun v => (diffMatrix_mulVec s a v).symm
  rw [he]
  refine ⟨(LinearMap.continuous_of_finiteDimensional _).measurable, ?_⟩
  rw [Measure.map_linearMap_addHaar_eq_smul_addHaar _ (by rw [hdet]; exact one_ne_zero), hdet]
  simp

theorem toArr_get {s : List ℕ} (x : Ix s → ℝ) (c : Ix s) : (toArr s x).get c.1 = x c := dif_pos c.2

theorem diffMap_eq {s : List ℕ} {a : ℕ} (ha : a < s.length) {w d : Arr ℝ} (hw : w.shape = s) (hd : cumsumValueDiff a w = .ok d) :
    ofArr s d = diffMap s a (ofArr s w) := by
  obtain ⟨-, h2⟩ := cumsumValueDiff_get (v := w) (by rw [Arr.ndim, hw]; exact ha) hd
  funext c
  simp only [ofArr, diffMap]
  rw [h2 c.1 (by rw [c.2.length, Arr.ndim, hw])]
  split_ifs <;> rfl

theorem ofArr_toArr {s : List ℕ} (x : Ix s → ℝ) : ofArr s (toArr s x) = x := funext fun c => toArr_get x c

/-- **C66** The map from the value to what is handed to the base variable preserves volume, for every shape and axis. -/
theorem C66_volume (s : List ℕ) {a : ℕ} (ha : a < s.length) {D : (Ix s → ℝ) → Ix s → ℝ}
    (hD : ∀ v, ∃ d, cumsumValueDiff a (toArr s v) = .ok d ∧ ofArr s d = D v) : MeasurePreserving D := by
  have : D = diffMap s a := funext fun v => by
    obtain ⟨d, h1, h2⟩ := hD v
    rw [← h2, diffMap_eq ha rfl h1, ofArr_toArr]
  rw [this]
  exact diffMap_volume s ha

theorem toArr_same {s : List ℕ} {d : Arr ℝ} (h : d.shape = s) : Arr.Same d (toArr s (ofArr s d)) :=
  ⟨h, fun c hc => (toArr_get (ofArr s d) ⟨c, h ▸ hc⟩).symm⟩

theorem same_ofArr {s : List ℕ} {d e : Arr ℝ} (hd : d.shape = s) (h : Arr.Same d e) : ofArr s d = ofArr s e :=
  funext fun c => h.2 c.1 (hd.symm ▸ c.2)

theorem cumsum_same {s : List ℕ} {a : ℕ} (ha : a < s.length) {d e : Arr ℝ} (hd : d.shape = s) (h : Arr.Same d e) :
    Arr.Same (Arr.cumsum a d) (Arr.cumsum a e) := by
  refine ⟨h.1, fun c hc => ?_⟩
  have hc : InRange c d.shape := hc
  show ∑ k ∈ Finset.range (c.getD a 0 + 1), d.get (c.set a k) = ∑ k ∈ Finset.range (c.getD a 0 + 1), e.get (c.set a k)
  refine Finset.sum_congr rfl fun k hk => h.2 _ (hc.set ?_)
  have := hc.getD_lt (hd.symm ▸ ha)
  have := Finset.mem_range.mp hk
  omega

/-- **C66** For every law of an array (any shape, any axis, counted from either end) with joint density `J ∘ lp`, the derived
log-probability gives the joint density of the cumulative sums.  Missing: an axis of length zero, on which the log-probability raises
(`C66_differences_invert_cumsum`). -/
theorem C66_cumsum_law_partial {β : Type*} (s : List ℕ) (axis : ℤ) {a : ℕ} (hax : AxisIs axis s.length a) (hs : s.getD a 0 ≠ 0)
    {lp : Arr ℝ → Except Err β} (hsame : ∀ x y, Arr.Same x y → lp x = lp y) (J : Except Err β → ℝ≥0∞) (μ : Measure (Ix s → ℝ))
    (hμ : ∀ S, MeasurableSet S → ∫⁻ x in S, J (lp (toArr s x)) = μ S) (S : Set (Ix s → ℝ)) (hS : MeasurableSet S) :
    ∫⁻ v in S, J (cumsumLogprob axis lp (toArr s v)) = μ.map (fun x => ofArr s (Arr.cumsum a (toArr s x))) S := by
  replace hax := normAxis_iff.2 hax
  have ha : a < s.length := by
    by_contra h
    rw [List.getD_eq_getElem?_getD, List.getElem?_eq_none (by omega)] at hs
    exact hs rfl
  have hok : ∀ v : Ix s → ℝ, ∃ d, cumsumValueDiff a (toArr s v) = .ok d ∧ d.shape = s ∧ ofArr s d = diffMap s a v := fun v => by
    have h0 : (toArr s v).size a ≠ 0 := hs
    obtain ⟨d, hd⟩ : ∃ d, cumsumValueDiff a (toArr s v) = .ok d := by simp [cumsumValueDiff, h0]
    exact ⟨d, hd, (cumsumValueDiff_get (v := toArr s v) ha hd).1, by rw [diffMap_eq ha rfl hd, ofArr_toArr]⟩
  have hlp : ∀ v, cumsumLogprob axis lp (toArr s v) = lp (toArr s (diffMap s a v)) := fun v => by
    obtain ⟨d, hd, hsh, he⟩ := hok v
    have hax' : normAxis axis (toArr s v).ndim = .ok a := hax
    simp only [cumsumLogprob, hax', hd]
    rw [hsame _ _ (toArr_same hsh), he]
  set C : (Ix s → ℝ) → Ix s → ℝ := fun x => ofArr s (Arr.cumsum a (toArr s x)) with hC
  have hCD : ∀ v, C (diffMap s a v) = v := fun v => by
    obtain ⟨⟨d, hd, hsm⟩, -⟩ := (C66_differences_invert_cumsum a (toArr s v) ha).2 hs
    obtain ⟨d', hd', hsh, he⟩ := hok v
    rw [hd] at hd'; cases hd'
    simp only [hC, ← he]
    rw [← same_ofArr (d := Arr.cumsum a d) hsh (cumsum_same ha hsh (toArr_same hsh)),
      same_ofArr (d := Arr.cumsum a d) hsh hsm, ofArr_toArr]
  have hDC : ∀ x, diffMap s a (C x) = x := fun x => by
    obtain ⟨-, d, hd, hsm⟩ := (C66_differences_invert_cumsum a (toArr s x) ha).2 hs
    have hsh : d.shape = s := hsm.1
    rw [hC, ← diffMap_eq ha rfl hd, same_ofArr hsh hsm, ofArr_toArr]
  have hmp := diffMap_volume s ha
  have hCm : Measurable C := by
    refine measurable_pi_lambda _ fun c => ?_
    show Measurable fun x => ∑ k ∈ Finset.range (c.1.getD a 0 + 1), (toArr s x).get (c.1.set a k)
    refine Finset.measurable_sum _ fun k _ => ?_
    simp only [toArr]
    split_ifs
    · exact measurable_pi_apply _
    · exact measurable_const
  let e : (Ix s → ℝ) ≃ᵐ (Ix s → ℝ) := ⟨⟨diffMap s a, C, hCD, hDC⟩, hmp.measurable, hCm⟩
  have hS' : S = diffMap s a ⁻¹' (C ⁻¹' S) := by rw [← preimage_comp]; ext v; simp [hCD]
  rw [Measure.map_apply hCm hS, ← hμ _ (hCm hS)]
  conv_lhs => rw [hS']
  simp only [hlp]
  exact hmp.setLIntegral_comp_preimage_emb e.measurableEmbedding (fun x => J (lp (toArr s x))) _

/-- **C66** (axes out of range) An axis that is none of the dimensions of the value is refused, whatever the log-probability. -/
theorem C66_axis_raises {α β : Type*} [Sub α] {axis : ℤ} {lp : Arr α → Except Err β} {v : Arr α} (h : ∀ a, ¬ AxisIs axis v.ndim a) : ∃ e, cumsumLogprob axis lp v = .error e := by
  obtain ⟨e, he⟩ := normAxis_error.2 h
  exact ⟨e, by simp only [cumsumLogprob, he]⟩

example (lp : Arr ℝ → Except Err ℝ) := C66_axis_raises (axis := -3) (lp := lp) (v := ⟨[3, 2], fun _ => 0⟩) (fun a => by unfold AxisIs; simp only [Arr.ndim, List.length_cons, List.length_nil]; omega)

/-- A 3 by 2 array of independent standard normals, summed along its last axis. -/
example (S : Set (Ix [3, 2] → ℝ)) (hS : MeasurableSet S) :
    let lp : Arr ℝ → Except Err ℝ≥0∞ := fun a =>
      if a.shape = [3, 2] then .ok (∏ c : Ix [3, 2], ProbabilityTheory.gaussianPDF 0 1 (a.get c.1)) else .error .valueError
    let J : Except Err ℝ≥0∞ → ℝ≥0∞ := fun r => match r with | .ok x => x | .error _ => 0
    ∫⁻ v in S, J (cumsumLogprob (-1) lp (toArr [3, 2] v)) =
      (volume.withDensity fun x : Ix [3, 2] → ℝ => ∏ c, ProbabilityTheory.gaussianPDF 0 1 (x c)).map
        (fun x => ofArr [3, 2] (Arr.cumsum 1 (toArr [3, 2] x))) S := by
  intro lp J
  refine C66_cumsum_law_partial [3, 2] (-1) (a := 1) (by decide) (by decide) (lp := lp) (fun x y h => ?_) J _ (fun T hT => ?_) S hS
  · simp only [lp]
    by_cases h0 : x.shape = [3, 2]
    · have h1 : y.shape = [3, 2] := h.1 ▸ h0
      rw [if_pos h0, if_pos h1]
      congr 1
      exact Finset.prod_congr rfl fun c _ => by rw [h.2 c.1 (h0.symm ▸ c.2)]
    · have h1 : ¬ y.shape = [3, 2] := h.1 ▸ h0
      rw [if_neg h0, if_neg h1]
  · rw [withDensity_apply _ hT]
    refine lintegral_congr fun x => ?_
    simp only [J, lp]
    rw [if_pos (show (toArr [3, 2] x).shape = [3, 2] from rfl)]
    exact Finset.prod_congr rfl fun c _ => by rw [toArr_get]

/-- **C66** The rewrite: only sums are handled; a cumulative sum without axis is handled for vectors and 0-d arrays only, as one along axis
0; otherwise the axis is kept. -/
theorem C66_rewrite (add : Bool) (ndim : ℕ) (axis : Option ℤ) :
    (findMeasurableCumsum add ndim axis ≠ none ↔ add = true ∧ (axis = none → ndim ≤ 1)) ∧
    ∀ b, findMeasurableCumsum add ndim axis = some b → (∀ a, axis = some a → b = a) ∧ (axis = none → b = 0) := by
  cases add <;> cases axis <;> simp [findMeasurableCumsum, eq_comm]

example : findMeasurableCumsum true 2 (some (-1)) = some (-1) ∧ findMeasurableCumsum true 2 none = none := by decide

end Verif
