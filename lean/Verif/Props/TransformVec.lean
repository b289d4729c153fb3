import Verif.Model.TransformVec
import Verif.Spec.TransformVec
import Verif.Props.TransDensity
import Verif.Props.Repeated
import Verif.Props.MvNormal
import Verif.Props.Dist1
import Verif.Lemmas.PiDensity
import Mathlib.MeasureTheory.Function.Jacobian
import Mathlib.Analysis.Calculus.FDeriv.Pi
import Mathlib.LinearAlgebra.Matrix.ToLin
import Mathlib.LinearAlgebra.Determinant

/-! # C97: transformed values that are vectors -/

namespace Verif.TransVec
open Verif MeasureTheory Set

theorem seqFin_ok {α : Type} {n : ℕ} {f : Fin n → Except Err α} {g : Fin n → α} (h : ∀ i, f i = .ok (g i)) : seqFin f = .ok g := by
  induction n with
  | zero => simp only [seqFin]; congr 1; funext i; exact i.elim0
  | succ n ih =>
    simp only [seqFin, h 0, ih (f := fun i => f i.succ) (g := fun i => g i.succ) fun i => h i.succ]
    congr 1
    funext i
    cases i using Fin.cases <;> rfl

theorem seqFin_inv {α : Type} {n : ℕ} {f : Fin n → Except Err α} {g : Fin n → α} (h : seqFin f = .ok g) : ∀ i, f i = .ok (g i) := by
  induction n with
  | zero => exact fun i => i.elim0
  | succ n ih =>
    simp only [seqFin] at h
    cases e0 : f 0 with
    | error e => rw [e0] at h; cases h
    | ok x =>
      rw [e0] at h
      simp only at h
      cases e1 : seqFin fun i => f i.succ with
      | error e => rw [e1] at h; cases h
      | ok xs =>
        rw [e1] at h
        cases h
        intro i
        cases i using Fin.cases with
        | zero => exact e0
        | succ i => exact ih e1 i

theorem toDens_total {n : ℕ} (x : Fin n → FVal) : (VTens.each x).total.toDens = ∏ i, (x i).toDens := by
  simp only [VTens.total, toDens_fsum, List.map_ofFn, List.prod_ofFn, Function.comp_apply]

/-- Of the same kind: NaN, infinite with the same sign, or finite. -/
def SameKind : FVal → FVal → Prop
  | .nan, .nan => True
  | .ninf, .ninf => True
  | .pinf, .pinf => True
  | .fin _, .fin _ => True
  | _, _ => False

theorem SameKind.add {a b c d : FVal} (h1 : SameKind a b) (h2 : SameKind c d) : SameKind (a + c) (b + d) := by
  cases a <;> cases b <;> cases c <;> cases d <;> first | exact h1.elim | exact h2.elim | trivial

theorem SameKind.shift (a : FVal) (j : ℝ) : SameKind a (a + .fin j) := by
  cases a <;> trivial

theorem SameKind.ne_nan {a b : FVal} (h : SameKind a b) (ha : a ≠ .nan) : b ≠ .nan := by
  rintro rfl
  cases a <;> first | exact h.elim | exact ha rfl

theorem sameKind_total {n : ℕ} {x y : Fin n → FVal} (h : ∀ i, SameKind (x i) (y i)) : SameKind (VTens.each x).total (VTens.each y).total := by
  induction n with
  | zero => trivial
  | succ n ih =>
    simp only [VTens.total, List.ofFn_succ]
    exact (h 0).add (ih fun i => h i.succ)

/-! ## Change of variables -/

section
variable {n : ℕ} {t : Fin n → RVTransform} {D R : Fin n → Set ℝ}

/-- `backward` at every entry. -/
noncomputable def back (t : Fin n → RVTransform) (y : Fin n → ℝ) (i : Fin n) : ℝ := realOf ((t i).backward (.fin (y i)))

/-- `forward` at every entry. -/
noncomputable def forw (t : Fin n → RVTransform) (x : Fin n → ℝ) (i : Fin n) : ℝ := realOf ((t i).forward (.fin (x i)))

theorem back_spec (hinv : ∀ i, Inverts (t i) (D i) (R i)) {y : Fin n → ℝ} (hy : y ∈ univ.pi R) :
    back t y ∈ univ.pi D ∧ forw t (back t y) = y ∧ ∀ i, (t i).backward (.fin (y i)) = .ok (.fin (back t y i)) := by
  have h : ∀ i, back t y i ∈ D i ∧ (t i).backward (.fin (y i)) = .ok (.fin (back t y i)) ∧ (t i).forward (.fin (back t y i)) = .ok (.fin (y i)) := by
    intro i
    obtain ⟨x, hx, e1, e2⟩ := (hinv i).bwd _ (hy i trivial)
    have : back t y i = x := by simp [back, e1, realOf]
    rw [this]
    exact ⟨hx, e1, e2⟩
  exact ⟨fun i _ => (h i).1, funext fun i => by simp only [forw, (h i).2.2]; rfl, fun i => (h i).2.1⟩

theorem forw_spec (hinv : ∀ i, Inverts (t i) (D i) (R i)) {x : Fin n → ℝ} (hx : x ∈ univ.pi D) : forw t x ∈ univ.pi R ∧ back t (forw t x) = x := by
  have h : ∀ i, forw t x i ∈ R i ∧ (t i).backward (.fin (forw t x i)) = .ok (.fin (x i)) := by
    intro i
    obtain ⟨y, hy, e1, e2⟩ := (hinv i).fwd _ (hx i trivial)
    have : forw t x i = y := by simp [forw, e1, realOf]
    rw [this]
    exact ⟨hy, e2⟩
  exact ⟨fun i _ => (h i).1, funext fun i => by simp only [back, (h i).2]; rfl⟩

theorem back_injOn (hinv : ∀ i, Inverts (t i) (D i) (R i)) : InjOn (back t) (univ.pi R) := fun a ha b hb hab => by
  rw [← (back_spec hinv ha).2.1, ← (back_spec hinv hb).2.1, hab]

/-- The derivative of `back`. -/
noncomputable def diag (d : Fin n → ℝ) : (Fin n → ℝ) →L[ℝ] (Fin n → ℝ) := LinearMap.toContinuousLinearMap (Matrix.toLin' (Matrix.diagonal d))

theorem diag_det (d : Fin n → ℝ) : (diag d).det = ∏ i, d i := by
  rw [diag, LinearMap.det_toContinuousLinearMap, LinearMap.det_toLin', Matrix.det_diagonal]

theorem back_hasFDerivAt {d : Fin n → ℝ} {y : Fin n → ℝ} (h : ∀ i, HasDerivAt (fun y => realOf ((t i).backward (.fin y))) (d i) (y i)) : HasFDerivAt (back t) (diag d) y := by
  rw [hasFDerivAt_pi']
  intro i
  have h1 := (h i).comp_hasFDerivAt y (hasFDerivAt_apply (𝕜 := ℝ) i y)
  refine h1.congr_fderiv ?_
  ext v
  simp [diag, Matrix.toLin'_apply, Matrix.mulVec_diagonal]

/-- All derivatives at once. -/
theorem exists_deriv (hjac : ∀ i, LogJac (t i) (R i)) : ∃ d : (Fin n → ℝ) → Fin n → ℝ, ∀ y ∈ univ.pi R, HasFDerivAt (back t) (diag (d y)) y ∧
    (∀ i, d y i ≠ 0) ∧ ∀ i, (t i).logJacDet (.fin (y i)) = .ok (.fin (Real.log |d y i|)) := by
  choose! d h1 h2 h3 using hjac
  exact ⟨fun y i => d i (y i), fun y hy => ⟨back_hasFDerivAt fun i => h1 i _ (hy i trivial), fun i => h2 i _ (hy i trivial), fun i => h3 i _ (hy i trivial)⟩⟩

/-- Integrals over transformed values. -/
theorem lintegral_back (hinv : ∀ i, Inverts (t i) (D i) (R i)) {d : (Fin n → ℝ) → Fin n → ℝ} (hd : ∀ y ∈ univ.pi R, HasFDerivAt (back t) (diag (d y)) y) {s : Set (Fin n → ℝ)}
    (hs : s ⊆ univ.pi R) (hm : MeasurableSet s) (F : (Fin n → ℝ) → ENNReal) :
    ∫⁻ x in back t '' s, F x = ∫⁻ y in s, ENNReal.ofReal (∏ i, |d y i|) * F (back t y) := by
  rw [lintegral_image_eq_lintegral_abs_det_fderiv_mul volume hm (fun y hy => (hd y (hs hy)).hasFDerivWithinAt) ((back_injOn hinv).mono hs)]
  refine setLIntegral_congr_fun hm fun y hy => ?_
  simp only [diag_det, Finset.abs_prod]

theorem image_measurable (hinv : ∀ i, Inverts (t i) (D i) (R i)) {d : (Fin n → ℝ) → Fin n → ℝ} (hd : ∀ y ∈ univ.pi R, HasFDerivAt (back t) (diag (d y)) y) {s : Set (Fin n → ℝ)}
    (hs : s ⊆ univ.pi R) (hm : MeasurableSet s) : MeasurableSet (back t '' s) :=
  hm.image_of_continuousOn_injOn (fun x hx => (hd x (hs hx)).continuousAt.continuousWithinAt) ((back_injOn hinv).mono hs)

theorem image_all (hinv : ∀ i, Inverts (t i) (D i) (R i)) : back t '' univ.pi R = univ.pi D := by
  ext x
  exact ⟨fun ⟨y, hy, e⟩ => e ▸ (back_spec hinv hy).1, fun hx => ⟨_, (forw_spec hinv hx).1, (forw_spec hinv hx).2⟩⟩

theorem preimage_forw (hinv : ∀ i, Inverts (t i) (D i) (R i)) {s : Set (Fin n → ℝ)} (hs : s ⊆ univ.pi R) : univ.pi D ∩ forw t ⁻¹' s = back t '' s := by
  ext x
  constructor
  · rintro ⟨hx, hxs⟩
    exact ⟨_, hxs, (forw_spec hinv hx).2⟩
  · rintro ⟨y, hy, rfl⟩
    exact ⟨(back_spec hinv (hs hy)).1, by show forw t (back t y) ∈ s; rw [(back_spec hinv (hs hy)).2.1]; exact hy⟩

/-- Law of the transformed vector. -/
theorem map_forw (hinv : ∀ i, Inverts (t i) (D i) (R i)) (hR : ∀ i, MeasurableSet (R i)) {d : (Fin n → ℝ) → Fin n → ℝ} (hd : ∀ y ∈ univ.pi R, HasFDerivAt (back t) (diag (d y)) y)
    {μ : Measure (Fin n → ℝ)} (hnull : μ (univ.pi D)ᶜ = 0) :
    (∀ s ⊆ univ.pi R, MeasurableSet s → μ.map (forw t) s = μ (back t '' s)) ∧ μ.map (forw t) (univ.pi R)ᶜ = 0 := by
  have hRm : MeasurableSet (univ.pi R) := MeasurableSet.univ_pi hR
  have hDm : MeasurableSet (univ.pi D) := image_all hinv ▸ image_measurable hinv hd subset_rfl hRm
  have hD : ∀ᵐ x ∂μ, x ∈ univ.pi D := by rw [ae_iff]; exact hnull
  have hmeas : Measurable ((univ.pi D).indicator (forw t)) := by
    intro s hs
    have : (univ.pi D).indicator (forw t) ⁻¹' s = (back t '' (s ∩ univ.pi R)) ∪ ((univ.pi D)ᶜ ∩ {x | (0 : Fin n → ℝ) ∈ s}) := by
      rw [← preimage_forw hinv inter_subset_right]
      ext x
      by_cases hx : x ∈ univ.pi D
      · have h1 := (forw_spec hinv hx).1
        have h2 := indicator_of_mem hx (forw t)
        simp only [mem_preimage, h2, mem_union, mem_inter_iff, mem_compl_iff, hx, true_and, not_true, false_and, or_false, h1, and_true]
      · have h2 := indicator_of_notMem hx (forw t)
        simp only [mem_preimage, h2, mem_union, mem_inter_iff, mem_compl_iff, hx, false_and, false_or, not_false_iff, true_and, mem_setOf_eq]
    rw [this]
    refine (image_measurable hinv hd inter_subset_right (hs.inter hRm)).union (hDm.compl.inter ?_)
    by_cases h0 : (0 : Fin n → ℝ) ∈ s <;> simp [h0]
  have hae : AEMeasurable (forw t) μ := ⟨_, hmeas, by filter_upwards [hD] with x hx; rw [indicator_of_mem hx]⟩
  refine ⟨fun s hs hm => ?_, ?_⟩
  · rw [Measure.map_apply_of_aemeasurable hae hm, ← preimage_forw hinv hs]
    refine measure_congr ?_
    filter_upwards [hD] with x hx
    exact propext ⟨fun hxs => ⟨hx, hxs⟩, fun hxs => hxs.2⟩
  · rw [Measure.map_apply_of_aemeasurable hae hRm.compl]
    exact measure_mono_null (fun x hx hxD => hx (forw_spec hinv hxD).1) hnull

theorem ofReal_prod_abs (d : Fin n → ℝ) (h : ∀ i, d i ≠ 0) : ENNReal.ofReal (∏ i, |d i|) = ∏ i, (FVal.fin (Real.log |d i|)).toDens := by
  rw [ENNReal.ofReal_prod_of_nonneg fun i _ => abs_nonneg _]
  refine Finset.prod_congr rfl fun i _ => ?_
  rw [FVal.toDens, Real.exp_log (abs_pos.2 (h i))]

/-- **C97** (random numbers) For a vector whose entries have log-probabilities of their own: if the sum of the terms is a joint log-density of the vector on the domain of the transform, then the sum of the
transformed terms is a joint log-density of the transformed vector, on the range of the transform.  The entries may be dependent, and each may have other parameters of the transform.
Missing: random vectors with a single log-probability, where it is false (`C97_vector_iff`). -/
theorem C97_numbers_partial (hinv : ∀ i, Inverts (t i) (D i) (R i)) (hjac : ∀ i, LogJac (t i) (R i)) (hR : ∀ i, MeasurableSet (R i)) {lp : Fin n → FVal → Except Err FVal}
    {μ : Measure (Fin n → ℝ)} (hlp : IsLogDensityVOn (fun x => jointOf (numbersLogprob lp (finVec x))) (univ.pi D) μ) :
    IsLogDensityVOn (fun y => jointOf (transformedVec t (numbersLogprob lp) true (finVec y))) (univ.pi R) (μ.map (forw t)) := by
  obtain ⟨d, hd⟩ := exists_deriv hjac
  obtain ⟨h1, h2⟩ := map_forw hinv hR (fun y hy => (hd y hy).1) hlp.null
  have key : ∀ y ∈ univ.pi R, ∃ l : Fin n → FVal, jointOf (numbersLogprob lp (finVec (back t y))) = .ok (VTens.each l).total ∧
      jointOf (transformedVec t (numbersLogprob lp) true (finVec y)) = .ok (VTens.each fun i => l i + .fin (Real.log |d y i|)).total := by
    intro y hy
    obtain ⟨hb, -, hb'⟩ := back_spec hinv hy
    have e1 : (seqFin fun i => (t i).backward (finVec y i)) = .ok (finVec (back t y)) := seqFin_ok hb'
    have e2 : (seqFin fun i => (t i).logJacDet (finVec y i)) = .ok fun i => .fin (Real.log |d y i|) := seqFin_ok (hd y hy).2.2
    obtain ⟨v, hv, -⟩ := hlp.clean _ hb
    cases e3 : seqFin fun i => lp i (finVec (back t y) i) with
    | error e =>
      simp only [jointOf, numbersLogprob, e3] at hv
      cases hv
    | ok l =>
      refine ⟨l, by simp only [jointOf, numbersLogprob, e3]; rfl, ?_⟩
      simp only [transformedVec, e1, e2, bind, Except.bind, numbersLogprob, e3, Except.map, if_true, pure, Except.pure, VTens.add, jointOf]
  refine ⟨fun y hy => ?_, fun s hs hm => ?_, h2⟩
  · obtain ⟨l, k1, k2⟩ := key y hy
    obtain ⟨v, hv, hn⟩ := hlp.clean _ (back_spec hinv hy).1
    rw [k1] at hv
    cases hv
    exact ⟨_, k2, (sameKind_total fun i => .shift (l i) _).ne_nan hn⟩
  · rw [h1 s hs hm, ← hlp.law _ (image_all hinv ▸ image_mono hs) (image_measurable hinv (fun y hy => (hd y hy).1) hs hm), lintegral_back hinv (fun y hy => (hd y hy).1) hs hm]
    refine setLIntegral_congr_fun hm fun y hy => ?_
    obtain ⟨l, k1, k2⟩ := key y (hs hy)
    simp only [k1, k2, dens, toDens_total, Graph.toDens_add, Finset.prod_mul_distrib]
    rw [ofReal_prod_abs _ (hd y (hs hy)).2.1, mul_comm]

/-- What `joint_logprob` gives for a random vector: its own log-probability counted once for every entry, plus all terms of the Jacobian. -/
theorem C97_vector_value (hinv : ∀ i, Inverts (t i) (D i) (R i)) (hjac : ∀ i, LogJac (t i) (R i)) {lp : (Fin n → FVal) → Except Err FVal} {y : Fin n → ℝ} (hy : y ∈ univ.pi R) {l : FVal}
    (hl : lp (finVec (back t y)) = .ok l) :
    ∃ d : Fin n → ℝ, HasFDerivAt (back t) (diag d) y ∧ (∀ i, d i ≠ 0) ∧
      jointOf (transformedVec t (vectorLogprob lp) true (finVec y)) = .ok (fsum (List.ofFn fun i => l + .fin (Real.log |d i|))) := by
  obtain ⟨d, hd⟩ := exists_deriv hjac
  refine ⟨d y, (hd y hy).1, (hd y hy).2.1, ?_⟩
  have e1 : (seqFin fun i => (t i).backward (finVec y i)) = .ok (finVec (back t y)) := seqFin_ok (back_spec hinv hy).2.2
  have e2 : (seqFin fun i => (t i).logJacDet (finVec y i)) = .ok fun i => .fin (Real.log |d y i|) := seqFin_ok (hd y hy).2.2
  simp only [transformedVec, e1, e2, bind, Except.bind, vectorLogprob, hl, Except.map, if_true, pure, Except.pure, VTens.add, jointOf]
  rfl

/-- Without the Jacobian (`use_jacobian=False`) `joint_logprob` gives the log-probability of the vector at the value on the original scale, counted once. -/
theorem C97_no_jacobian (hinv : ∀ i, Inverts (t i) (D i) (R i)) (lp : (Fin n → FVal) → Except Err FVal) {y : Fin n → ℝ} (hy : y ∈ univ.pi R) :
    ∃ x ∈ univ.pi D, (∀ i, (t i).forward (.fin (x i)) = .ok (.fin (y i))) ∧ jointOf (transformedVec t (vectorLogprob lp) false (finVec y)) = lp (finVec x) := by
  obtain ⟨h1, h2, h3⟩ := back_spec hinv hy
  have e1 : (seqFin fun i => (t i).backward (finVec y i)) = .ok (finVec (back t y)) := seqFin_ok h3
  refine ⟨back t y, h1, fun i => ?_, ?_⟩
  · obtain ⟨b, hb, hb', hf⟩ := (hinv i).2 (y i) (hy i trivial)
    have := h3 i
    rw [hb'] at this
    cases this
    exact hf
  · simp only [transformedVec, e1, bind, Except.bind, vectorLogprob, Bool.false_eq_true, if_false, pure, Except.pure, jointOf]
    cases lp (finVec (back t y)) <;> rfl

theorem sameKind_const {a : FVal} {x : Fin n → FVal} (h : ∀ i, SameKind a (x i)) (ha : a ≠ .nan) : (VTens.each x).total ≠ .nan := by
  have key : ∀ l : List FVal, (∀ b ∈ l, SameKind a b) → SameKind a (fsum l) ∨ fsum l = 0 := by
    intro l
    induction l with
    | nil => exact fun _ => .inr rfl
    | cons b l ih =>
      intro hl
      refine .inl ?_
      have h1 := hl b (by simp)
      show SameKind a (b + fsum l)
      rcases ih fun c hc => hl c (by simp [hc]) with h2 | h2
      · revert h1 h2
        generalize fsum l = c
        cases a <;> cases b <;> cases c <;> intro h1 h2 <;> first | exact h1.elim | exact h2.elim | trivial
      · rw [h2]
        revert h1
        cases a <;> cases b <;> intro h1 <;> first | exact h1.elim | trivial
  rcases key (List.ofFn x) (fun b hb => by obtain ⟨i, rfl⟩ := (List.mem_ofFn' _ _).1 hb; exact h i) with h1 | h1
  · exact h1.ne_nan ha
  · show fsum (List.ofFn x) ≠ _
    rw [h1]
    exact fun hh => by cases hh

/-- When the density enters `k` times instead of once, the result is a log-density of the transformed vector exactly if the density is one wherever the vector can be. -/
theorem power_iff {k : ℕ} (hk : 2 ≤ k) (hinv : ∀ i, Inverts (t i) (D i) (R i)) (hjac : ∀ i, LogJac (t i) (R i)) (hR : ∀ i, MeasurableSet (R i)) {lp code : (Fin n → ℝ) → Except Err FVal}
    {μ : Measure (Fin n → ℝ)} [IsProbabilityMeasure μ] (hm : Measurable fun x : Fin n → ℝ => dens (lp x)) (hlp : IsLogDensityVOn lp (univ.pi D) μ)
    (hgood : ∀ y ∈ univ.pi R, ∃ v, code y = .ok v ∧ v ≠ .nan)
    (hcode' : ∀ d : Fin n → ℝ, ∀ y ∈ univ.pi R, (∀ i, d i ≠ 0) → (∀ i, (t i).logJacDet (.fin (y i)) = .ok (.fin (Real.log |d i|))) →
      dens (code y) = ENNReal.ofReal (∏ i, |d i|) * dens (lp (back t y)) ^ k) :
    IsLogDensityVOn code (univ.pi R) (μ.map (forw t)) ↔ ∀ᵐ x ∂μ, dens (lp x) = 1 := by
  obtain ⟨d, hd⟩ := exists_deriv hjac
  have hd1 : ∀ y ∈ univ.pi R, HasFDerivAt (back t) (diag (d y)) y := fun y hy => (hd y hy).1
  obtain ⟨h1, h2⟩ := map_forw hinv hR hd1 hlp.null
  have hRm : MeasurableSet (univ.pi R) := MeasurableSet.univ_pi hR
  have hDm : MeasurableSet (univ.pi D) := image_all hinv ▸ image_measurable hinv hd1 subset_rfl hRm
  set f : (Fin n → ℝ) → ENNReal := fun x => dens (lp x) with hf
  have hcode : ∀ s ⊆ univ.pi R, MeasurableSet s → ∫⁻ y in s, dens (code y) = ∫⁻ x in back t '' s, f x ^ k := by
    intro s hs hms
    rw [lintegral_back hinv hd1 hs hms]
    exact setLIntegral_congr_fun hms fun y hy => hcode' _ y (hs hy) (hd y (hs hy)).2.1 (hd y (hs hy)).2.2
  have hlaw : ∀ s ⊆ univ.pi R, MeasurableSet s → μ.map (forw t) s = ∫⁻ x in back t '' s, f x := fun s hs hms => by
    rw [h1 s hs hms, ← hlp.law _ (image_all hinv ▸ image_mono hs) (image_measurable hinv hd1 hs hms)]
  have hfin : ∀ᵐ x ∂(volume.restrict (univ.pi D)), f x < ⊤ := by
    refine ae_lt_top hm ?_
    rw [hlp.law _ subset_rfl hDm]
    exact measure_ne_top _ _
  have hac : ∀ u ⊆ univ.pi D, MeasurableSet u → (volume u = 0 → μ u = 0) ∧ (μ u = 0 → volume (u ∩ {x | f x ≠ 0}) = 0) := by
    intro u hu hum
    have e := hlp.law u hu hum
    refine ⟨fun h => ?_, fun h => ?_⟩
    · rw [← e, Measure.restrict_eq_zero.2 h, lintegral_zero_measure]
    · rw [h, lintegral_eq_zero_iff hm] at e
      have e' : ∀ᵐ x ∂(volume.restrict u), f x = 0 := e
      rw [ae_restrict_iff' hum, ae_iff] at e'
      refine measure_mono_null (fun x hx => ?_) e'
      exact fun hh => hx.2 (hh hx.1)
  have hDae : ∀ᵐ x ∂μ, x ∈ univ.pi D := by rw [ae_iff]; exact hlp.null
  constructor
  · intro h
    have hpow : (fun x => f x ^ k) =ᵐ[volume.restrict (univ.pi D)] f := by
      refine ae_eq_of_forall_setLIntegral_eq_of_sigmaFinite (hm.pow_const k) hm fun u hu _ => ?_
      rw [Measure.restrict_restrict hu]
      have hcont : ContinuousOn (back t) (univ.pi R) := fun y hy => (hd1 y hy).continuousAt.continuousWithinAt
      have hsm : MeasurableSet (univ.pi R ∩ back t ⁻¹' (u ∩ univ.pi D)) := by
        classical
        have hmb : Measurable ((univ.pi R).piecewise (back t) fun _ => 0) := hcont.measurable_piecewise continuousOn_const hRm
        have : univ.pi R ∩ back t ⁻¹' (u ∩ univ.pi D) = univ.pi R ∩ (univ.pi R).piecewise (back t) (fun _ => 0) ⁻¹' (u ∩ univ.pi D) := by
          ext y
          refine and_congr_right fun hy => ?_
          simp only [mem_preimage, piecewise_eq_of_mem _ _ _ hy]
        rw [this]
        exact hRm.inter (hmb (hu.inter hDm))
      have himg : back t '' (univ.pi R ∩ back t ⁻¹' (u ∩ univ.pi D)) = u ∩ univ.pi D := by
        ext x
        constructor
        · rintro ⟨y, hy, rfl⟩
          exact hy.2
        · intro hx
          obtain ⟨k1, k2⟩ := forw_spec hinv hx.2
          exact ⟨forw t x, ⟨k1, by rw [mem_preimage, k2]; exact hx⟩, k2⟩
      rw [← himg, ← hcode _ inter_subset_left hsm, ← hlaw _ inter_subset_left hsm]
      exact h.law _ inter_subset_left hsm
    have hA : MeasurableSet (univ.pi D ∩ {x | f x ≠ 1 ∧ f x ≠ 0}) :=
      hDm.inter ((hm (measurableSet_singleton 1)).compl.inter (hm (measurableSet_singleton 0)).compl)
    have hB : MeasurableSet (univ.pi D ∩ {x | f x = 0}) := hDm.inter (hm (measurableSet_singleton 0))
    have hvA : volume (univ.pi D ∩ {x | f x ≠ 1 ∧ f x ≠ 0}) = 0 := by
      rw [Filter.EventuallyEq, ae_restrict_iff' hDm] at hpow
      rw [ae_restrict_iff' hDm] at hfin
      have := hpow.and hfin
      rw [ae_iff] at this
      refine measure_mono_null (fun x hx => ?_) this
      show ¬ _
      intro hh
      obtain ⟨hxD, hx1, hx0⟩ := hx
      have e := hh.1 hxD
      have e' := hh.2 hxD
      obtain ⟨j, rfl⟩ : ∃ j, k = j + 2 := ⟨k - 2, by omega⟩
      have e2 : f x ^ (j + 1) * f x = 1 * f x := by rw [← pow_succ, one_mul]; exact e
      have e3 := (ENNReal.mul_left_inj hx0 e'.ne).1 e2
      exact hx1 ((ENNReal.pow_right_strictMono (Nat.succ_ne_zero j)).injective (e3.trans (one_pow _).symm))
    have hμA := (hac _ inter_subset_left hA).1 hvA
    have hμB : μ (univ.pi D ∩ {x | f x = 0}) = 0 := by
      rw [← hlp.law _ inter_subset_left hB]
      rw [setLIntegral_congr_fun hB (g := fun _ => 0) fun x hx => hx.2]
      simp
    rw [ae_iff]
    refine measure_mono_null (fun x hx => ?_) (measure_union_null (measure_union_null hμA hμB) hlp.null)
    by_cases hxD : x ∈ univ.pi D
    · by_cases h0 : f x = 0
      · exact .inl (.inr ⟨hxD, h0⟩)
      · exact .inl (.inl ⟨hxD, hx, h0⟩)
    · exact .inr hxD
  · intro h
    have hA : MeasurableSet (univ.pi D ∩ {x | f x ≠ 1}) := hDm.inter (hm (measurableSet_singleton 1)).compl
    have hμA : μ (univ.pi D ∩ {x | f x ≠ 1}) = 0 := measure_mono_null inter_subset_right (ae_iff.1 h)
    have hvA := (hac _ inter_subset_left hA).2 hμA
    have hpow : ∀ᵐ x ∂(volume : Measure (Fin n → ℝ)), x ∈ univ.pi D → f x ^ k = f x := by
      rw [ae_iff]
      refine measure_mono_null (fun x hx => ?_) hvA
      simp only [mem_setOf_eq, Classical.not_imp] at hx
      refine ⟨⟨hx.1, fun h1 => hx.2 (by rw [h1, one_pow])⟩, fun h0 => hx.2 (by rw [h0, zero_pow (by omega)])⟩
    refine ⟨fun y hy => ?_, fun s hs hms => ?_, h2⟩
    · exact hgood y hy
    · rw [hcode s hs hms, hlaw s hs hms]
      have hsub : back t '' s ⊆ univ.pi D := image_all hinv ▸ image_mono hs
      refine lintegral_congr_ae ?_
      rw [Filter.EventuallyEq, ae_restrict_iff' (image_measurable hinv hd1 hs hms)]
      filter_upwards [hpow] with x hx hxs
      exact hx (hsub hxs)

/-- **C97** (refuted part) For a random vector with at least two entries, the transformed joint log-probability is a log-density of the transformed vector exactly if the density of the vector is
one wherever the vector can be. -/
theorem C97_vector_iff (hn : 2 ≤ n) (hinv : ∀ i, Inverts (t i) (D i) (R i)) (hjac : ∀ i, LogJac (t i) (R i)) (hR : ∀ i, MeasurableSet (R i)) {lp : (Fin n → FVal) → Except Err FVal}
    {μ : Measure (Fin n → ℝ)} [IsProbabilityMeasure μ] (hm : Measurable fun x : Fin n → ℝ => dens (lp (finVec x))) (hlp : IsLogDensityVOn (fun x => lp (finVec x)) (univ.pi D) μ) :
    IsLogDensityVOn (fun y => jointOf (transformedVec t (vectorLogprob lp) true (finVec y))) (univ.pi R) (μ.map (forw t)) ↔ ∀ᵐ x ∂μ, dens (lp (finVec x)) = 1 := by
  have hval : ∀ y ∈ univ.pi R, ∀ d : Fin n → ℝ, (∀ i, (t i).logJacDet (.fin (y i)) = .ok (.fin (Real.log |d i|))) → ∃ l, lp (finVec (back t y)) = .ok l ∧ l ≠ .nan ∧
      jointOf (transformedVec t (vectorLogprob lp) true (finVec y)) = .ok (VTens.each fun i => l + .fin (Real.log |d i|)).total := by
    intro y hy d hd
    obtain ⟨l, hl, hnan⟩ := hlp.clean _ (back_spec hinv hy).1
    refine ⟨l, hl, hnan, ?_⟩
    have e1 : (seqFin fun i => (t i).backward (finVec y i)) = .ok (finVec (back t y)) := seqFin_ok (back_spec hinv hy).2.2
    have e2 : (seqFin fun i => (t i).logJacDet (finVec y i)) = .ok fun i => .fin (Real.log |d i|) := seqFin_ok hd
    simp only [transformedVec, e1, e2, bind, Except.bind, vectorLogprob, hl, Except.map, if_true, pure, Except.pure, VTens.add, jointOf]
  refine power_iff (lp := fun x => lp (finVec x)) hn hinv hjac hR hm hlp (fun y hy => ?_) fun d y hy hd hj => ?_
  · obtain ⟨d, hd⟩ := exists_deriv hjac
    obtain ⟨l, -, hnan, k2⟩ := hval y hy _ (hd y hy).2.2
    exact ⟨_, k2, sameKind_const (fun i => .shift l _) hnan⟩
  · obtain ⟨l, k1, -, k2⟩ := hval y hy _ hj
    simp only [k2, k1, dens, toDens_total, Graph.toDens_add, Finset.prod_mul_distrib]
    rw [ofReal_prod_abs _ hd, mul_comm, Finset.prod_const, Finset.card_univ, Fintype.card_fin]

/-- **C97** (random vectors of length one) For a random vector with a single entry the transformed log-probability is a log-density.  Missing: longer vectors, where it is false
(`C97_vector_iff`). -/
theorem C97_one_entry_partial {t : Fin 1 → RVTransform} {D R : Fin 1 → Set ℝ} (hinv : ∀ i, Inverts (t i) (D i) (R i)) (hjac : ∀ i, LogJac (t i) (R i)) (hR : ∀ i, MeasurableSet (R i))
    {lp : (Fin 1 → FVal) → Except Err FVal} {μ : Measure (Fin 1 → ℝ)} (hlp : IsLogDensityVOn (fun x => lp (finVec x)) (univ.pi D) μ) :
    IsLogDensityVOn (fun y => jointOf (transformedVec t (vectorLogprob lp) true (finVec y))) (univ.pi R) (μ.map (forw t)) := by
  have e0 : ∀ v : Fin 1 → FVal, (fun _ => v 0) = v := fun v => funext fun i => by rw [Subsingleton.elim i 0]
  have hz : ∀ l : FVal, l + 0 = l := fun l => by cases l <;> simp
  have e2 : ∀ v : Fin 1 → FVal, jointOf (numbersLogprob (fun _ v => lp fun _ => v) v) = lp v := by
    intro v
    simp only [jointOf, numbersLogprob, seqFin, e0]
    cases lp v with
    | error e => rfl
    | ok l =>
      simp only [Except.map, VTens.total, List.ofFn_succ, List.ofFn_zero]
      exact congrArg _ (hz l)
  have e3 : ∀ v : Fin 1 → FVal, jointOf (transformedVec t (vectorLogprob lp) true v) = jointOf (transformedVec t (numbersLogprob fun _ v => lp fun _ => v) true v) := by
    intro v
    simp only [transformedVec, bind, Except.bind]
    cases seqFin fun i => (t i).backward (v i) with
    | error e => rfl
    | ok b =>
      simp only [vectorLogprob, numbersLogprob, seqFin, e0]
      cases lp b with
      | error e => rfl
      | ok l =>
        simp only [Except.map, if_true]
        cases (t 0).logJacDet (v 0) with
        | error e => rfl
        | ok j => rfl
  have := C97_numbers_partial hinv hjac hR (lp := fun _ v => lp fun _ => v) (μ := μ) (by simp only [e2]; exact hlp)
  simpa only [e3] using this

/-- Independent random numbers with log-densities of their own have the product as joint density. -/
theorem numbers_independent {lp : Fin n → FVal → Except Err FVal} {μ : Fin n → Measure ℝ} [∀ i, IsProbabilityMeasure (μ i)] (hlp : ∀ i, IsLogDensity (fun x => lp i (.fin x)) (μ i))
    (hm : ∀ i, Measurable fun x : ℝ => dens (lp i (.fin x))) {D : Fin n → Set ℝ} (hnn : ∀ i x, x ∈ D i → lp i (.fin x) ≠ .ok .pinf) (hD : ∀ i, μ i (D i)ᶜ = 0) :
    IsLogDensityVOn (fun x => jointOf (numbersLogprob lp (finVec x))) (univ.pi D) (Measure.pi μ) := by
  have hμ : ∀ i, μ i = volume.withDensity fun x : ℝ => dens (lp i (.fin x)) := fun i => by
    ext s hs
    rw [withDensity_apply _ hs, (hlp i).law s hs]
  have hval : ∀ x : Fin n → ℝ, ∃ l : Fin n → FVal, (∀ i, lp i (.fin (x i)) = .ok (l i) ∧ l i ≠ .nan) ∧ jointOf (numbersLogprob lp (finVec x)) = .ok (VTens.each l).total := by
    intro x
    choose l h1 h2 using fun i => (hlp i).clean (x i)
    refine ⟨l, fun i => ⟨h1 i, h2 i⟩, ?_⟩
    simp only [jointOf, numbersLogprob, seqFin_ok (f := fun i => lp i (finVec x i)) h1]
    rfl
  refine ⟨fun x hx => ?_, fun s _ hs => ?_, ?_⟩
  · obtain ⟨l, h1, h2⟩ := hval x
    refine ⟨_, h2, ?_⟩
    have key : ∀ L : List FVal, (∀ a ∈ L, a ≠ .nan ∧ a ≠ .pinf) → fsum L ≠ .nan ∧ fsum L ≠ .pinf := by
      intro L
      induction L with
      | nil => exact fun _ => ⟨fun h => (by cases h), fun h => (by cases h)⟩
      | cons a L ih =>
        intro hL
        have h1 := hL a (by simp)
        have h2 := ih fun b hb => hL b (by simp [hb])
        show a + fsum L ≠ .nan ∧ a + fsum L ≠ .pinf
        revert h2
        generalize fsum L = c
        intro h2
        cases a <;> cases c <;> simp_all
    exact (key (List.ofFn l) fun a ha => by
      obtain ⟨i, rfl⟩ := (List.mem_ofFn' _ _).1 ha
      exact ⟨(h1 i).2, fun hh => hnn i _ (hx i trivial) (by rw [(h1 i).1, hh])⟩).1
  · have hsf : ∀ i, SigmaFinite ((volume : Measure ℝ).withDensity fun x : ℝ => dens (lp i (.fin x))) := fun i => by rw [← hμ i]; infer_instance
    have : Measure.pi μ = volume.withDensity fun x : Fin n → ℝ => ∏ i, dens (lp i (.fin (x i))) := by
      rw [← pi_withDensity hm]
      congr 1
      funext i
      exact hμ i
    rw [this, withDensity_apply _ hs]
    refine setLIntegral_congr_fun hs fun x _ => ?_
    obtain ⟨l, h1, h2⟩ := hval x
    simp only [h2, dens, toDens_total]
    exact Finset.prod_congr rfl fun i _ => by rw [(h1 i).1]
  · have : (univ.pi D)ᶜ ⊆ ⋃ i, (fun x : Fin n → ℝ => x i) ⁻¹' (D i)ᶜ := fun x hx => by
      simp only [mem_compl_iff, mem_univ_pi, not_forall] at hx
      obtain ⟨i, hi⟩ := hx
      exact mem_iUnion.2 ⟨i, hi⟩
    refine measure_mono_null this (measure_iUnion_null fun i => ?_)
    exact (measurePreserving_eval μ i).quasiMeasurePreserving.preimage_null (hD i)

end

/-! ## Examples -/

namespace Demo
open ProbabilityTheory

theorem dens_exponential {m : ℝ} (hm : 0 < m) : (fun x : ℝ => dens (exponentialLogprob (.fin x) (.fin m))) = exponentialPDF m⁻¹ := by
  funext x
  rcases le_or_gt 0 x with h | h
  · rw [exponential_eval_nonneg hm h, dens_log (by positivity), exponentialPDF_of_nonneg h]
  · rw [exponential_eval_neg hm h, exponentialPDF_of_neg h]; rfl

/-- Three independent exponential numbers with different means, on the log scale. -/
example : IsLogDensityVOn (fun y => jointOf (transformedVec (fun _ => .log) (numbersLogprob fun i v => exponentialLogprob v (.fin ((i : ℕ) + 1))) true (finVec y))) (univ.pi fun _ : Fin 3 => univ)
    ((Measure.pi fun i : Fin 3 => expMeasure (((i : ℕ) : ℝ) + 1)⁻¹).map (forw fun _ => .log)) := by
  have hpos : ∀ i : Fin 3, (0 : ℝ) < (i : ℕ) + 1 := fun i => by positivity
  have hp : ∀ i : Fin 3, IsProbabilityMeasure (expMeasure (((i : ℕ) : ℝ) + 1)⁻¹) := fun i => isProbabilityMeasure_expMeasure (inv_pos.2 (hpos i))
  refine C97_numbers_partial (D := fun _ => Ioi 0) (fun _ => C49_log) (fun _ => C50_log) (fun _ => MeasurableSet.univ)
    (numbers_independent (fun i => (C13_exponential (hpos i)).1) (fun i => by rw [dens_exponential (hpos i)]; exact measurable_exponentialPDFReal _ |>.ennreal_ofReal) (fun i x hx => ?_) fun i => ?_)
  · have hx' : (0 : ℝ) < x := hx
    rw [exponential_eval_nonneg (hpos i) hx'.le]
    exact fun h => by cases h
  · rw [← (C13_exponential (hpos i)).1.law _ measurableSet_Ioi.compl]
    rw [compl_Ioi, setLIntegral_congr Iio_ae_eq_Iic.symm, dens_exponential (hpos i), setLIntegral_congr_fun measurableSet_Iio (g := fun _ => 0) fun x hx => exponentialPDF_of_neg hx]
    simp

/-- The log-probability of the standard normal vector. -/
noncomputable def mvLp {n : ℕ} (chol : Matrix (Fin n) (Fin n) ℝ → Option (Matrix (Fin n) (Fin n) ℝ)) (v : Fin n → FVal) : Except Err FVal :=
  mvnormalLogprob chol (fun i => realOf (.ok (v i))) 0 1

end Demo

open Demo in
/-- **C97** (refuted part) For standard normal vectors with at least two entries and shifts by any amounts, the transformed joint log-probability is not a log-density of the shifted vector. -/
theorem C97_mvnormal_wrong {n : ℕ} (hn : 2 ≤ n) {chol : Matrix (Fin n) (Fin n) ℝ → Option (Matrix (Fin n) (Fin n) ℝ)} (hchol : CholContract chol) (a : Fin n → ℝ) :
    ¬ IsLogDensityVOn (fun y => jointOf (transformedVec (fun i => .loc (.fin (a i))) (vectorLogprob (mvLp chol)) true (finVec y))) (univ.pi fun _ => univ)
      (((ProbabilityTheory.multivariateGaussian (WithLp.toLp 2 0) 1).map WithLp.ofLp).map (forw fun i => .loc (.fin (a i)))) := by
  have hS : (1 : Matrix (Fin n) (Fin n) ℝ).PosDef := Matrix.PosDef.one
  have e : ∀ x : Fin n → ℝ, mvLp chol (finVec x) = .ok (.fin (-(n / 2) * Real.log (2 * Real.pi) - 1 / 2 * ∑ i, x i * x i)) := by
    intro x
    have e0 : (fun i => realOf (.ok (finVec x i))) = x := rfl
    rw [mvLp, e0, C37_mvnormal_formula hchol hS]
    simp [dotProduct]
  obtain ⟨h1, -⟩ := C37_mvnormal hchol hS 0
  have hp : IsProbabilityMeasure ((ProbabilityTheory.multivariateGaussian (WithLp.toLp 2 (0 : Fin n → ℝ)) 1).map WithLp.ofLp) := Measure.isProbabilityMeasure_map (by fun_prop)
  rw [C97_vector_iff hn (D := fun _ => univ) (fun i => C49_loc (a i)) (fun i => C50_loc (a i)) (fun _ => MeasurableSet.univ) ?_ ?_]
  · intro h
    have hne : ∀ x : Fin n → ℝ, dens (mvLp chol (finVec x)) ≠ 1 := by
      intro x hx
      rw [e, dens, FVal.toDens, ENNReal.ofReal_eq_one, Real.exp_eq_one_iff] at hx
      have h2 : (2 : ℝ) ≤ n := by exact_mod_cast hn
      have h3 : 0 < Real.log (2 * Real.pi) := Real.log_pos (by linarith [Real.two_le_pi])
      have h4 : 0 ≤ ∑ i, x i * x i := Finset.sum_nonneg fun i _ => mul_self_nonneg _
      nlinarith
    have h0 := ae_iff.1 h
    have : {x : Fin n → ℝ | ¬ dens (mvLp chol (finVec x)) = 1} = univ := eq_univ_of_forall hne
    rw [this, measure_univ] at h0
    exact one_ne_zero h0
  · simp only [e, dens, FVal.toDens]
    fun_prop
  · refine ⟨fun x _ => ⟨_, e x, fun hh => by cases hh⟩, fun s _ hs => ?_, by simp⟩
    exact h1.law s hs

example : ∃ chol, ¬ IsLogDensityVOn (fun y => jointOf (transformedVec (fun i => .loc (.fin ((![1, 2] : Fin 2 → ℝ) i))) (vectorLogprob (Demo.mvLp chol)) true (finVec y))) (univ.pi fun _ => univ)
      (((ProbabilityTheory.multivariateGaussian (WithLp.toLp 2 0) 1).map WithLp.ofLp).map (forw fun i => .loc (.fin ((![1, 2] : Fin 2 → ℝ) i)))) := by
  obtain ⟨chol, h⟩ := exists_cholContract (n := 2)
  exact ⟨chol, C97_mvnormal_wrong le_rfl h _⟩

namespace Demo

/-- Log-probability of a vector on the positive quadrant. -/
noncomputable def expLp (v : Fin 2 → FVal) : Except Err FVal := .ok (-(v 0) - v 1)

example := C97_no_jacobian (t := fun _ : Fin 2 => .log) (D := fun _ => Ioi 0) (R := fun _ => univ) (fun _ => C49_log) expLp (y := ![1, 2]) (fun _ _ => trivial)

example := C97_vector_value (t := fun _ : Fin 2 => .log) (D := fun _ => Ioi 0) (R := fun _ => univ) (fun _ => C49_log) (fun _ => C50_log) (lp := expLp) (y := ![1, 2]) (fun _ _ => trivial) rfl

/-- One normal number as a vector, shifted. -/
example : ∃ chol, IsLogDensityVOn (fun y => jointOf (transformedVec (fun _ : Fin 1 => .loc (.fin 3)) (vectorLogprob (mvLp chol)) true (finVec y))) (univ.pi fun _ => univ)
    (((ProbabilityTheory.multivariateGaussian (WithLp.toLp 2 0) 1).map WithLp.ofLp).map (forw fun _ => .loc (.fin 3))) := by
  obtain ⟨chol, h⟩ := exists_cholContract (n := 1)
  obtain ⟨h1, -⟩ := C37_mvnormal h (Matrix.PosDef.one (n := Fin 1) (R := ℝ)) 0
  exact ⟨chol, C97_one_entry_partial (D := fun _ => univ) (fun _ => C49_loc 3) (fun _ => C50_loc 3) (fun _ => MeasurableSet.univ)
    ⟨fun x _ => h1.clean x, fun s _ hs => h1.law s hs, by simp⟩⟩

end Demo

end Verif.TransVec
