import Verif.Props.ArrDerived
import Verif.Props.Cumsum

/-! # C108: derived array variables with dependent entries -/

namespace Verif.ArrGraph
open Verif Cond MeasureTheory Set

variable {Di : Type}

theorem shape_coord {s c : List ℕ} (hc : InRange c s) : ∃ k : Fin (entries s), coord k = c := by
  obtain ⟨i, hi, rfl⟩ := List.mem_iff_getElem.1 (mem_allCoords.2 hc)
  exact ⟨⟨i, hi⟩, rfl⟩

theorem arrayJoint_same {x y : Arr FVal} (h : Arr.Same x y) : arrayJoint (.ok x) = arrayJoint (.ok y) := by
  simp only [arrayJoint, ← h.1]
  congr 2
  exact List.map_congr_left fun c hc => h.2 c (mem_allCoords.1 hc)

/-- **C108** (joint density) If the exponential of the sum of the log-probability array is the density of a law, it is in a model. -/
theorem JointDensity.goodAt {s : List ℕ} {kernel : Arr FVal → List (Arr FVal) → Except Err (Arr FVal)} {p : List (Arr FVal)} {D : List ℕ → Set ℝ} {law : Measure (Fin (entries s) → ℝ)}
    (h : JointDensity s (fun x => kernel x p) D law) : GoodAt (numbers s) kernel law (Measure.pi fun _ => volume) p :=
  ⟨h.prob, h.meas, h.dens⟩

/-- Independent entries. -/
theorem EntryDensity.joint {s : List ℕ} {lp : Arr FVal → Except Err (Arr FVal)} {D : List ℕ → Set ℝ} {law : List ℕ → Measure ℝ} (h : EntryDensity s lp D law) :
    JointDensity s lp D (Measure.pi fun k : Fin (entries s) => law (coord k)) := by
  have hgood := C108_independent (kernel := fun x _ => lp x) (p := []) h
  obtain ⟨g, hg, h⟩ := h
  have hd : ∀ x : Arr FVal, x.shape = s → dens (arrayJoint (lp x)) = ∏ k : Fin (entries s), (g (coord k) (x.get (coord k))).toDens := fun x hx => by
    obtain ⟨out, h1, h2, h3⟩ := hg x hx
    rw [h1, dens_arrayJoint_ok h2]
    exact Finset.prod_congr rfl fun k _ => by rw [h3 _ (coord_inRange k)]
  classical
  choose! C hC h0 using fun c hc => (h c hc).2.2.2.1
  refine ⟨hgood.prob, fun x y hx hxy => ?_, fun c hc => (h c hc).2.1, ⟨fun c => if InRange c s then C c else ∅, fun c => ?_, fun x hx ⟨c, hc, hcD⟩ => ?_⟩, ?_, hgood.dens⟩
  · obtain ⟨out, h1, h2, h3⟩ := hg x hx
    obtain ⟨out', h1', h2', h3'⟩ := hg y (hxy.1 ▸ hx)
    refine ⟨out, out', h1, h1', h2, h2.trans h2'.symm, fun c hc => ?_⟩
    rw [h2] at hc
    rw [h3 c hc, h3' c hc, hxy.2 c (hx ▸ hc)]
  · show (if InRange c s then C c else ∅ : Set ℝ).Countable
    split_ifs with hc
    · exact hC c hc
    · exact countable_empty
  · obtain ⟨k, rfl⟩ := shape_coord hc
    rw [hd x hx]
    simp only [if_pos hc] at hcD
    exact Finset.prod_eq_zero (Finset.mem_univ k) (h0 _ hc _ hcD)
  · have e : (fun x => dens (arrayJoint (lp (numbers s x)))) = fun x : Fin (entries s) → ℝ => ∏ k, (g (coord k) (.fin (x k))).toDens := by
      funext x
      rw [hd _ rfl]
      exact Finset.prod_congr rfl fun k _ => by rw [numbers_get]
    rw [e]
    exact (Finset.measurable_prod _ fun k _ => (h _ (coord_inRange k)).2.2.2.2.1.comp (measurable_pi_apply k)).aemeasurable

/-! ## Elementwise functions -/

/-- One entry of a layer: inverse, Jacobian, and what happens to Lebesgue measure. -/
theorem layer_entry {t : ArrTransform} {c : List ℕ} {D : Set ℝ} (h : t.OkAt c D) (hD : MeasurableSet D) :
    ∃ b j : ℝ → ℝ, Measurable b ∧ Measurable j ∧ (∀ x ∈ D, b (t.fn c x) = x ∧ (t.at' c).backward (.fin (t.fn c x)) = .ok (.fin x) ∧
      (t.at' c).logJacDet (.fin (t.fn c x)) = .ok (.fin (j (t.fn c x)))) ∧ Measurable (t.fn c) ∧ MeasurableSet (t.fn c '' D) ∧
      (volume.restrict D).map (t.fn c) = volume.withDensity ((t.fn c '' D).indicator fun y => ENNReal.ofReal (Real.exp (j y))) := by
  suffices H : ∃ b j : ℝ → ℝ, Measurable b ∧ Measurable j ∧ ∀ x ∈ D, b (t.fn c x) = x ∧ (t.at' c).backward (.fin (t.fn c x)) = .ok (.fin x) ∧
      (t.at' c).logJacDet (.fin (t.fn c x)) = .ok (.fin (j (t.fn c x))) by
    obtain ⟨b, j, hb, hj, hx⟩ := H
    obtain ⟨hgood, hm⟩ := fn_good h
    have hon : IsLogDensityOn (fun _ => .ok (.fin 0)) D (volume.restrict D) :=
      ⟨fun y _ => ⟨_, rfl, by simp⟩, fun S hS hSm => by
        simp only [dens, FVal.toDens, Real.exp_zero, ENNReal.ofReal_one, lintegral_const, MeasurableSet.univ, Measure.restrict_apply, univ_inter, one_mul]
        rw [Measure.restrict_apply hSm, inter_eq_left.2 hS], by simp [Measure.restrict_apply hD.compl]⟩
    obtain ⟨h1, h2, -, -⟩ := hgood (fun _ => .ok (.fin 0)) _ hD hon
    refine ⟨b, j, hb, hj, hx, hm, h2, ?_⟩
    have e : (fun y => layersLogprob [t.at' c] (fun _ => .ok (.fin 0)) (.fin y)) = fun y : ℝ => .ok (layerEntry c t (fun _ => .fin 0) (.fin y)) := by
      have := layerEntry_eq c t fun _ => .fin 0
      funext y
      exact congrFun this (.fin y)
    rw [e] at h1
    rw [h1.eq_withDensity h2]
    congr 1
    funext y
    by_cases hy : y ∈ t.fn c '' D
    · rw [indicator_of_mem hy, indicator_of_mem hy]
      obtain ⟨x, hxD, rfl⟩ := hy
      obtain ⟨-, e2, e3⟩ := hx x hxD
      simp only [layerEntry, measurableElemwiseLogprob, e2, e3, bind, Except.bind, pure, Except.pure, FVal.add_fin, zero_add, FVal.toDens]
    · rw [indicator_of_notMem hy, indicator_of_notMem hy]
  cases t with
  | loc a =>
    obtain ⟨r, hr⟩ := h
    refine ⟨fun y => y - r, fun _ => 0, by fun_prop, by fun_prop, fun x hx => ?_⟩
    simp only [ArrTransform.fn, hr, ArrTransform.at', RVTransform.loc]
    exact ⟨by ring, by rw [FVal.sub_fin]; congr 2; ring, rfl⟩
  | scale a =>
    obtain ⟨r, hr0, hr⟩ := h
    refine ⟨fun y => y / r, fun _ => -Real.log |r|, by fun_prop, by fun_prop, fun x hx => ?_⟩
    simp only [ArrTransform.fn, hr, ArrTransform.at', RVTransform.scale]
    refine ⟨by field_simp, by rw [FVal.div_fin _ hr0]; congr 2; field_simp, ?_⟩
    rw [FVal.abs_fin, FVal.log_fin_pos (abs_pos.2 hr0), FVal.neg_fin]
  | exp =>
    refine ⟨Real.log, fun y => -Real.log y, Real.measurable_log, Real.measurable_log.neg, fun x hx => ?_⟩
    simp only [ArrTransform.fn, ArrTransform.at', RVTransform.exp, FVal.log_fin_pos (Real.exp_pos x), Real.log_exp, FVal.neg_fin, and_self]
  | log =>
    refine ⟨Real.exp, fun y => y, Real.measurable_exp, measurable_id, fun x hx => ?_⟩
    simp only [ArrTransform.fn, ArrTransform.at', RVTransform.log]
    have hx0 : Real.exp (Real.log x) = x := Real.exp_log (h hx)
    exact ⟨hx0, by simp only [FVal.exp, hx0], trivial⟩
  | reciprocal =>
    refine ⟨fun y => 1 / y, fun y => -2 * Real.log y, by fun_prop, by fun_prop, fun x hx => ?_⟩
    have hx0 : (0 : ℝ) < 1 / x := one_div_pos.2 (h hx)
    simp only [ArrTransform.fn, ArrTransform.at', RVTransform.reciprocal, FVal.reciprocal_fin hx0.ne', FVal.log_fin_pos hx0]
    refine ⟨by simp, by simp, ?_⟩
    rfl

/-- A layer on arrays: the log-probability below at the value transformed back, plus one Jacobian term for each entry. -/
theorem dens_layer {s : List ℕ} {lp : Arr FVal → Except Err (Arr FVal)} (hout : ∀ x : Arr FVal, x.shape = s → ∃ out, lp x = .ok out ∧ out.shape = s) {t : ArrTransform} (hfit : t.Fits s) {v : Arr FVal}
    (hv : v.shape = s) : ∃ b, b.shape = s ∧ (∀ c, InRange c s → (t.at' c).backward (v.get c) = .ok (b.get c)) ∧ (∃ out, arrayElemwiseLogprob t lp v = .ok out ∧ out.shape = s) ∧
      dens (arrayJoint (arrayElemwiseLogprob t lp v)) = dens (arrayJoint (lp b)) * ∏ k : Fin (entries s), ((t.logJacDet v).entry (coord k)).toDens := by
  obtain ⟨b, b1, b2, b3⟩ := backward_entry hfit hv
  obtain ⟨l, l1, l2⟩ := hout b b2
  obtain ⟨j1, j2⟩ := jac_fits hfit hv
  obtain ⟨out, o1, o2, o3⟩ := op2_fits (· + ·) l2 j1
  have he : arrayElemwiseLogprob t lp v = .ok out := by
    simp only [arrayElemwiseLogprob, b1, l1, bind, Except.bind]
    exact o1
  refine ⟨b, b2, b3, ⟨out, he, o2⟩, ?_⟩
  rw [he, l1, dens_arrayJoint_ok o2, dens_arrayJoint_ok l2, ← Finset.prod_mul_distrib]
  refine Finset.prod_congr rfl fun k _ => ?_
  rw [o3 _ (coord_inRange k), Graph.toDens_add]

theorem same_map {x y : Arr FVal} (h : Arr.Same x y) (f : FVal → FVal) : Arr.Same (x.map f) (y.map f) := ⟨h.1, fun c hc => congrArg f (h.2 c hc)⟩

theorem layer_same {s : List ℕ} {lp : Arr FVal → Except Err (Arr FVal)} (hout : ∀ x y : Arr FVal, x.shape = s → Arr.Same x y → ∃ a b, lp x = .ok a ∧ lp y = .ok b ∧ a.shape = s ∧ Arr.Same a b)
    {t : ArrTransform} (hfit : t.Fits s) {x y : Arr FVal} (hx : x.shape = s) (hxy : Arr.Same x y) :
    ∃ a b, arrayElemwiseLogprob t lp x = .ok a ∧ arrayElemwiseLogprob t lp y = .ok b ∧ a.shape = s ∧ Arr.Same a b := by
  have hy : y.shape = s := hxy.1 ▸ hx
  obtain ⟨b, b1, b2, b3⟩ := backward_entry hfit hx
  obtain ⟨b', b1', b2', b3'⟩ := backward_entry hfit hy
  have hbb : Arr.Same b b' := ⟨b2.trans b2'.symm, fun c hc => by
    rw [b2] at hc
    have e := b3 c hc
    rw [hxy.2 c (hx ▸ hc), b3' c hc] at e
    injection e with e
    exact e.symm⟩
  obtain ⟨l, l', l1, l1', l2, l3⟩ := hout b b' b2 hbb
  obtain ⟨j1, j2⟩ := jac_fits hfit hx
  obtain ⟨j1', j2'⟩ := jac_fits hfit hy
  obtain ⟨out, o1, o2, o3⟩ := op2_fits (· + ·) l2 j1
  obtain ⟨out', o1', o2', o3'⟩ := op2_fits (· + ·) (l3.1 ▸ l2) j1'
  refine ⟨out, out', ?_, ?_, o2, o2.trans o2'.symm, fun c hc => ?_⟩
  · simp only [arrayElemwiseLogprob, b1, l1, bind, Except.bind]
    exact o1
  · simp only [arrayElemwiseLogprob, b1', l1', bind, Except.bind]
    exact o1'
  · rw [o2] at hc
    rw [o3 c hc, o3' c hc, l3.2 c (l2 ▸ hc)]
    congr 1
    have e := j2 c hc
    rw [hxy.2 c (hx ▸ hc), j2' c hc] at e
    injection e with e
    exact e.symm

theorem jointDensity_layer {s : List ℕ} {lp : Arr FVal → Except Err (Arr FVal)} {D : List ℕ → Set ℝ} {law : Measure (Fin (entries s) → ℝ)} (h : JointDensity s lp D law) {t : ArrTransform} (hfit : t.Fits s)
    (hok : ∀ c, InRange c s → t.OkAt c (D c)) : JointDensity s (arrayElemwiseLogprob t lp) (fun c => t.fn c '' D c) (law.map fun x k => t.fn (coord k) (x k)) := by
  have hout : ∀ x : Arr FVal, x.shape = s → ∃ out, lp x = .ok out ∧ out.shape = s := fun x hx => by
    obtain ⟨a, b, h1, -, h2, -⟩ := h.out x x hx ⟨rfl, fun _ _ => rfl⟩
    exact ⟨a, h1, h2⟩
  choose b j hb hj hx hm hR hmap using fun k : Fin (entries s) => layer_entry (hok _ (coord_inRange k)) (h.dom _ (coord_inRange k))
  set F : (Fin (entries s) → ℝ) → Fin (entries s) → ℝ := fun x k => t.fn (coord k) (x k) with hF
  set B : (Fin (entries s) → ℝ) → Fin (entries s) → ℝ := fun y k => b k (y k) with hB
  set f : (Fin (entries s) → ℝ) → ENNReal := fun x => dens (arrayJoint (lp (numbers s x))) with hf
  set J : Fin (entries s) → ℝ → ENNReal := fun k => (t.fn (coord k) '' D (coord k)).indicator fun y => ENNReal.ofReal (Real.exp (j k y)) with hJ
  set PD : Set (Fin (entries s) → ℝ) := Set.univ.pi fun k => D (coord k) with hP
  have hFm : Measurable F := measurable_pi_lambda _ fun k => (hm k).comp (measurable_pi_apply k)
  have hBm : Measurable B := measurable_pi_lambda _ fun k => (hb k).comp (measurable_pi_apply k)
  have hJm : ∀ k, Measurable (J k) := fun k => (ENNReal.measurable_ofReal.comp (Real.measurable_exp.comp (hj k))).indicator (hR k)
  have hPm : MeasurableSet PD := MeasurableSet.univ_pi fun k => h.dom _ (coord_inRange k)
  have hBF : ∀ x ∈ PD, B (F x) = x := fun x hxD => funext fun k => (hx k _ (hxD k trivial)).1
  -- zero off the image
  obtain ⟨C, hC, h0⟩ := h.zero
  have hzero : ∀ v : Arr FVal, v.shape = s → (∃ c, InRange c s ∧ ∀ r ∈ t.fn c '' D c ∪ t.fn c '' C c, v.get c ≠ .fin r) → dens (arrayJoint (arrayElemwiseLogprob t lp v)) = 0 := by
    rintro v hv ⟨c, hc, hcv⟩
    obtain ⟨bv, e1, e2, -, e3⟩ := dens_layer hout hfit hv
    rw [e3]
    rcases backward_out (hok c hc) (by rw [image_union]; exact hcv) (e2 c hc) ((jac_fits hfit hv).2 c hc) with h1 | h1
    · rw [h0 bv e1 ⟨c, hc, h1⟩, zero_mul]
    · obtain ⟨k, rfl⟩ := shape_coord hc
      rw [Finset.prod_eq_zero (Finset.mem_univ k) h1, mul_zero]
  have hCae : ∀ᵐ v ∂(volume : Measure (Fin (entries s) → ℝ)), ∀ k, v k ∉ t.fn (coord k) '' C (coord k) :=
    ae_all_iff.2 fun k => (Measure.quasiMeasurePreserving_eval (fun _ => volume) k).ae (((hC (coord k)).image _).ae_notMem volume)
  have hCae' : ∀ᵐ v ∂(volume : Measure (Fin (entries s) → ℝ)), ∀ k, v k ∉ C (coord k) :=
    ae_all_iff.2 fun k => (Measure.quasiMeasurePreserving_eval (fun _ : Fin (entries s) => (volume : Measure ℝ)) k).ae (p := fun y => y ∉ C (coord k)) ((hC (coord k)).ae_notMem volume)
  -- the density
  have hdens : ∀ v : Fin (entries s) → ℝ, (∀ k, v k ∉ t.fn (coord k) '' C (coord k)) → dens (arrayJoint (arrayElemwiseLogprob t lp (numbers s v))) = (∏ k, J k (v k)) * f (B v) := by
    intro v hvC
    by_cases hv : ∀ k, v k ∈ t.fn (coord k) '' D (coord k)
    · choose x hxD hxv using hv
      have hvF : v = F x := funext fun k => (hxv k).symm
      obtain ⟨bv, e1, e2, -, e3⟩ := dens_layer hout hfit (v := numbers s v) rfl
      have hbv : Arr.Same bv (numbers s x) := ⟨e1, fun c hc => by
        rw [e1] at hc
        obtain ⟨k, rfl⟩ := shape_coord hc
        have := e2 _ hc
        rw [numbers_get, ← hxv k, (hx k _ (hxD k)).2.1] at this
        injection this with this
        rw [← this, numbers_get]⟩
      obtain ⟨a, a', a1, a2, -, a3⟩ := h.out _ _ e1 hbv
      rw [e3, mul_comm, a1, arrayJoint_same a3, ← a2]
      congr 1
      · refine Finset.prod_congr rfl fun k _ => ?_
        have e4 := (jac_fits hfit (value := numbers s v) rfl).2 _ (coord_inRange k)
        rw [numbers_get, ← hxv k, (hx k _ (hxD k)).2.2] at e4
        injection e4 with e4
        rw [← e4, hJ]
        simp only
        rw [indicator_of_mem (hxv k ▸ mem_image_of_mem _ (hxD k)), ← hxv k]
        rfl
      · rw [hvF, hBF x fun k _ => hxD k]
    · push Not at hv
      obtain ⟨k, hk⟩ := hv
      rw [hzero _ rfl ⟨coord k, coord_inRange k, fun r hr he => hk ?_⟩, Finset.prod_eq_zero (Finset.mem_univ k) (by rw [hJ]; exact indicator_of_notMem hk _), zero_mul]
      rw [numbers_get] at he
      injection he with he
      subst he
      exact hr.elim id fun hr => absurd hr (hvC k)
  -- the measure
  have hlawD : law = (volume.restrict PD).withDensity f := by
    rw [h.dens, ← withDensity_indicator hPm]
    refine withDensity_congr_ae ?_
    filter_upwards [hCae'] with x hxC
    by_cases hxD : x ∈ PD
    · rw [indicator_of_mem hxD]
    · rw [indicator_of_notMem hxD]
      simp only [hP, Set.mem_pi, not_forall] at hxD
      obtain ⟨k, -, hk⟩ := hxD
      refine h0 _ rfl ⟨coord k, coord_inRange k, fun r hr he => hk ?_⟩
      rw [numbers_get] at he
      injection he with he
      subst he
      exact hr.elim id fun hr => absurd hr (hxC k)
  have hsf : ∀ k, SigmaFinite ((volume : Measure ℝ).withDensity (J k)) := fun k => by
    have e : J k = fun y => ENNReal.ofReal ((t.fn (coord k) '' D (coord k)).indicator (fun y => Real.exp (j k y)) y) := by
      funext y
      by_cases hy : y ∈ t.fn (coord k) '' D (coord k)
      · rw [hJ]; simp only [indicator_of_mem hy]
      · rw [hJ]; simp only [indicator_of_notMem hy, ENNReal.ofReal_zero]
    rw [e]
    exact SigmaFinite.withDensity_ofReal _
  have hpush : (volume.restrict PD).map F = volume.withDensity fun v => ∏ k, J k (v k) := by
    have e1 : (volume : Measure (Fin (entries s) → ℝ)).restrict PD = Measure.pi fun k => volume.restrict (D (coord k)) := Measure.restrict_pi_pi _ _
    have hsf' : ∀ k, SigmaFinite ((volume.restrict (D (coord k))).map (t.fn (coord k))) := fun k => by rw [hmap k]; exact hsf k
    rw [e1, hF, Measure.pi_map_pi fun k => (hm k).aemeasurable]
    simp only [hmap]
    exact pi_withDensity_of _ hJm
  have hprob := h.prob
  have hPJ : Measurable fun v : Fin (entries s) → ℝ => ∏ k, J k (v k) := Finset.measurable_prod _ fun k _ => (hJm k).comp (measurable_pi_apply k)
  -- a measurable version
  obtain ⟨f', hf'm, hff'⟩ : ∃ f', Measurable f' ∧ f =ᵐ[volume] f' := h.meas
  have hfB' : ∀ᵐ v ∂(volume : Measure (Fin (entries s) → ℝ)), (∏ k, J k (v k)) ≠ 0 → f (B v) = f' (B v) := by
    rw [← ae_withDensity_iff hPJ, ← hpush]
    set N := toMeasurable volume {x | f x ≠ f' x} with hN
    have hN0 : volume N = 0 := by rw [hN, measure_toMeasurable]; exact hff'
    have h1 : ∀ᵐ v ∂((volume.restrict PD).map F), B v ∉ N := by
      have hNm : MeasurableSet {v | B v ∉ N} := hBm (measurableSet_toMeasurable _ _).compl
      rw [ae_map_iff hFm.aemeasurable hNm]
      filter_upwards [ae_restrict_mem hPm, ae_restrict_of_ae (measure_eq_zero_iff_ae_notMem.1 hN0)] with x hxP hxN
      rw [hBF x hxP]
      exact hxN
    filter_upwards [h1] with v hv
    by_contra hcon
    exact hv (subset_toMeasurable _ _ hcon)
  have hae : (fun v => dens (arrayJoint (arrayElemwiseLogprob t lp (numbers s v)))) =ᵐ[volume] fun v => (∏ k, J k (v k)) * f' (B v) := by
    filter_upwards [hCae, hfB'] with v h1 h2
    rw [hdens v h1]
    by_cases h3 : (∏ k, J k (v k)) = 0
    · rw [h3, zero_mul, zero_mul]
    · rw [h2 h3]
  refine ⟨Measure.isProbabilityMeasure_map hFm.aemeasurable, fun x y hx hxy => layer_same h.out hfit hx hxy, fun c hc => ?_, ⟨fun c => t.fn c '' C c, fun c => (hC c).image _, hzero⟩, ?_, ?_⟩
  · obtain ⟨k, rfl⟩ := shape_coord hc
    exact hR k
  · exact (hPJ.mul (hf'm.comp hBm)).aemeasurable.congr hae.symm
  · have hfB : Measurable fun v => f' (B v) := hf'm.comp hBm
    have e := withDensity_mul volume hPJ hfB
    rw [withDensity_congr_ae hae]
    change _ = volume.withDensity ((fun v : Fin (entries s) → ℝ => ∏ k, J k (v k)) * fun v => f' (B v))
    rw [e, ← hpush, hlawD, withDensity_congr_ae (ae_restrict_of_ae hff')]
    ext S hS
    rw [Measure.map_apply hFm hS, withDensity_apply _ (hFm hS), withDensity_apply _ hS, setLIntegral_map hS hfB hFm]
    refine setLIntegral_congr_fun_ae (hFm hS) ?_
    filter_upwards [ae_restrict_mem hPm] with x hxD _
    rw [hBF x hxD]

/-! ## Cumulative sums -/

theorem reals_get {s : List ℕ} (x : Fin (entries s) → ℝ) (k : Fin (entries s)) : (reals s x).get (coord k) = x k := by
  simp only [reals]
  have h := idxOf_coord k
  rw [dif_pos (by rw [h]; exact k.2)]
  congr 1
  exact Fin.ext h

theorem numbers_reals {s : List ℕ} (x : Fin (entries s) → ℝ) {c : List ℕ} (hc : InRange c s) : (numbers s x).get c = .fin ((reals s x).get c) := by
  obtain ⟨k, rfl⟩ := shape_coord hc
  rw [numbers_get, reals_get]

/-- First differences along axis `a`. -/
noncomputable def diffOf (s : List ℕ) (a : ℕ) (x : Fin (entries s) → ℝ) (k : Fin (entries s)) : ℝ :=
  if (coord k).getD a 0 = 0 then x k else x k - (reals s x).get ((coord k).set a ((coord k).getD a 0 - 1))

/-- Positions and coordinates. -/
noncomputable def ixEquiv (s : List ℕ) : Ix s ≃ Fin (entries s) where
  toFun c := ⟨(allCoords s).idxOf c.1, List.idxOf_lt_length_iff.2 (mem_allCoords.2 c.2)⟩
  invFun k := ⟨coord k, coord_inRange k⟩
  left_inv c := Subtype.ext (List.getElem_idxOf (List.idxOf_lt_length_iff.2 (mem_allCoords.2 c.2)))
  right_inv k := Fin.ext (idxOf_coord k)

theorem diffOf_volume (s : List ℕ) {a : ℕ} (ha : a < s.length) : MeasurePreserving (diffOf s a) := by
  set φ := MeasurableEquiv.arrowCongr' (ixEquiv s) (MeasurableEquiv.refl ℝ) with hφ
  have h1 : MeasurePreserving φ := volume_preserving_arrowCongr' _ _ (MeasurePreserving.id volume)
  have h2 := h1.comp ((diffMap_volume s ha).comp h1.symm)
  have e : diffOf s a = φ ∘ diffMap s a ∘ φ.symm := by
    funext x k
    show diffOf s a x k = diffMap s a (fun c => x (ixEquiv s c)) ((ixEquiv s).symm k)
    have e1 : ∀ c : Ix s, x (ixEquiv s c) = (reals s x).get c.1 := fun c => by
      have := reals_get x (ixEquiv s c)
      rw [← this]
      congr 1
      exact congrArg Subtype.val ((ixEquiv s).left_inv c)
    have e2 : x k = (reals s x).get (coord k) := (reals_get x k).symm
    simp only [diffOf, diffMap, e1, e2]
    show _ = if _ : (coord k).getD a 0 = 0 then _ else _
    split_ifs
    · rfl
    · rw [e1 ⟨_, _⟩]
      rfl
  rw [e]
  exact h2

theorem diff_same {α : Type} [Sub α] {s : List ℕ} {a : ℕ} (ha : a < s.length) (hs : s.getD a 0 ≠ 0) {v : Arr α} (hv : v.shape = s) :
    ∃ d, cumsumValueDiff a v = .ok d ∧ d.shape = s ∧ ∀ c, InRange c s → d.get c = if c.getD a 0 = 0 then v.get c else v.get c - v.get (c.set a (c.getD a 0 - 1)) := by
  have h0 : v.size a ≠ 0 := by rw [Arr.size, hv]; exact hs
  obtain ⟨d, hd⟩ : ∃ d, cumsumValueDiff a v = .ok d := by simp [cumsumValueDiff, h0]
  obtain ⟨h1, h2⟩ := cumsumValueDiff_get (v := v) (by rw [Arr.ndim, hv]; exact ha) hd
  exact ⟨d, hd, h1.trans hv, fun c hc => h2 c (by rw [hc.length, Arr.ndim, hv])⟩

theorem diff_reals {s : List ℕ} {a : ℕ} (ha : a < s.length) (hs : s.getD a 0 ≠ 0) (x : Fin (entries s) → ℝ) : ∃ d, cumsumValueDiff a (reals s x) = .ok d ∧ Arr.Same d (reals s (diffOf s a x)) := by
  obtain ⟨d, h1, h2, h3⟩ := diff_same ha hs (v := reals s x) rfl
  refine ⟨d, h1, h2, fun c hc => ?_⟩
  rw [h2] at hc
  obtain ⟨k, rfl⟩ := shape_coord hc
  rw [h3 _ hc, reals_get, reals_get]
  rfl

theorem reals_ext {s : List ℕ} {x y : Fin (entries s) → ℝ} (h : Arr.Same (reals s x) (reals s y)) : x = y := by
  funext k
  have := h.2 _ (coord_inRange k)
  rwa [reals_get, reals_get] at this

theorem reals_cumsumOf {s : List ℕ} {a : ℕ} (x : Fin (entries s) → ℝ) : Arr.Same (Arr.cumsum a (reals s x)) (reals s (cumsumOf s a x)) := by
  refine ⟨rfl, fun c hc => ?_⟩
  obtain ⟨k, rfl⟩ := shape_coord (s := s) hc
  rw [reals_get]
  rfl

theorem same_trans {α : Type} {x y z : Arr α} (h : Arr.Same x y) (h' : Arr.Same y z) : Arr.Same x z := ⟨h.1.trans h'.1, fun c hc => (h.2 c hc).trans (h'.2 c (h.1 ▸ hc))⟩

theorem same_symm {α : Type} {x y : Arr α} (h : Arr.Same x y) : Arr.Same y x := ⟨h.1.symm, fun c hc => (h.2 c (h.1.symm ▸ hc)).symm⟩

theorem cumsumOf_diffOf {s : List ℕ} {a : ℕ} (ha : a < s.length) (hs : s.getD a 0 ≠ 0) (x : Fin (entries s) → ℝ) : cumsumOf s a (diffOf s a x) = x := by
  obtain ⟨⟨d, hd, hsm⟩, -⟩ := (C66_differences_invert_cumsum a (reals s x) ha).2 hs
  obtain ⟨d', hd', hsm'⟩ := diff_reals ha hs x
  rw [hd] at hd'
  cases hd'
  have := cumsum_same (s := s) ha hsm'.1 hsm'
  exact reals_ext (same_trans (same_symm (reals_cumsumOf _)) (same_trans (same_symm this) hsm))

theorem diffOf_cumsumOf {s : List ℕ} {a : ℕ} (ha : a < s.length) (hs : s.getD a 0 ≠ 0) (x : Fin (entries s) → ℝ) : diffOf s a (cumsumOf s a x) = x := by
  obtain ⟨-, d, hd, hsm⟩ := (C66_differences_invert_cumsum a (reals s x) ha).2 hs
  obtain ⟨e, he, hsm'⟩ := diff_reals ha hs (cumsumOf s a x)
  obtain ⟨e1, e2, e3, e4⟩ := diff_same ha hs (v := Arr.cumsum a (reals s x)) rfl
  obtain ⟨e1', e2', e3', e4'⟩ := diff_same ha hs (v := reals s (cumsumOf s a x)) rfl
  rw [hd] at e2
  cases e2
  rw [he] at e2'
  cases e2'
  have hse : Arr.Same d e := ⟨e3.trans e3'.symm, fun c hc => by
    rw [e3] at hc
    have hsame := reals_cumsumOf (a := a) x
    rw [e4 c hc, e4' c hc, hsame.2 c hc]
    split_ifs with h0
    · rfl
    · rw [hsame.2 _ (prev_inRange hc h0)]⟩
  exact reals_ext (same_trans (same_symm hsm') (same_trans (same_symm hse) hsm))

theorem sub_fin_iff {x y : FVal} {r : ℝ} (h : x - y = .fin r) : ∃ q : ℝ, x = .fin q := by
  cases x with
  | fin q => exact ⟨q, rfl⟩
  | nan => cases h
  | pinf => cases y <;> cases h
  | ninf => cases y <;> cases h

theorem jointDensity_cumsum {s : List ℕ} {axis : ℤ} {a : ℕ} (hax : normAxis axis s.length = .ok a) (hs : s.getD a 0 ≠ 0) {lp : Arr FVal → Except Err (Arr FVal)}
    {law : Measure (Fin (entries s) → ℝ)} (h : JointDensity s lp (fun _ => univ) law) : JointDensity s (cumsumLogprob axis lp) (fun _ => univ) (law.map (cumsumOf s a)) := by
  have ha : a < s.length := by
    by_contra h
    rw [List.getD_eq_getElem?_getD, List.getElem?_eq_none (by omega)] at hs
    exact hs rfl
  have hlp : ∀ v : Arr FVal, v.shape = s → ∃ d, cumsumLogprob axis lp v = lp d ∧ d.shape = s ∧
      ∀ c, InRange c s → d.get c = if c.getD a 0 = 0 then v.get c else v.get c - v.get (c.set a (c.getD a 0 - 1)) := fun v hv => by
    obtain ⟨d, h1, h2, h3⟩ := diff_same ha hs hv
    have hax' : normAxis axis v.ndim = .ok a := by rw [Arr.ndim, hv]; exact hax
    exact ⟨d, by simp only [cumsumLogprob, hax', h1], h2, h3⟩
  have hval : ∀ v : Fin (entries s) → ℝ, dens (arrayJoint (cumsumLogprob axis lp (numbers s v))) = dens (arrayJoint (lp (numbers s (diffOf s a v)))) := fun v => by
    obtain ⟨d, h1, h2, h3⟩ := hlp (numbers s v) rfl
    have hsame : Arr.Same d (numbers s (diffOf s a v)) := ⟨h2, fun c hc => by
      rw [h2] at hc
      obtain ⟨k, rfl⟩ := shape_coord hc
      rw [h3 _ hc, numbers_get, numbers_get, diffOf]
      split_ifs with h0
      · rfl
      · rw [numbers_reals v (prev_inRange hc h0), FVal.sub_fin]⟩
    obtain ⟨x, y, e1, e2, -, e3⟩ := h.out _ _ h2 hsame
    rw [h1, e1, e2, arrayJoint_same e3]
  have hmp := diffOf_volume s ha
  have hCm : Measurable (cumsumOf s a) := by
    refine measurable_pi_lambda _ fun k => ?_
    show Measurable fun x => ∑ i ∈ Finset.range ((coord k).getD a 0 + 1), (reals s x).get ((coord k).set a i)
    refine Finset.measurable_sum _ fun i hi => ?_
    have hin : InRange ((coord k).set a i) s := (coord_inRange k).set (by
      have := (coord_inRange k).getD_lt ha
      have := Finset.mem_range.1 hi
      omega)
    obtain ⟨k', hk'⟩ := shape_coord hin
    simp only [← hk', reals_get]
    exact measurable_pi_apply k'
  have hemb : MeasurableEmbedding (diffOf s a) :=
    (⟨⟨diffOf s a, cumsumOf s a, cumsumOf_diffOf ha hs, diffOf_cumsumOf ha hs⟩, hmp.measurable, hCm⟩ : (Fin (entries s) → ℝ) ≃ᵐ (Fin (entries s) → ℝ)).measurableEmbedding
  have hprob := h.prob
  refine ⟨Measure.isProbabilityMeasure_map hCm.aemeasurable, fun x y hx hxy => ?_, fun c _ => MeasurableSet.univ, ⟨fun _ => ∅, fun _ => countable_empty, fun x hx ⟨c, hc, hcx⟩ => ?_⟩, ?_, ?_⟩
  · obtain ⟨d, d1, d2, d3⟩ := hlp x hx
    obtain ⟨e, e1, e2, e3⟩ := hlp y (hxy.1 ▸ hx)
    have hsame : Arr.Same d e := ⟨d2.trans e2.symm, fun c hc => by
      rw [d2] at hc
      rw [d3 c hc, e3 c hc, hxy.2 c (hx ▸ hc)]
      split_ifs with h0
      · rfl
      · rw [hxy.2 _ (hx ▸ prev_inRange hc h0)]⟩
    rw [d1, e1]
    exact h.out d e d2 hsame
  · obtain ⟨d, d1, d2, d3⟩ := hlp x hx
    rw [d1]
    obtain ⟨C, -, h0⟩ := h.zero
    refine h0 d d2 ⟨c, hc, fun r _ hr => ?_⟩
    rw [d3 c hc] at hr
    split_ifs at hr
    · exact hcx r (.inl trivial) hr
    · obtain ⟨q, hq⟩ := sub_fin_iff hr
      exact hcx q (.inl trivial) hq
  · simp_rw [hval]
    exact h.meas.comp_quasiMeasurePreserving hmp.quasiMeasurePreserving
  · simp_rw [hval]
    ext S hS
    rw [Measure.map_apply hCm hS, h.dens, withDensity_apply _ (hCm hS), withDensity_apply _ hS, ← hmp.setLIntegral_comp_preimage_emb hemb]
    congr 2
    ext v
    simp only [mem_preimage, cumsumOf_diffOf ha hs]

section
variable (kernel cdf : Di → Arr FVal → List (Arr FVal) → Except Err (Arr FVal)) (elem : Di → FVal → List FVal → Except Err FVal) (empty : List ℕ → FVal)

/-- **C108** (elementwise functions, dependent entries) If the exponential of the sum of the log-probability array of a variable of any shape is its joint density, the same is true of its image under an elementwise function
that is invertible on the entries and whose parameter fits into the shape.  As the conclusion is of the same form as the hypothesis, towers of any height follow, also on top of cumulative sums. -/
theorem C108_layer_joint {s : List ℕ} {e : Derived Di} {op : LayerOp} {p q : List (Arr FVal)} {t : ArrTransform} (ht : LayerIs op p t q) {D : List ℕ → Set ℝ}
    {law : Measure (Fin (entries s) → ℝ)} (h : JointDensity s (fun x => derivedKernel kernel cdf elem empty e x q) D law) (hfit : t.Fits s) (hok : ∀ c, InRange c s → t.OkAt c (D c)) :
    JointDensity s (fun x => derivedKernel kernel cdf elem empty (.layer op e) x p) (fun c => t.fn c '' D c) (law.map fun x k => t.fn (coord k) (x k)) := by
  have e1 : (fun x => derivedKernel kernel cdf elem empty (.layer op e) x p) = arrayElemwiseLogprob t fun x => derivedKernel kernel cdf elem empty e x q := by
    funext x
    simp only [derivedKernel, layerTransform_eq ht]
  rw [e1]
  exact jointDensity_layer h hfit hok

/-- **C108** (cumulative sums) The same for the cumulative sums of a variable along an axis of positive length, counted from either end. -/
theorem C108_cumsum {s : List ℕ} {axis : ℤ} {a : ℕ} (hax : AxisIs axis s.length a) (hs : s.getD a 0 ≠ 0) {e : Derived Di} {p : List (Arr FVal)} {law : Measure (Fin (entries s) → ℝ)}
    (h : JointDensity s (fun x => derivedKernel kernel cdf elem empty e x p) (fun _ => univ) law) :
    JointDensity s (fun x => derivedKernel kernel cdf elem empty (.cumsum axis e) x p) (fun _ => univ) (law.map (cumsumOf s a)) := by
  replace hax := normAxis_iff.2 hax
  have e1 : (fun x => derivedKernel kernel cdf elem empty (.cumsum axis e) x p) = cumsumLogprob axis fun x => derivedKernel kernel cdf elem empty e x p := by
    funext x
    simp only [derivedKernel]
  rw [e1]
  exact jointDensity_cumsum hax hs h

end

end Verif.ArrGraph
