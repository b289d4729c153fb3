import Verif.Props.Elemwise
import Verif.Spec.IRDensity
import Verif.Lemmas.FVal
import Verif.Props.Graph
import Mathlib.MeasureTheory.Constructions.Polish.Basic

/-! # Towers of elementwise functions: change of variables for arbitrary integrands -/

namespace Verif
open MeasureTheory Set FVal

/-- Change of variables for an injective continuous function, for integrands that need not be measurable. -/
theorem lintegral_map_injOn {μ : Measure ℝ} {D : Set ℝ} (hD : MeasurableSet D) (hnull : μ Dᶜ = 0) {f : ℝ → ℝ} (hf : AEMeasurable f μ) (hcont : ContinuousOn f D) (hinj : InjOn f D)
    (G : ℝ → ENNReal) : ∫⁻ x, G (f x) ∂μ = ∫⁻ y, G y ∂(μ.map f) := by
  have hemb : MeasurableEmbedding (D.restrict f) := hcont.measurableEmbedding hD hinj
  have hμ : μ.restrict D = μ := Measure.restrict_eq_self_of_ae_mem (by rw [ae_iff]; exact hnull)
  have hmap : (μ.comap ((↑) : D → ℝ)).map (D.restrict f) = μ.map f := by
    ext s hs
    rw [Measure.map_apply hemb.measurable hs, Measure.map_apply_of_aemeasurable hf hs, comap_subtype_coe_apply hD]
    have e : ((↑) : D → ℝ) '' (D.restrict f ⁻¹' s) = f ⁻¹' s ∩ D := by
      ext x
      simp only [mem_image, mem_preimage, restrict_apply, Subtype.exists, exists_and_left, exists_prop, mem_inter_iff]
      constructor
      · rintro ⟨a, h1, h2, rfl⟩; exact ⟨h2, h1⟩
      · rintro ⟨h1, h2⟩; exact ⟨x, h2, h1, rfl⟩
    rw [e, measure_inter_conull hnull]
  rw [← hmap, hemb.lintegral_map]
  conv_lhs => rw [← hμ]
  rw [← lintegral_subtype_comap hD]
  rfl

/-- The layers give the density of an injective function and keep densities measurable. -/
structure Solid (ts : List RVTransform) (f : ℝ → ℝ) (D : Set ℝ) : Prop where
  good : Good ts f D
  inj : InjOn f D
  cont : ContinuousOn f D
  meas : ∀ lp : FVal → Except Err FVal, MeasurableSet (f '' D) → Measurable (D.indicator fun x => dens (lp (.fin x))) →
    Measurable ((f '' D).indicator fun y => dens (layersLogprob ts lp (.fin y)))

theorem Solid.congr {ts : List RVTransform} {f g : ℝ → ℝ} {D : Set ℝ} (h : Solid ts f D) (hfg : ∀ x, f x = g x) : Solid ts g D := by
  have : f = g := funext hfg
  rwa [← this]

theorem Solid.comp {ts us : List RVTransform} {f g : ℝ → ℝ} {D : Set ℝ} (hD : MeasurableSet D) (h1 : Solid ts f D) (h2 : Solid us g (f '' D)) : Solid (ts ++ us) (fun x => g (f x)) D where
  good := h1.good.comp h2.good
  inj := h2.inj.comp h1.inj (mapsTo_image f D)
  cont := h2.cont.comp h1.cont (mapsTo_image f D)
  meas lp hm hlp := by
    have e1 : layersLogprob (ts ++ us) lp = layersLogprob us (layersLogprob ts lp) := by simp [layersLogprob]
    have e2 : (fun x => g (f x)) '' D = g '' (f '' D) := by rw [image_image]
    rw [e2] at hm
    rw [e1, e2]
    exact h2.meas _ hm (h1.meas _ (hD.image_of_continuousOn_injOn h1.cont h1.inj) hlp)

/-- A layer whose inverse and Jacobian term are measurable functions. -/
theorem Solid.layer {t : RVTransform} {D : Set ℝ} {f : ℝ → ℝ} (hgood : Good [t] f D) (hcont : ContinuousOn f D) {b j : ℝ → ℝ} (hb : Measurable b) (hj : Measurable j)
    (h : ∀ x ∈ D, b (f x) = x ∧ t.backward (.fin (f x)) = .ok (.fin x) ∧ t.logJacDet (.fin (f x)) = .ok (.fin (j (f x)))) : Solid [t] f D where
  good := hgood
  inj x hx y hy hxy := by rw [← (h x hx).1, hxy, (h y hy).1]
  cont := hcont
  meas lp hR hm := by
    have e : ((f '' D).indicator fun y => dens (layersLogprob [t] lp (.fin y))) =
        (f '' D).indicator fun y => (D.indicator fun x => dens (lp (.fin x))) (b y) * ENNReal.ofReal (Real.exp (j y)) := by
      funext y
      by_cases hy : y ∈ f '' D
      · rw [indicator_of_mem hy, indicator_of_mem hy]
        obtain ⟨x, hx, rfl⟩ := hy
        obtain ⟨h1, h2, h3⟩ := h x hx
        rw [h1, indicator_of_mem hx]
        simp only [layersLogprob, List.foldl_cons, List.foldl_nil, measurableElemwiseLogprob, h2, h3, bind, Except.bind]
        cases lp (.fin x) with
        | error e => simp [dens]
        | ok v =>
          show (v + .fin _).toDens = _
          rw [Graph.toDens_add]
          rfl
      · rw [indicator_of_notMem hy, indicator_of_notMem hy]
    rw [e]
    exact ((hm.comp hb).mul (ENNReal.measurable_ofReal.comp (Real.measurable_exp.comp hj))).indicator hR

theorem solid_loc (a : ℝ) (D : Set ℝ) : Solid [.loc (.fin a)] (fun x => x + a) D :=
  .layer (good_loc a D) (by fun_prop) (b := fun y => y - a) (j := fun _ => 0) (by fun_prop) (by fun_prop) fun x _ => ⟨by ring, by simp [RVTransform.loc], by simp [RVTransform.loc]⟩

theorem solid_scale {a : ℝ} (ha : a ≠ 0) (D : Set ℝ) : Solid [.scale (.fin a)] (fun x => x * a) D :=
  .layer (good_scale ha D) (by fun_prop) (b := fun y => y / a) (j := fun _ => -Real.log |a|) (by fun_prop) (by fun_prop) fun x _ =>
    ⟨by field_simp, by simp [RVTransform.scale, div_fin _ ha, ha], by simp [RVTransform.scale, log_fin_pos (abs_pos.2 ha)]⟩

theorem solid_reciprocal {D : Set ℝ} (hD : D ⊆ Ioi 0) : Solid [.reciprocal] (fun x => 1 / x) D :=
  .layer (good_reciprocal hD) (continuousOn_const.div continuousOn_id fun x hx => ne_of_gt (hD hx)) (b := fun y => 1 / y) (j := fun y => -2 * Real.log y) (by fun_prop) (by fun_prop)
    fun x hx => by
      have hx0 : (0 : ℝ) < 1 / x := one_div_pos.2 (hD hx)
      refine ⟨by simp, ?_, ?_⟩
      · show Except.ok (FVal.reciprocal (.fin (1 / x))) = _
        rw [reciprocal_fin hx0.ne', one_div_one_div]
      · show Except.ok (-2 * FVal.log (.fin (1 / x))) = _
        rw [log_fin_pos hx0]; rfl

/-- Every admissible node is rewritten, to layers that give the density of the function it computes. -/
theorem node_solid {n : ElemNode} {D : Set ℝ} (hm : MeasurableSet D) (h : n.Ok D) : ∃ ts, rewriteNode n = some ts ∧ Solid ts n.fn D := by
  cases h with
  | @add l _ h hlen =>
    obtain ⟨h1, cs, h2, _, h4, h5⟩ := h.spec
    have hne : cs ≠ [] := by rintro rfl; simp at h4; omega
    refine ⟨[.loc (.fin cs.sum)], ?_, (solid_loc cs.sum D).congr fun x => ((h5 x).1).symm⟩
    simp [rewriteNode, measurableAdd, constructElemwise, h1, h2, foldArgs_add hne]
  | @mul l _ h hlen =>
    obtain ⟨h1, cs, h2, h3, h4, h5⟩ := h.spec
    have hne : cs ≠ [] := by rintro rfl; simp at h4; omega
    have hp : cs.prod ≠ 0 := List.prod_ne_zero fun h0 => h3 0 h0 rfl
    refine ⟨[.scale (.fin cs.prod)], ?_, (solid_scale hp D).congr fun x => ((h5 x).2).symm⟩
    simp [rewriteNode, measurableMul, constructElemwise, h1, h2, foldArgs_mul hne]
  | sub a =>
    refine ⟨[.loc (.fin (-a))], ?_, (solid_loc (-a) D).congr fun x => by simp [ElemNode.fn, Arg.real, sub_eq_add_neg]⟩
    simp [rewriteNode, measurableSub, measurableMul, measurableAdd, constructElemwise, Arg.measCount, Arg.others, liftArg, foldArgs, Arg.value]
  | rsub a =>
    refine ⟨[.scale (.fin (-1))] ++ [.loc (.fin a)], ?_, ((solid_scale (by norm_num : (-1 : ℝ) ≠ 0) D).comp hm (solid_loc a _)).congr fun x => by
      simp [ElemNode.fn, Arg.real]; ring⟩
    simp [rewriteNode, measurableSub, measurableMul, measurableAdd, constructElemwise, Arg.measCount, Arg.others, liftArg, foldArgs]
  | @div a _ ha =>
    have h1 : (1 / a) ≠ 0 := by simpa using ha
    refine ⟨[.scale (.fin (1 / a))], ?_, (solid_scale h1 D).congr fun x => by simp [ElemNode.fn, Arg.real, div_eq_mul_inv]⟩
    simp [rewriteNode, measurableTrueDivide, measurableMul, measurableReciprocal, constructElemwise, Arg.measCount, Arg.others, liftArg, foldArgs,
      Arg.value, reciprocal_fin ha]
  | @rdiv a _ ha hD =>
    refine ⟨[.reciprocal] ++ [.scale (.fin a)], ?_, ((solid_reciprocal hD).comp hm (solid_scale ha _)).congr fun x => by
      simp [ElemNode.fn, Arg.real]; ring⟩
    simp [rewriteNode, measurableTrueDivide, measurableMul, measurableReciprocal, constructElemwise, Arg.measCount, Arg.others, liftArg, foldArgs]
  | exp =>
    refine ⟨[.exp], by simp [rewriteNode, measurableExp, constructElemwise, Arg.measCount], .layer (Good.layer C49_exp C50_exp (subset_univ D)
      (fun x _ => by simp [RVTransform.exp, ElemNode.fn, Arg.real]) Real.continuous_exp.continuousOn) Real.continuous_exp.continuousOn (b := Real.log) (j := fun y => -Real.log y)
      Real.measurable_log Real.measurable_log.neg fun x _ => ?_⟩
    simp [ElemNode.fn, Arg.real, RVTransform.exp, log_fin_pos (Real.exp_pos x)]
  | log hD =>
    have hc : ContinuousOn (ElemNode.log .meas).fn D := Real.continuousOn_log.mono fun x hx => ne_of_gt (hD hx)
    refine ⟨[.log], by simp [rewriteNode, measurableLog, constructElemwise, Arg.measCount], .layer (Good.layer C49_log C50_log hD
      (fun x hx => by simp [RVTransform.log, ElemNode.fn, Arg.real, log_fin_pos (hD hx)]) hc) hc (b := Real.exp) (j := fun y => y) Real.measurable_exp measurable_id fun x hx => ?_⟩
    simp [ElemNode.fn, Arg.real, RVTransform.log, Real.exp_log (hD hx)]
  | reciprocal hD =>
    exact ⟨[.reciprocal], by simp [rewriteNode, measurableReciprocal, constructElemwise, Arg.measCount], solid_reciprocal hD⟩

/-- A whole tower. -/
theorem tower_solid {ns : List ElemNode} {D : Set ℝ} (hok : TowerOk ns D) (hD : MeasurableSet D) :
    ∃ ts, (∀ lp, derivedLogprob ns lp = some (layersLogprob ts lp)) ∧ Solid ts (towerFn ns) D := by
  induction ns generalizing D with
  | nil =>
    refine ⟨[], fun lp => rfl, ⟨?_, fun x _ y _ h => h, continuousOn_id, ?_⟩⟩
    · intro lp μ hD hlp
      have e : (towerFn [] : ℝ → ℝ) = id := rfl
      rw [e, image_id, Measure.map_id]
      exact ⟨hlp, hD, aemeasurable_id, fun h => h⟩
    · intro lp hm hlp
      have e : (towerFn [] : ℝ → ℝ) = id := rfl
      rw [e, image_id]
      exact hlp
  | cons n ns ih =>
    obtain ⟨ts, h1, h2⟩ := node_solid hD hok.1
    obtain ⟨us, h3, h4⟩ := ih hok.2 (hD.image_of_continuousOn_injOn h2.cont h2.inj)
    refine ⟨ts ++ us, fun lp => ?_, Solid.comp (f := n.fn) (g := towerFn ns) hD h2 h4⟩
    simp only [derivedLogprob, h1, Option.bind_some, h3]
    simp [layersLogprob]

/-- Integrals of functions of a tower, as integrals against the derived density. -/
theorem tower_lintegral {ts : List RVTransform} {f : ℝ → ℝ} {D : Set ℝ} (hs : Solid ts f D) (hD : MeasurableSet D) {lp : FVal → Except Err FVal} {μ : Measure ℝ} [IsFiniteMeasure μ]
    (hm : Measurable (D.indicator fun x => dens (lp (.fin x)))) (hlp : IsLogDensityOn (fun x => lp (.fin x)) D μ) :
    (∀ G : ℝ → ENNReal, ∫⁻ x, G (f x) ∂μ = ∫⁻ y in f '' D, dens (layersLogprob ts lp (.fin y)) * G y) ∧
      ∀ᵐ y ∂(volume.restrict (f '' D)), dens (layersLogprob ts lp (.fin y)) < ⊤ := by
  obtain ⟨h1, h2, h3, -⟩ := hs.good lp μ hD hlp
  have hmeas := hs.meas lp h2 hm
  have hν : μ.map f = volume.withDensity ((f '' D).indicator fun y => dens (layersLogprob ts lp (.fin y))) := by
    ext s hs'
    rw [withDensity_apply _ hs', setLIntegral_indicator h2, h1.law _ inter_subset_left (h2.inter hs'), inter_comm, measure_inter_conull h1.null]
  have hfin : ∀ᵐ y, (f '' D).indicator (fun y => dens (layersLogprob ts lp (.fin y))) y < ⊤ := by
    refine ae_lt_top hmeas ?_
    have : (μ.map f) univ ≠ ⊤ := measure_ne_top _ _
    rwa [hν, withDensity_apply _ MeasurableSet.univ, Measure.restrict_univ] at this
  constructor
  · intro G
    rw [lintegral_map_injOn hD hlp.null h3 hs.cont hs.inj, hν, lintegral_withDensity_eq_lintegral_mul_non_measurable _ hmeas hfin, ← lintegral_indicator h2]
    refine lintegral_congr fun y => ?_
    by_cases hy : y ∈ f '' D
    · simp [hy]
    · simp [hy]
  · rw [ae_restrict_iff' h2]
    filter_upwards [hfin] with y hy hyD
    rwa [indicator_of_mem hyD] at hy

end Verif
