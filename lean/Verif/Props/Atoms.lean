import Verif.Spec.Atoms
import Verif.Lemmas.Tower
import Verif.Props.Censoring
import Mathlib.MeasureTheory.Function.Floor

/-! # C98: elementwise functions of variables with atoms -/

namespace Verif
open MeasureTheory ENNReal Set FVal

/-- At the image of each point of `D`, the layers add minus the logarithm of the absolute derivative. -/
def AtOk (ts : List RVTransform) (f : ℝ → ℝ) (D : Set ℝ) : Prop :=
  ∀ x ∈ D, ∃ d : ℝ, HasDerivAt f d x ∧ d ≠ 0 ∧ ∀ (lp : FVal → Except Err FVal) (v : FVal), lp (.fin x) = .ok v →
    layersLogprob ts lp (.fin (f x)) = .ok (v + .fin (-Real.log |d|))

theorem AtOk.congr {ts : List RVTransform} {f g : ℝ → ℝ} {D : Set ℝ} (h : AtOk ts f D) (hfg : ∀ x, f x = g x) : AtOk ts g D := by
  have : f = g := funext hfg
  rwa [← this]

theorem AtOk.comp {ts us : List RVTransform} {f g : ℝ → ℝ} {D : Set ℝ} (h1 : AtOk ts f D) (h2 : AtOk us g (f '' D)) :
    AtOk (ts ++ us) (fun x => g (f x)) D := by
  intro x hx
  obtain ⟨d, a1, a2, a3⟩ := h1 x hx
  obtain ⟨e, b1, b2, b3⟩ := h2 (f x) ⟨x, hx, rfl⟩
  refine ⟨e * d, b1.comp x a1, mul_ne_zero b2 a2, fun lp v hv => ?_⟩
  have e1 : layersLogprob (ts ++ us) lp = layersLogprob us (layersLogprob ts lp) := by simp [layersLogprob]
  rw [e1, b3 _ _ (a3 lp v hv), abs_mul, Real.log_mul (abs_ne_zero.2 b2) (abs_ne_zero.2 a2)]
  cases v <;> simp
  ring

theorem AtOk.layer {t : RVTransform} {D : Set ℝ} {f : ℝ → ℝ} (h : ∀ x ∈ D, ∃ d, HasDerivAt f d x ∧ d ≠ 0 ∧
    t.backward (.fin (f x)) = .ok (.fin x) ∧ t.logJacDet (.fin (f x)) = .ok (.fin (-Real.log |d|))) : AtOk [t] f D := by
  intro x hx
  obtain ⟨d, h1, h2, h3, h4⟩ := h x hx
  refine ⟨d, h1, h2, fun lp v hv => ?_⟩
  simp only [layersLogprob, List.foldl_cons, List.foldl_nil, measurableElemwiseLogprob, h3, h4, hv, bind, Except.bind]
  rfl

theorem at_loc (a : ℝ) (D : Set ℝ) : AtOk [.loc (.fin a)] (fun x => x + a) D :=
  .layer fun x _ => ⟨1, by simpa using (hasDerivAt_id' x).add_const a, one_ne_zero, by simp [RVTransform.loc], by simp [RVTransform.loc]⟩

theorem at_scale {a : ℝ} (ha : a ≠ 0) (D : Set ℝ) : AtOk [.scale (.fin a)] (fun x => x * a) D :=
  .layer fun x _ => ⟨a, by simpa using (hasDerivAt_id' x).mul_const a, ha, by simp [RVTransform.scale, div_fin _ ha, ha],
    by simp [RVTransform.scale, log_fin_pos (abs_pos.2 ha)]⟩

theorem at_reciprocal {D : Set ℝ} (hD : D ⊆ Ioi 0) : AtOk [.reciprocal] (fun x => 1 / x) D :=
  .layer fun x hx => by
    have hx0 : (0 : ℝ) < x := hD hx
    have hi : (0 : ℝ) < 1 / x := one_div_pos.2 hx0
    refine ⟨-(x ^ 2)⁻¹, by simpa using hasDerivAt_inv hx0.ne', neg_ne_zero.2 (by positivity), ?_, ?_⟩
    · show Except.ok (FVal.reciprocal (.fin (1 / x))) = _
      rw [reciprocal_fin hi.ne', one_div_one_div]
    · show Except.ok (-2 * FVal.log (.fin (1 / x))) = _
      rw [log_fin_pos hi]
      show Except.ok (FVal.fin (-2 * Real.log (1 / x))) = _
      have : -2 * Real.log (1 / x) = -Real.log |-(x ^ 2)⁻¹| := by
        rw [abs_neg, abs_inv, abs_pow, Real.log_inv, Real.log_pow, Real.log_abs, one_div, Real.log_inv]; push_cast; ring
      rw [this]

theorem node_at {n : ElemNode} {D : Set ℝ} (h : n.Ok D) : ∃ ts, rewriteNode n = some ts ∧ AtOk ts n.fn D := by
  cases h with
  | @add l _ h hlen =>
    obtain ⟨h1, cs, h2, _, h4, h5⟩ := h.spec
    have hne : cs ≠ [] := by rintro rfl; simp at h4; omega
    refine ⟨[.loc (.fin cs.sum)], ?_, (at_loc cs.sum D).congr fun x => ((h5 x).1).symm⟩
    simp [rewriteNode, measurableAdd, constructElemwise, h1, h2, foldArgs_add hne]
  | @mul l _ h hlen =>
    obtain ⟨h1, cs, h2, h3, h4, h5⟩ := h.spec
    have hne : cs ≠ [] := by rintro rfl; simp at h4; omega
    have hp : cs.prod ≠ 0 := List.prod_ne_zero fun h0 => h3 0 h0 rfl
    refine ⟨[.scale (.fin cs.prod)], ?_, (at_scale hp D).congr fun x => ((h5 x).2).symm⟩
    simp [rewriteNode, measurableMul, constructElemwise, h1, h2, foldArgs_mul hne]
  | sub a =>
    refine ⟨[.loc (.fin (-a))], ?_, (at_loc (-a) D).congr fun x => by simp [ElemNode.fn, Arg.real, sub_eq_add_neg]⟩
    simp [rewriteNode, measurableSub, measurableMul, measurableAdd, constructElemwise, Arg.measCount, Arg.others, liftArg, foldArgs, Arg.value]
  | rsub a =>
    refine ⟨[.scale (.fin (-1))] ++ [.loc (.fin a)], ?_, ((at_scale (by norm_num : (-1 : ℝ) ≠ 0) D).comp (at_loc a _)).congr fun x => by
      simp [ElemNode.fn, Arg.real]; ring⟩
    simp [rewriteNode, measurableSub, measurableMul, measurableAdd, constructElemwise, Arg.measCount, Arg.others, liftArg, foldArgs]
  | @div a _ ha =>
    have h1 : (1 / a) ≠ 0 := by simpa using ha
    refine ⟨[.scale (.fin (1 / a))], ?_, (at_scale h1 D).congr fun x => by simp [ElemNode.fn, Arg.real, div_eq_mul_inv]⟩
    simp [rewriteNode, measurableTrueDivide, measurableMul, measurableReciprocal, constructElemwise, Arg.measCount, Arg.others, liftArg, foldArgs,
      Arg.value, reciprocal_fin ha]
  | @rdiv a _ ha hD =>
    refine ⟨[.reciprocal] ++ [.scale (.fin a)], ?_, ((at_reciprocal hD).comp (at_scale ha _)).congr fun x => by
      simp [ElemNode.fn, Arg.real]; ring⟩
    simp [rewriteNode, measurableTrueDivide, measurableMul, measurableReciprocal, constructElemwise, Arg.measCount, Arg.others, liftArg, foldArgs]
  | exp =>
    refine ⟨[.exp], by simp [rewriteNode, measurableExp, constructElemwise, Arg.measCount], .layer fun x _ => ⟨Real.exp x, ?_, (Real.exp_pos x).ne', ?_, ?_⟩⟩
    · exact Real.hasDerivAt_exp x
    · simp [ElemNode.fn, Arg.real, RVTransform.exp, log_fin_pos (Real.exp_pos x)]
    · simp [ElemNode.fn, Arg.real, RVTransform.exp, log_fin_pos (Real.exp_pos x)]
  | log hD =>
    refine ⟨[.log], by simp [rewriteNode, measurableLog, constructElemwise, Arg.measCount], .layer fun x hx => ⟨x⁻¹, ?_, (inv_pos.2 (hD hx)).ne', ?_, ?_⟩⟩
    · exact Real.hasDerivAt_log (ne_of_gt (hD hx))
    · simp [ElemNode.fn, Arg.real, RVTransform.log, Real.exp_log (hD hx)]
    · simp [ElemNode.fn, Arg.real, RVTransform.log, Real.log_inv]
  | reciprocal hD =>
    exact ⟨[.reciprocal], by simp [rewriteNode, measurableReciprocal, constructElemwise, Arg.measCount], at_reciprocal hD⟩

theorem tower_at {ns : List ElemNode} {D : Set ℝ} (hok : TowerOk ns D) :
    ∃ ts, (∀ lp, derivedLogprob ns lp = some (layersLogprob ts lp)) ∧ AtOk ts (towerFn ns) D := by
  induction ns generalizing D with
  | nil =>
    refine ⟨[], fun lp => rfl, fun x _ => ⟨1, hasDerivAt_id' x, one_ne_zero, fun lp v hv => ?_⟩⟩
    show lp (.fin x) = _
    rw [hv]
    cases v <;> simp
  | cons n ns ih =>
    obtain ⟨ts, h1, h2⟩ := node_at hok.1
    obtain ⟨us, h3, h4⟩ := ih hok.2
    refine ⟨ts ++ us, fun lp => ?_, AtOk.comp (f := n.fn) (g := towerFn ns) h2 h4⟩
    simp only [derivedLogprob, h1, Option.bind_some, h3]
    simp [layersLogprob]

/-- **C98**: whatever kind of variable the base is, the derived log-probability of a tower at `f x` is the log-probability of the base at
`x` minus the logarithm of the absolute derivative of the tower at `x`. -/
theorem C98_value {ns : List ElemNode} {D : Set ℝ} (hok : TowerOk ns D) (lp : FVal → Except Err FVal) :
    ∃ lp', derivedLogprob ns lp = some lp' ∧ ∀ x ∈ D, ∃ d, HasDerivAt (towerFn ns) d x ∧ d ≠ 0 ∧
      ∀ v, lp (.fin x) = .ok v → lp' (.fin (towerFn ns x)) = .ok (v + .fin (-Real.log |d|)) := by
  obtain ⟨ts, h1, h2⟩ := tower_at hok
  refine ⟨_, h1 lp, fun x hx => ?_⟩
  obtain ⟨d, a1, a2, a3⟩ := h2 x hx
  exact ⟨d, a1, a2, a3 lp⟩

/-- `exp(2 X)` of a floored normal variable. -/
example := C98_value (ns := [.mul [.other (.fin 2), .meas], .exp .meas]) (D := univ)
  ⟨.mul (.there (by norm_num) (.here (l := []) (by simp))) (by simp), .exp _, trivial⟩ (roundLogprob .floor fun v => normalLogcdf v (.fin 0) (.fin 1))

theorem lintegral_atomsOn (S s : Set ℝ) (hS : S.Countable) (hs : MeasurableSet s) (g : ℝ → ℝ≥0∞) : ∫⁻ x in s, g x ∂(atomsOn S) = ∑' a : ↥(s ∩ S), g a := by
  rw [atomsOn, Measure.restrict_restrict hs, lintegral_countable _ (hS.mono inter_subset_right)]
  simp

theorem lintegral_mixedRef_singleton {S : Set ℝ} (hS : S.Countable) {c : Bool} {a : ℝ} (ha : a ∈ S) (g : ℝ → ℝ≥0∞) :
    ∫⁻ x in {a}, g x ∂(mixedRef c S) = g a := by
  have e1 : ∫⁻ y in {a}, g y ∂(if c then volume else 0 : Measure ℝ) = 0 := by cases c <;> simp
  rw [mixedRef, Measure.restrict_add, lintegral_add_measure, e1, zero_add, lintegral_atomsOn _ _ hS (measurableSet_singleton a),
    inter_eq_left.2 (singleton_subset_iff.2 ha), tsum_singleton]

/-- The densities at the image points. -/
theorem dens_shift {v : FVal} {d : ℝ} (hd : d ≠ 0) : (v + .fin (-Real.log |d|)).toDens = v.toDens * ENNReal.ofReal (1 / |d|) := by
  rw [Graph.toDens_add]
  congr 1
  show ENNReal.ofReal (Real.exp (-Real.log |d|)) = _
  rw [Real.exp_neg, Real.exp_log (abs_pos.2 hd), one_div]

/-- **C98**: a tower of elementwise functions `f` over a base variable whose law has atoms at the points of `S` (and possibly a continuous
part).  The derived log-probability is the log-density of `f X`, with respect to atoms at `f '' S` (and Lebesgue measure), exactly if
`f` has slope `1` or `-1` at every atom. -/
theorem C98_iff {ns : List ElemNode} {D S : Set ℝ} (hok : TowerOk ns D) (hD : MeasurableSet D) (hS : S.Countable) (hSD : S ⊆ D) {c : Bool}
    {lp : FVal → Except Err FVal} {μ : Measure ℝ} [IsFiniteMeasure μ] (hlp : IsLogDensityWrt (mixedRef c S) (fun x => lp (.fin x)) D μ) :
    ∃ lp', derivedLogprob ns lp = some lp' ∧
      (IsLogDensityWrt (mixedRef c (towerFn ns '' S)) (fun y => lp' (.fin y)) (towerFn ns '' D) (μ.map (towerFn ns)) ↔
        ∀ a ∈ S, μ {a} ≠ 0 → |deriv (towerFn ns) a| = 1) := by
  obtain ⟨ts, h1, hat⟩ := tower_at hok
  obtain ⟨us, h1', hsol⟩ := tower_solid hok hD
  have hsame : ∀ lp, layersLogprob us lp = layersLogprob ts lp := fun lp => Option.some.inj ((h1' lp).symm.trans (h1 lp))
  set f := towerFn ns with hf
  have hμD : μ.restrict D = μ := Measure.restrict_eq_self_of_ae_mem (by rw [ae_iff]; exact hlp.null)
  have hfm : AEMeasurable f μ := by
    have := hsol.cont.aemeasurable (μ := μ) hD
    rwa [hμD] at this
  have hval : ∀ x ∈ D, Clean (layersLogprob ts lp (.fin (f x))) ∧
      dens (layersLogprob ts lp (.fin (f x))) = dens (lp (.fin x)) * ENNReal.ofReal (1 / |deriv f x|) ∧ deriv f x ≠ 0 := by
    intro x hx
    obtain ⟨d, a1, a2, a3⟩ := hat x hx
    obtain ⟨v, hv, hvn⟩ := hlp.clean x hx
    rw [a1.deriv, a3 lp v hv, hv]
    refine ⟨⟨_, rfl, ?_⟩, dens_shift a2, a2⟩
    cases v <;> simp_all
  have hpre : ∀ s, MeasurableSet s → (μ.map f) s = μ (D ∩ f ⁻¹' s) := by
    intro s hs
    rw [Measure.map_apply_of_aemeasurable hfm hs, inter_comm, measure_inter_conull hlp.null]
  have hmt : ∀ s, MeasurableSet s → MeasurableSet (D ∩ f ⁻¹' s) := by
    intro s hs
    have hm : Measurable (D.restrict f) := hsol.cont.restrict.measurable
    have := (MeasurableEmbedding.subtype_coe hD).measurableSet_image.2 (hm hs)
    convert this using 1
    ext x
    simp only [mem_inter_iff, mem_preimage, mem_image, Subtype.exists, exists_and_left, exists_prop, restrict_apply]
    exact ⟨fun ⟨h1, h2⟩ => ⟨x, h1, h2, rfl⟩, by rintro ⟨y, h1, h2, rfl⟩; exact ⟨h1, h2⟩⟩
  have hatom : ∀ a ∈ S, dens (lp (.fin a)) = μ {a} := by
    intro a ha
    have := hlp.law {a} (singleton_subset_iff.2 (hSD ha)) (measurableSet_singleton a)
    rw [← this, lintegral_mixedRef_singleton hS ha]
  refine ⟨_, h1 lp, ?_, ?_⟩
  · intro h a ha hne
    have haD := hSD ha
    obtain ⟨-, h3, h4⟩ := hval a haD
    have hm : (μ.map f) {f a} = μ {a} := by
      rw [hpre _ (measurableSet_singleton _)]
      congr 1
      ext x
      constructor
      · rintro ⟨hx, hfx⟩
        exact hsol.inj hx haD hfx
      · rintro rfl; exact ⟨haD, rfl⟩
    have hl := h.law {f a} (singleton_subset_iff.2 ⟨a, haD, rfl⟩) (measurableSet_singleton _)
    rw [hm, lintegral_mixedRef_singleton (hS.image f) (mem_image_of_mem f ha), h3, hatom a ha] at hl
    have hl' : μ {a} * ENNReal.ofReal (1 / |deriv f a|) = μ {a} * 1 := by rw [hl, mul_one]
    have h5 := (ENNReal.mul_right_inj hne (measure_ne_top μ _)).1 hl'
    rw [ENNReal.ofReal_eq_one] at h5
    have := abs_pos.2 h4
    field_simp at h5
    exact h5.symm
  · intro h
    refine ⟨?_, ?_, ?_⟩
    · rintro _ ⟨x, hx, rfl⟩
      exact (hval x hx).1
    · intro s hs hms
      set t := D ∩ f ⁻¹' s with ht
      have hmt' : MeasurableSet t := hmt s hms
      rw [hpre s hms, ← hlp.law t inter_subset_left hmt', mixedRef, mixedRef, Measure.restrict_add, Measure.restrict_add, lintegral_add_measure, lintegral_add_measure]
      congr 1
      · cases c
        · simp
        · have hc : IsLogDensityOn (fun x => lp (.fin x)) D ((volume.restrict D).withDensity fun x => dens (lp (.fin x))) := by
            refine ⟨hlp.clean, fun s hs hms => ?_, ?_⟩
            · rw [withDensity_apply _ hms, Measure.restrict_restrict hms, inter_eq_left.2 hs]
            · rw [withDensity_apply _ hD.compl, Measure.restrict_restrict hD.compl]
              simp
          obtain ⟨g1, -, g3, -⟩ := hsol.good lp _ hD hc
          have := g1.law s hs hms
          rw [hsame] at this
          simp only [if_true]
          rw [this, Measure.map_apply_of_aemeasurable g3 hms, ← measure_inter_conull hc.null, inter_comm, withDensity_apply _ hmt', Measure.restrict_restrict hmt',
            inter_eq_left.2 inter_subset_left]
      · rw [lintegral_atomsOn _ _ (hS.image f) hms, lintegral_atomsOn _ _ hS hmt']
        have hset : s ∩ f '' S = f '' (t ∩ S) := by
          ext y
          constructor
          · rintro ⟨hy, x, hx, rfl⟩
            exact ⟨x, ⟨⟨hSD hx, hy⟩, hx⟩, rfl⟩
          · rintro ⟨x, ⟨⟨_, h2⟩, h3⟩, rfl⟩
            exact ⟨h2, x, h3, rfl⟩
        have hinj : InjOn f (t ∩ S) := hsol.inj.mono fun x hx => hx.1.1
        rw [hset, tsum_image (fun y => dens (layersLogprob ts lp (.fin y))) hinj]
        refine tsum_congr fun a => ?_
        obtain ⟨a, ha, haS⟩ := a
        obtain ⟨-, h3, h4⟩ := hval a (hSD haS)
        show dens (layersLogprob ts lp (.fin (f a))) = dens (lp (.fin a))
        rw [h3]
        by_cases h0 : μ {a} = 0
        · rw [hatom a haS, h0, zero_mul]
        · rw [h a haS h0]; simp
    · have := hpre (f '' D)ᶜ (hD.image_of_continuousOn_injOn hsol.cont hsol.inj).compl
      rw [this]
      have e : D ∩ f ⁻¹' (f '' D)ᶜ = ∅ := by
        ext x
        simp only [mem_inter_iff, mem_preimage, mem_compl_iff, mem_empty_iff_false, iff_false, not_and, not_not]
        exact fun hx => ⟨x, hx, rfl⟩
      rw [e, measure_empty]

theorem boundSet_countable (lo hi : Option ℝ) : (boundSet lo hi).Countable := by
  have : boundSet lo hi = {a | lo = some a} ∪ {a | hi = some a} := rfl
  rw [this]
  refine Countable.union ?_ ?_
  · exact Set.Subsingleton.countable fun x hx y hy => Option.some.inj (Eq.trans (Eq.symm hx) hy)
  · exact Set.Subsingleton.countable fun x hx y hy => Option.some.inj (Eq.trans (Eq.symm hx) hy)

theorem atomsOn_option (o : Option ℝ) : atomsOn {a | o = some a} = atomAt o := by
  cases o with
  | none => simp [atomsOn, atomAt]
  | some a =>
    have : {b | some a = some b} = {a} := by ext b; simp [eq_comm]
    rw [this, atomsOn, Measure.restrict_singleton]
    simp [atomAt]

theorem mixedRef_bounds {lo hi : Option ℝ} (hb : BoundsLt lo hi) : mixedRef true (boundSet lo hi) = volume + atomAt lo + atomAt hi := by
  have hu : boundSet lo hi = {a | lo = some a} ∪ {a | hi = some a} := rfl
  have hd : Disjoint {a | lo = some a} {a | hi = some a} := by
    rw [Set.disjoint_left]
    intro a h1 h2
    simp only [mem_setOf_eq] at h1 h2
    subst h1 h2
    exact lt_irrefl _ hb
  have hm : MeasurableSet {a | hi = some a} :=
    (Set.Subsingleton.countable fun x hx y hy => Option.some.inj (Eq.trans (Eq.symm hx) hy)).measurableSet
  rw [mixedRef, add_assoc, ← atomsOn_option lo, ← atomsOn_option hi, hu, atomsOn, Measure.restrict_union hd hm]
  rfl

theorem measurable_clipTo (lo hi : Option ℝ) : Measurable (clipTo lo hi) := by
  cases lo <;> cases hi <;> (unfold clipTo; fun_prop)

/-- **C98 for clipped variables**: a tower `f` over `clip(X, lo, hi)` gets the log-density of `f(clip(X, lo, hi))` exactly if `f` has slope
`1` or `-1` at each bound that is reached with positive probability. -/
theorem C98_clip_iff {lp lc : FVal → Except Err FVal} {μ : Measure ℝ} [IsProbabilityMeasure μ]
    (hlp : IsLogDensity (fun x => lp (fin x)) μ) (hlc : IsLogCdf (fun x => lc (fin x)) μ)
    {l u : ClipArg} {lo hi : Option ℝ} (hl : LowerIs l lo) (hu : UpperIs u hi) (hb : BoundsLt lo hi)
    {ns : List ElemNode} {D : Set ℝ} (hok : TowerOk ns D) (hD : MeasurableSet D) (hbD : ∀ a, lo = some a ∨ hi = some a → a ∈ D)
    (hnull : (μ.map (clipTo lo hi)) Dᶜ = 0) :
    ∃ lp', derivedLogprob ns (measurableClip false lp lc l u) = some lp' ∧
      (IsLogDensityWrt (mixedRef true (towerFn ns '' boundSet lo hi)) (fun y => lp' (.fin y)) (towerFn ns '' D) ((μ.map (clipTo lo hi)).map (towerFn ns)) ↔
        (∀ a, lo = some a → μ (Iic a) ≠ 0 → |deriv (towerFn ns) a| = 1) ∧ (∀ b, hi = some b → μ (Ici b) ≠ 0 → |deriv (towerFn ns) b| = 1)) := by
  haveI : IsProbabilityMeasure (μ.map (clipTo lo hi)) := Measure.isProbabilityMeasure_map (measurable_clipTo lo hi).aemeasurable
  obtain ⟨h1, h2⟩ := C59_clip_partial hlp hlc hl hu hb
  obtain ⟨lp', e1, e2⟩ := C98_iff hok hD (boundSet_countable lo hi) (fun a ha => hbD a ha) (c := true) (lp := measurableClip false lp lc l u)
    (μ := μ.map (clipTo lo hi)) ⟨fun y _ => h1 y, fun s _ hs => by rw [mixedRef_bounds hb, h2 s hs], hnull⟩
  refine ⟨lp', e1, e2.trans ?_⟩
  have hm : ∀ a, (μ.map (clipTo lo hi)) {a} = μ (clipTo lo hi ⁻¹' {a}) := fun a =>
    Measure.map_apply (measurable_clipTo lo hi) (measurableSet_singleton a)
  have hlo : ∀ a, lo = some a → clipTo lo hi ⁻¹' {a} = Iic a := by
    rintro a rfl
    ext x
    cases hi with
    | none => simp [clipTo]
    | some b =>
      have hab : a < b := hb
      simp only [clipTo, mem_preimage, mem_singleton_iff, mem_Iic]
      constructor
      · intro h
        by_contra hx
        push Not at hx
        have : a < min b (max a x) := lt_min hab (lt_max_of_lt_right hx)
        linarith
      · intro h
        rw [max_eq_left h, min_eq_right hab.le]
  have hhi : ∀ b, hi = some b → clipTo lo hi ⁻¹' {b} = Ici b := by
    rintro b rfl
    ext x
    cases lo with
    | none => simp [clipTo]
    | some a =>
      have hab : a < b := hb
      simp only [clipTo, mem_preimage, mem_singleton_iff, mem_Ici, min_eq_left_iff, le_max_iff]
      exact ⟨fun h => h.resolve_left (not_le.2 hab), Or.inr⟩
  constructor
  · intro h
    refine ⟨fun a ha hne => h a (Or.inl ha) ?_, fun b hb' hne => h b (Or.inr hb') ?_⟩
    · rwa [hm, hlo a ha]
    · rwa [hm, hhi b hb']
  · rintro ⟨g1, g2⟩ a (ha | ha) hne
    · rw [hm, hlo a ha] at hne
      exact g1 a ha hne
    · rw [hm, hhi a ha] at hne
      exact g2 a ha hne

/-- **C98 for rounded variables**: a tower `f` over `round(X)`, `floor(X)` or `ceil(X)` (`r x` is the rounded value) gets the log-mass of
`f(round(X))` exactly if `f` has slope `1` or `-1` at each integer that occurs with positive probability. -/
theorem C98_round_iff {lc : FVal → Except Err FVal} {μ : Measure ℝ} [IsProbabilityMeasure μ] [NullSingletonClass μ]
    (hlc : IsLogCdf (fun x => lc (fin x)) μ) (op : RoundOp) (hk : ∀ k : ℤ, ∃ x ∈ roundsTo op k, μ (Iic x) ≠ 0)
    {r : ℝ → ℝ} (hr : Measurable r) (hr1 : ∀ x, ∃ k : ℤ, r x = k) (hr2 : ∀ x (k : ℤ), r x = k ↔ x ∈ roundsTo op k)
    {ns : List ElemNode} (hok : TowerOk ns integers) :
    ∃ lp', derivedLogprob ns (roundLogprob op lc) = some lp' ∧
      (IsLogDensityWrt (mixedRef false (towerFn ns '' integers)) (fun y => lp' (.fin y)) (towerFn ns '' integers) ((μ.map r).map (towerFn ns)) ↔
        ∀ k : ℤ, μ (roundsTo op k) ≠ 0 → |deriv (towerFn ns) k| = 1) := by
  haveI : IsProbabilityMeasure (μ.map r) := Measure.isProbabilityMeasure_map hr.aemeasurable
  have hc : integers.Countable := countable_range _
  have hm : ∀ k : ℤ, (μ.map r) {(k : ℝ)} = μ (roundsTo op k) := fun k => by
    rw [Measure.map_apply hr (measurableSet_singleton _)]
    congr 1
    ext x
    exact hr2 x k
  have hbase : IsLogDensityWrt (mixedRef false integers) (fun x => roundLogprob op lc (.fin x)) integers (μ.map r) := by
    refine ⟨?_, fun s hs hms => ?_, ?_⟩
    · rintro _ ⟨k, rfl⟩
      exact (C61_round_partial hlc op k (hk k)).1
    · have e : ∫⁻ y in s, dens (roundLogprob op lc (.fin y)) ∂(mixedRef false integers) = ∫⁻ y in s, dens (roundLogprob op lc (.fin y)) ∂(atomsOn integers) := by
        simp [mixedRef]
      rw [e, lintegral_atomsOn _ _ hc hms, inter_eq_left.2 hs]
      have e2 : (μ.map r) s = ∫⁻ _ in s, 1 ∂(μ.map r) := by simp
      rw [e2, lintegral_countable _ (hc.mono hs)]
      refine tsum_congr fun a => ?_
      obtain ⟨a, ha⟩ := a
      obtain ⟨k, rfl⟩ := hs ha
      show dens (roundLogprob op lc (.fin (k : ℝ))) = _
      rw [(C61_round_partial hlc op k (hk k)).2, one_mul, hm k]
    · rw [Measure.map_apply hr hc.measurableSet.compl]
      have : r ⁻¹' integersᶜ = ∅ := by
        ext x
        obtain ⟨k, hk⟩ := hr1 x
        simp only [mem_preimage, mem_compl_iff, mem_empty_iff_false, iff_false, not_not]
        exact ⟨k, hk.symm⟩
      rw [this, measure_empty]
  obtain ⟨lp', e1, e2⟩ := C98_iff hok hc.measurableSet hc (subset_refl _) hbase
  refine ⟨lp', e1, e2.trans ⟨fun h k hk => h k ⟨k, rfl⟩ (by rwa [hm]), ?_⟩⟩
  rintro h _ ⟨k, rfl⟩ hne
  exact h k (by rwa [hm] at hne)

theorem unitSlope_tower {ns : List ElemNode} (h : ∀ n ∈ ns, UnitSlope n) (D : Set ℝ) :
    TowerOk ns D ∧ ∀ x, ∃ d, HasDerivAt (towerFn ns) d x ∧ |d| = 1 := by
  induction ns generalizing D with
  | nil => exact ⟨trivial, fun x => ⟨1, hasDerivAt_id' x, abs_one⟩⟩
  | cons n ns ih =>
    have hn := h n (by simp)
    obtain ⟨i1, i2⟩ := ih (fun m hm => h m (by simp [hm])) (n.fn '' D)
    have key : n.Ok D ∧ ∀ x, ∃ d, HasDerivAt n.fn d x ∧ |d| = 1 := by
      cases hn with
      | @add l h1 hlen =>
        refine ⟨.add h1 hlen, fun x => ⟨1, ?_, abs_one⟩⟩
        obtain ⟨-, cs, -, -, -, h5⟩ := h1.spec
        have e : (ElemNode.add l).fn = fun x => x + cs.sum := funext fun x => (h5 x).1
        rw [e]
        exact (hasDerivAt_id' x).add_const _
      | sub a =>
        refine ⟨.sub a D, fun x => ⟨1, ?_, abs_one⟩⟩
        exact (hasDerivAt_id' x).sub_const a
      | rsub a =>
        refine ⟨.rsub a D, fun x => ⟨-1, ?_, by simp⟩⟩
        exact (hasDerivAt_id' x).const_sub a
    refine ⟨⟨key.1, i1⟩, fun x => ?_⟩
    obtain ⟨d, h1, h2⟩ := key.2 x
    obtain ⟨e, h3, h4⟩ := i2 (n.fn x)
    exact ⟨e * d, h3.comp x h1, by rw [abs_mul, h2, h4, one_mul]⟩

/-- **C98, the part that holds**: sums with constants and differences (`X + a`, `X - a`, `a - X`, nested) of a variable with atoms get
their log-density.  Missing from the full claim: all functions with another slope at an atom (`C98_iff`). -/
theorem C98_shift_partial {ns : List ElemNode} (h : ∀ n ∈ ns, UnitSlope n) {S : Set ℝ} (hS : S.Countable) {c : Bool}
    {lp : FVal → Except Err FVal} {μ : Measure ℝ} [IsFiniteMeasure μ] (hlp : IsLogDensityWrt (mixedRef c S) (fun x => lp (.fin x)) univ μ) :
    ∃ lp', derivedLogprob ns lp = some lp' ∧
      IsLogDensityWrt (mixedRef c (towerFn ns '' S)) (fun y => lp' (.fin y)) (towerFn ns '' univ) (μ.map (towerFn ns)) := by
  obtain ⟨h1, h2⟩ := unitSlope_tower h univ
  obtain ⟨lp', e1, e2⟩ := C98_iff h1 .univ hS (subset_univ S) hlp
  refine ⟨lp', e1, e2.2 fun a _ _ => ?_⟩
  obtain ⟨d, h3, h4⟩ := h2 a
  rwa [h3.deriv]

section Examples

/-- The standard normal law. -/
noncomputable abbrev stdGauss : Measure ℝ := ProbabilityTheory.gaussianReal 0 ((1 : ℝ) ^ 2).toNNReal

/-- The law of a standard normal variable clipped below at `a`, with its derived log-probability. -/
theorem clip_base (a : ℝ) : IsLogDensityWrt (mixedRef true (boundSet (some a) none))
    (fun x => measurableClip false (fun v => normalLogprob v (fin 0) (fin 1)) (fun v => normalLogcdf v (fin 0) (fin 1)) (.const (fin a)) .base (fin x))
    univ (stdGauss.map (clipTo (some a) none)) := by
  obtain ⟨h1, h2⟩ := C59_clip_partial (lp := fun v => normalLogprob v (fin 0) (fin 1)) (lc := fun v => normalLogcdf v (fin 0) (fin 1))
    (C09_normal 0 (σ := 1) (by norm_num)).1 (C43_normal_logcdf 0 (σ := 1) (by norm_num)).1
    (l := .const (fin a)) (u := .base) (lo := some a) (hi := none) rfl rfl trivial
  exact ⟨fun y _ => h1 y, fun s _ hs => by rw [mixedRef_bounds (show BoundsLt (some a) none from trivial), h2 s hs], by simp⟩

/-- `3 - (clip(X, 1, X) + 2)`. -/
example := C98_shift_partial (ns := [.add [.meas, .other (.fin 2)], .sub (.other (.fin 3)) .meas])
  (by
    intro n hn
    simp only [List.mem_cons, List.not_mem_nil, or_false] at hn
    rcases hn with rfl | rfl
    · exact .add (.here (l := [2]) (by simp)) (by simp)
    · exact .rsub 3) (boundSet_countable (some 1) none)
  (hlp := by
    haveI : IsProbabilityMeasure (stdGauss.map (clipTo (some 1) none)) := Measure.isProbabilityMeasure_map (measurable_clipTo _ _).aemeasurable
    exact clip_base 1)

/-- **C98 fails**: `exp(clip(X, a, X))` of a standard normal variable, for every bound `a ≠ 0`: a log-probability is derived, but it is not
the log-density of `exp(clip(X, a, X))`. -/
theorem C98_exp_clip_wrong {a : ℝ} (ha : a ≠ 0) :
    ∃ lp', derivedLogprob [.exp .meas] (measurableClip false (fun v => normalLogprob v (fin 0) (fin 1)) (fun v => normalLogcdf v (fin 0) (fin 1)) (.const (fin a)) .base)
        = some lp' ∧
      ¬ IsLogDensityWrt (mixedRef true (Real.exp '' {a})) (fun y => lp' (.fin y)) (Real.exp '' univ) ((stdGauss.map fun x => max a x).map Real.exp) := by
  obtain ⟨lp', e1, e2⟩ := C98_clip_iff (lp := fun v => normalLogprob v (fin 0) (fin 1)) (lc := fun v => normalLogcdf v (fin 0) (fin 1))
    (C09_normal 0 (σ := 1) (by norm_num)).1 (C43_normal_logcdf 0 (σ := 1) (by norm_num)).1
    (l := .const (fin a)) (u := .base) (lo := some a) (hi := none) rfl rfl trivial (ns := [.exp .meas]) (D := univ) ⟨.exp _, trivial⟩ .univ (by simp) (by simp)
  have ef : towerFn [.exp .meas] = Real.exp := rfl
  have es : boundSet (some a) none = {a} := by ext x; simp [boundSet, eq_comm]
  refine ⟨lp', e1, fun h => ?_⟩
  rw [ef, es] at e2
  have := (e2.1 h).1 a rfl (gaussian_ne_zero 0 (σ := 1) (by norm_num) (by simp))
  rw [Real.deriv_exp, abs_of_pos (Real.exp_pos a), Real.exp_eq_one_iff] at this
  exact ha this

example := C98_exp_clip_wrong (a := 1) one_ne_zero

/-- **C98 fails**: `b * floor(X)` of a standard normal variable, for every `b` other than `1` and `-1`. -/
theorem C98_scale_floor_wrong {b : ℝ} (hb : b ≠ 0) (h1 : |b| ≠ 1) :
    ∃ lp', derivedLogprob [.mul [.meas, .other (.fin b)]] (roundLogprob .floor fun v => normalLogcdf v (fin 0) (fin 1)) = some lp' ∧
      ¬ IsLogDensityWrt (mixedRef false ((fun x => x * b) '' integers)) (fun y => lp' (.fin y)) ((fun x => x * b) '' integers)
        ((stdGauss.map fun x => (⌊x⌋ : ℝ)).map fun x => x * b) := by
  haveI := ProbabilityTheory.nullSingletonClass_gaussianReal (μ := 0) (v := ((1 : ℝ) ^ 2).toNNReal) (by simp)
  obtain ⟨lp', e1, e2⟩ := C98_round_iff (lc := fun v => normalLogcdf v (fin 0) (fin 1)) (C43_normal_logcdf 0 (σ := 1) (by norm_num)).1 .floor
    (fun k => ⟨k, ⟨le_refl _, by simp⟩, gaussian_ne_zero 0 (σ := 1) (by norm_num) (by simp)⟩) (r := fun x => (⌊x⌋ : ℝ))
    ((measurable_from_top (f := ((↑) : ℤ → ℝ))).comp Int.measurable_floor) (fun x => ⟨⌊x⌋, rfl⟩)
    (fun x k => by
      show ((⌊x⌋ : ℤ) : ℝ) = k ↔ (k : ℝ) ≤ x ∧ x < k + 1
      rw [Int.cast_inj, Int.floor_eq_iff]) (ns := [.mul [.meas, .other (.fin b)]])
    ⟨.mul (.here (l := [b]) (by simpa using hb)) (by simp), trivial⟩
  have ef : towerFn [.mul [.meas, .other (.fin b)]] = fun x => x * b := by
    funext x
    simp [towerFn, ElemNode.fn, Arg.real]
  rw [ef] at e2
  refine ⟨lp', e1, fun h => ?_⟩
  have h3 := e2.1 h 0 (gaussian_ne_zero 0 (σ := 1) (by norm_num) (by
    show volume (Ico _ _) ≠ 0
    simp))
  have h4 : HasDerivAt (fun x : ℝ => x * b) b ((0 : ℤ) : ℝ) := by simpa using (hasDerivAt_id' (((0 : ℤ) : ℝ))).mul_const b
  rw [h4.deriv] at h3
  exact h1 h3

example := C98_scale_floor_wrong (b := 2) (by norm_num) (by norm_num)

end Examples

end Verif
