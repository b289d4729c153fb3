import Verif.Props.Atoms
import Verif.Props.TransDensity
import Verif.Props.Discrete1

/-! # C105: transformed values of discrete variables and variables with atoms -/

namespace Verif
open MeasureTheory ENNReal Set FVal

/-- The forward map of a transform, as a function of real numbers. -/
noncomputable abbrev RVTransform.fwd (t : RVTransform) (x : ℝ) : ℝ := realOf (t.forward (.fin x))

/-- A map `f` that is one-to-one on `D`, and a function that has `w x` times the density of the base at `f x`: a log-density of the image law if the weights are one at all atoms. -/
theorem mixed_map_iff {D S : Set ℝ} (hD : MeasurableSet D) (hS : S.Countable) (hSD : S ⊆ D) {c : Bool} {lp : FVal → Except Err FVal} {μ : Measure ℝ} [IsFiniteMeasure μ]
    (hlp : IsLogDensityWrt (mixedRef c S) (fun x => lp (.fin x)) D μ) {f : ℝ → ℝ} (hinj : InjOn f D) (hm : ∀ s, MeasurableSet s → MeasurableSet (D ∩ f ⁻¹' s)) (hfm : AEMeasurable f μ)
    (hR : MeasurableSet (f '' D)) {lp' : FVal → Except Err FVal} {w : ℝ → ℝ}
    (hval : ∀ x ∈ D, Clean (lp' (.fin (f x))) ∧ dens (lp' (.fin (f x))) = dens (lp (.fin x)) * ENNReal.ofReal (w x))
    (hcont : c = true → ∀ s ⊆ f '' D, MeasurableSet s → ∫⁻ y in s, dens (lp' (.fin y)) = ∫⁻ x in D ∩ f ⁻¹' s, dens (lp (.fin x))) :
    IsLogDensityWrt (mixedRef c (f '' S)) (fun y => lp' (.fin y)) (f '' D) (μ.map f) ↔ ∀ a ∈ S, μ {a} ≠ 0 → w a = 1 := by
  have hpre : ∀ s, MeasurableSet s → (μ.map f) s = μ (D ∩ f ⁻¹' s) := by
    intro s hs
    rw [Measure.map_apply_of_aemeasurable hfm hs, inter_comm, measure_inter_conull hlp.null]
  have hatom : ∀ a ∈ S, dens (lp (.fin a)) = μ {a} := by
    intro a ha
    have := hlp.law {a} (singleton_subset_iff.2 (hSD ha)) (measurableSet_singleton a)
    rw [← this, lintegral_mixedRef_singleton hS ha]
  constructor
  · intro h a ha hne
    have haD := hSD ha
    obtain ⟨-, h3⟩ := hval a haD
    have hm : (μ.map f) {f a} = μ {a} := by
      rw [hpre _ (measurableSet_singleton _)]
      congr 1
      ext x
      constructor
      · rintro ⟨hx, hfx⟩
        exact hinj hx haD hfx
      · rintro rfl; exact ⟨haD, rfl⟩
    have hl := h.law {f a} (singleton_subset_iff.2 ⟨a, haD, rfl⟩) (measurableSet_singleton _)
    rw [hm, lintegral_mixedRef_singleton (hS.image f) (mem_image_of_mem f ha), h3, hatom a ha] at hl
    have hl' : μ {a} * ENNReal.ofReal (w a) = μ {a} * 1 := by rw [hl, mul_one]
    exact ENNReal.ofReal_eq_one.1 ((ENNReal.mul_right_inj hne (measure_ne_top μ _)).1 hl')
  · intro h
    refine ⟨?_, ?_, ?_⟩
    · rintro _ ⟨x, hx, rfl⟩
      exact (hval x hx).1
    · intro s hs hms
      set t := D ∩ f ⁻¹' s with ht
      have hmt' : MeasurableSet t := hm s hms
      rw [hpre s hms, ← hlp.law t inter_subset_left hmt', mixedRef, mixedRef, Measure.restrict_add, Measure.restrict_add, lintegral_add_measure, lintegral_add_measure]
      congr 1
      · cases c
        · simp
        · exact hcont rfl s hs hms
      · rw [lintegral_atomsOn _ _ (hS.image f) hms, lintegral_atomsOn _ _ hS hmt']
        have hset : s ∩ f '' S = f '' (t ∩ S) := by
          ext y
          constructor
          · rintro ⟨hy, x, hx, rfl⟩
            exact ⟨x, ⟨⟨hSD hx, hy⟩, hx⟩, rfl⟩
          · rintro ⟨x, ⟨⟨_, h2⟩, h3⟩, rfl⟩
            exact ⟨h2, x, h3, rfl⟩
        have hinj : InjOn f (t ∩ S) := hinj.mono fun x hx => hx.1.1
        rw [hset, tsum_image (fun y => dens (lp' (.fin y))) hinj]
        refine tsum_congr fun a => ?_
        obtain ⟨a, ha, haS⟩ := a
        obtain ⟨-, h3⟩ := hval a (hSD haS)
        show dens (lp' (.fin (f a))) = dens (lp (.fin a))
        rw [h3]
        by_cases h0 : μ {a} = 0
        · rw [hatom a haS, h0, zero_mul]
        · rw [h a haS h0]; simp
    · rw [hpre _ hR.compl]
      have e : D ∩ f ⁻¹' (f '' D)ᶜ = ∅ := by
        ext x
        simp only [mem_inter_iff, mem_preimage, mem_compl_iff, mem_empty_iff_false, iff_false, not_and, not_not]
        exact fun hx => ⟨x, hx, rfl⟩
      rw [e, measure_empty]

/-- What is needed of a transform that inverts. -/
theorem Inverts.facts {t : RVTransform} {D R : Set ℝ} (hinv : Inverts t D R) :
    InjOn t.fwd D ∧ t.fwd '' D = R ∧ ∀ x ∈ D, t.fwd x ∈ R ∧ t.backward (.fin (t.fwd x)) = .ok (.fin x) := by
  have hfd : ∀ x ∈ D, t.fwd x ∈ R ∧ t.backward (.fin (t.fwd x)) = .ok (.fin x) := fun x hx => by
    obtain ⟨y, hy, e1, e2⟩ := hinv.fwd x hx
    have : t.fwd x = y := by simp [RVTransform.fwd, e1]
    rw [this]
    exact ⟨hy, e2⟩
  refine ⟨fun a ha b hb hab => ?_, ?_, hfd⟩
  · have h1 := (hfd a ha).2
    rw [hab, (hfd b hb).2] at h1
    simpa using h1.symm
  · ext y
    constructor
    · rintro ⟨x, hx, rfl⟩
      exact (hfd x hx).1
    · intro hy
      obtain ⟨x, hx, e1, e2⟩ := hinv.bwd y hy
      exact ⟨x, hx, by simp [RVTransform.fwd, e2]⟩

/-- The preimages of measurable sets. -/
theorem Inverts.measurable {t : RVTransform} {D R : Set ℝ} (hinv : Inverts t D R) (hjac : LogJac t R) (hR : MeasurableSet R) :
    MeasurableSet D ∧ (∀ s, MeasurableSet s → MeasurableSet (D ∩ t.fwd ⁻¹' s)) ∧ ∀ μ : Measure ℝ, μ Dᶜ = 0 → AEMeasurable t.fwd μ := by
  obtain ⟨hinj, himg, hfd⟩ := hinv.facts
  choose! h' hd hd0 hj using hjac
  set h : ℝ → ℝ := fun y => realOf (t.backward (.fin y)) with hh
  have hbf : ∀ x ∈ D, h (t.fwd x) = x := fun x hx => by simp [hh, (hfd x hx).2]
  have hinj' : InjOn h R := by
    rw [← himg]
    rintro _ ⟨x, hx, rfl⟩ _ ⟨y, hy, rfl⟩ hxy
    rw [hbf x hx, hbf y hy] at hxy
    rw [hxy]
  have hmi : ∀ s, MeasurableSet s → MeasurableSet (D ∩ t.fwd ⁻¹' s) := fun s hs => by
    have : D ∩ t.fwd ⁻¹' s = h '' (s ∩ R) := by
      ext x
      constructor
      · rintro ⟨hx, hxs⟩
        exact ⟨t.fwd x, ⟨hxs, (hfd x hx).1⟩, hbf x hx⟩
      · rintro ⟨y, ⟨hy, hyR⟩, rfl⟩
        rw [← himg] at hyR
        obtain ⟨x, hx, rfl⟩ := hyR
        rw [hbf x hx]
        exact ⟨hx, hy⟩
    rw [this]
    exact (hs.inter hR).image_of_continuousOn_injOn (fun x hx => (hd x hx.2).continuousAt.continuousWithinAt) (hinj'.mono inter_subset_right)
  have hDm : MeasurableSet D := by simpa using hmi univ .univ
  refine ⟨hDm, hmi, fun μ hμ => ⟨D.indicator t.fwd, fun s hs => ?_, ?_⟩⟩
  · have : D.indicator t.fwd ⁻¹' s = (D ∩ t.fwd ⁻¹' s) ∪ (Dᶜ ∩ {x | (0 : ℝ) ∈ s}) := by
      ext x
      by_cases hx : x ∈ D <;> simp [hx]
    rw [this]
    refine (hmi s hs).union (hDm.compl.inter ?_)
    by_cases h0 : (0 : ℝ) ∈ s <;> simp [h0]
  · have : ∀ᵐ x ∂μ, x ∈ D := by rw [ae_iff]; exact hμ
    filter_upwards [this] with x hx
    simp [hx]

/-- The law on `D` with the density of the continuous part. -/
theorem cont_part {t : RVTransform} {D R : Set ℝ} (hinv : Inverts t D R) (hjac : LogJac t R) (hR : MeasurableSet R) {lp : FVal → Except Err FVal} (hclean : ∀ x ∈ D, Clean (lp (.fin x))) :
    ∀ s ⊆ R, MeasurableSet s → ∫⁻ y in s, dens (transformedLogprob t lp true (.fin y)) = ∫⁻ x in D ∩ t.fwd ⁻¹' s, dens (lp (.fin x)) := by
  intro s hs hms
  obtain ⟨hD, hmi, -⟩ := hinv.measurable hjac hR
  have hc : IsLogDensityOn (fun x => lp (.fin x)) D ((volume.restrict D).withDensity fun x => dens (lp (.fin x))) := by
    refine ⟨hclean, fun s hs hms => ?_, ?_⟩
    · rw [withDensity_apply _ hms, Measure.restrict_restrict hms, inter_eq_left.2 hs]
    · rw [withDensity_apply _ hD.compl, Measure.restrict_restrict hD.compl]
      simp
  obtain ⟨g1, g2, -⟩ := pushforward_density hinv hjac hR hc (g := fun y => transformedLogprob t lp true (.fin y)) fun y _ x j l h1 h2 h3 => by
    simp only [transformedLogprob, h1, h2, h3, bind, Except.bind, if_true]; rfl
  have := g1.law s hs hms
  rw [this, Measure.map_apply_of_aemeasurable g2 hms, ← measure_inter_conull hc.null, inter_comm]
  show _ = ∫⁻ x in D ∩ t.fwd ⁻¹' s, dens (lp (.fin x))
  rw [withDensity_apply _ (hmi s hms), Measure.restrict_restrict (hmi s hms), inter_eq_left.2 inter_subset_left]

/-- **C105** The value of a variable with atoms at the points of `S` (a discrete variable, or a clipped or rounded one, or one with a continuous part as well) is transformed.  The
log-probability on the transformed space is the log-density of the transformed variable, with respect to atoms at the images of `S` (and Lebesgue measure), exactly if the log-Jacobian vanishes
at the image of every atom that has positive probability. -/
theorem C105_iff {t : RVTransform} {D R S : Set ℝ} (hinv : Inverts t D R) (hjac : LogJac t R) (hR : MeasurableSet R) (hS : S.Countable) (hSD : S ⊆ D) {c : Bool}
    {lp : FVal → Except Err FVal} {μ : Measure ℝ} [IsFiniteMeasure μ] (hlp : IsLogDensityWrt (mixedRef c S) (fun x => lp (.fin x)) D μ) :
    IsLogDensityWrt (mixedRef c (t.fwd '' S)) (fun y => transformedLogprob t lp true (.fin y)) R (μ.map t.fwd) ↔
      ∀ a ∈ S, μ {a} ≠ 0 → t.logJacDet (.fin (t.fwd a)) = .ok (.fin 0) := by
  obtain ⟨hinj, himg, hfd⟩ := hinv.facts
  obtain ⟨hD, hmi, hae⟩ := hinv.measurable hjac hR
  have hj : ∀ x ∈ D, ∃ j, t.logJacDet (.fin (t.fwd x)) = .ok (.fin j) := fun x hx => by
    obtain ⟨d, -, -, h⟩ := hjac _ (hfd x hx).1
    exact ⟨_, h⟩
  choose! j hj using hj
  have key := mixed_map_iff hD hS hSD hlp hinj hmi (hae μ hlp.null) (himg ▸ hR) (lp' := transformedLogprob t lp true) (w := fun x => Real.exp (j x))
    (fun x hx => by
      obtain ⟨l, hl, hnan⟩ := hlp.clean x hx
      have e : transformedLogprob t lp true (.fin (t.fwd x)) = .ok (l + .fin (j x)) := by
        simp only [transformedLogprob, (hfd x hx).2, hl, hj x hx, bind, Except.bind, if_true]; rfl
      rw [e, hl, dens_add_fin]
      refine ⟨⟨_, rfl, ?_⟩, rfl⟩
      cases l <;> simp at hnan ⊢)
    (fun _ s hs hms => cont_part hinv hjac hR hlp.clean s (himg ▸ hs) hms)
  rw [himg] at key
  rw [key]
  refine forall₃_congr fun a ha _ => ?_
  rw [hj a (hSD ha), Real.exp_eq_one_iff]
  simp

/-- **C105** (without the Jacobian) For a variable that has only atoms, the log-probability with `use_jacobian=False` is the log-mass of the transformed variable, for every transform. -/
theorem C105_discrete_without_jacobian {t : RVTransform} {D R S : Set ℝ} (hinv : Inverts t D R) (hjac : LogJac t R) (hR : MeasurableSet R) (hS : S.Countable) (hSD : S ⊆ D)
    {lp : FVal → Except Err FVal} {μ : Measure ℝ} [IsFiniteMeasure μ] (hlp : IsLogDensityWrt (mixedRef false S) (fun x => lp (.fin x)) D μ) :
    IsLogDensityWrt (mixedRef false (t.fwd '' S)) (fun y => transformedLogprob t lp false (.fin y)) R (μ.map t.fwd) := by
  obtain ⟨hinj, himg, hfd⟩ := hinv.facts
  obtain ⟨hD, hmi, hae⟩ := hinv.measurable hjac hR
  have key := mixed_map_iff hD hS hSD hlp hinj hmi (hae μ hlp.null) (himg ▸ hR) (lp' := transformedLogprob t lp false) (w := fun _ => 1)
    (fun x hx => by
      obtain ⟨l, hl, hnan⟩ := hlp.clean x hx
      have e : transformedLogprob t lp false (.fin (t.fwd x)) = .ok l := by
        simp only [transformedLogprob, (hfd x hx).2, hl, bind, Except.bind]; rfl
      rw [e, hl]
      exact ⟨⟨_, rfl, hnan⟩, by simp⟩)
    (fun h => by cases h)
  rw [himg] at key
  exact key.2 fun _ _ _ => rfl

/-- **C105, the part that holds** Shifts (`LocTransform`) keep the log-density of every variable with atoms.  Missing from the full claim: transforms with a log-Jacobian other than zero
(`C105_iff`). -/
theorem C105_shift_partial (a : ℝ) {S : Set ℝ} (hS : S.Countable) {c : Bool} {lp : FVal → Except Err FVal} {μ : Measure ℝ} [IsFiniteMeasure μ]
    (hlp : IsLogDensityWrt (mixedRef c S) (fun x => lp (.fin x)) univ μ) :
    IsLogDensityWrt (mixedRef c ((fun x => x + a) '' S)) (fun y => transformedLogprob (.loc (.fin a)) lp true (.fin y)) univ (μ.map fun x => x + a) := by
  have := (C105_iff (C49_loc a) (C50_loc a) .univ hS (subset_univ S) hlp).2 fun x _ _ => by simp [RVTransform.loc]
  have e : (RVTransform.loc (.fin a)).fwd = fun x => x + a := funext fun x => by simp [RVTransform.fwd, RVTransform.loc]
  rwa [e] at this

theorem Inverts.restrict {t : RVTransform} {D R D' : Set ℝ} (h : Inverts t D R) (hD : D' ⊆ D) : Inverts t D' (t.fwd '' D') := by
  refine ⟨fun x hx => ?_, ?_⟩
  · obtain ⟨y, hy, e1, e2⟩ := h.fwd x (hD hx)
    exact ⟨y, ⟨x, hx, by simp [RVTransform.fwd, e1]⟩, e1, e2⟩
  · rintro _ ⟨x, hx, rfl⟩
    obtain ⟨y, hy, e1, e2⟩ := h.fwd x (hD hx)
    have : t.fwd x = y := by simp [RVTransform.fwd, e1]
    rw [this]
    exact ⟨x, hx, e2, e1⟩

theorem massSupport_countable (q : ℤ → ℝ) : (massSupport q).Countable :=
  (countable_range ((↑) : ℤ → ℝ)).mono fun x (hx : x ∈ massSupport q) => by
    obtain ⟨k, _, hk⟩ := hx
    exact ⟨k, hk.symm⟩

theorem massLaw_indicator (q : ℤ → ℝ) {s : Set ℝ} (hs : MeasurableSet s) : massLaw q s = ∑' k : ℤ, ENNReal.ofReal (q k) * s.indicator 1 (k : ℝ) := by
  rw [massLaw, Measure.sum_apply _ hs]
  simp [hs]

theorem massLaw_point (q : ℤ → ℝ) (k : ℤ) : massLaw q {(k : ℝ)} = ENNReal.ofReal (q k) := by
  rw [massLaw_indicator q (measurableSet_singleton _), tsum_eq_single k]
  · simp
  · intro m hm
    simp [hm]

theorem massLaw_base {lp : FVal → Except Err FVal} {q : ℤ → ℝ} (h : IsLogMass (fun k => lp (.fin k)) q) :
    IsLogDensityWrt (mixedRef false (massSupport q)) (fun x => lp (.fin x)) (massSupport q) (massLaw q) := by
  have hm : ∀ x : ℝ, x ∈ massSupport q → MeasurableSet ({x} : Set ℝ) := fun x _ => measurableSet_singleton x
  refine ⟨?_, fun s hs hms => ?_, ?_⟩
  · rintro _ ⟨k, _, rfl⟩
    exact h.clean k
  · rw [mixedRef]
    simp only [Bool.false_eq_true, if_false, zero_add]
    rw [lintegral_atomsOn _ _ (massSupport_countable q) hms, massLaw_indicator q hms, inter_eq_left.2 hs]
    have hinj : Function.Injective ((↑) : ℤ → ℝ) := Int.cast_injective
    have e : s = ((↑) : ℤ → ℝ) '' {k | (k : ℝ) ∈ s} := by
      ext x
      constructor
      · intro hx
        obtain ⟨k, _, rfl⟩ := hs hx
        exact ⟨k, hx, rfl⟩
      · rintro ⟨k, hk, rfl⟩
        exact hk
    have e1 : ∑' a : ↥s, dens (lp (.fin a)) = ∑' k : ↥{k : ℤ | (k : ℝ) ∈ s}, dens (lp (.fin ((k : ℤ) : ℝ))) := by
      conv_lhs => rw [e]
      exact tsum_image (fun x => dens (lp (.fin x))) hinj.injOn
    rw [e1, tsum_subtype {k : ℤ | (k : ℝ) ∈ s} fun k => dens (lp (.fin (k : ℝ)))]
    refine tsum_congr fun k => ?_
    by_cases hk : (k : ℝ) ∈ s
    · simp [indicator, hk, h.mass k]
    · simp [indicator, hk]
  · rw [massLaw_indicator q (massSupport_countable q).measurableSet.compl]
    refine ENNReal.tsum_eq_zero.2 fun k => ?_
    by_cases hk : 0 < q k
    · have : (k : ℝ) ∈ massSupport q := ⟨k, hk, rfl⟩
      simp [this]
    · simp [ENNReal.ofReal_of_nonpos (not_lt.1 hk)]

theorem massLaw_finite {q : ℤ → ℝ} (hq : ∀ k, 0 ≤ q k) (h : HasSum q 1) : IsFiniteMeasure (massLaw q) := by
  refine ⟨?_⟩
  rw [massLaw_indicator q .univ]
  simp only [indicator_univ, Pi.one_apply, mul_one]
  rw [← ENNReal.ofReal_tsum_of_nonneg hq h.summable]
  exact ENNReal.ofReal_lt_top

/-- **C105 for discrete variables** With a transform defined on the support, the log-probability of the transformed value of an integer-valued variable is the log-mass of the transformed variable
exactly if the log-Jacobian is zero at (the image of) every value of the variable. -/
theorem C105_discrete_iff {t : RVTransform} {D R : Set ℝ} (hinv : Inverts t D R) (hjac : LogJac t R) {lp : FVal → Except Err FVal} {q : ℤ → ℝ} (hq : ∀ k, 0 ≤ q k)
    (hlp : IsLogMass (fun k => lp (.fin k)) q) (hD : massSupport q ⊆ D) :
    IsLogDensityWrt (mixedRef false (t.fwd '' massSupport q)) (fun y => transformedLogprob t lp true (.fin y)) (t.fwd '' massSupport q) ((massLaw q).map t.fwd) ↔
      ∀ k : ℤ, 0 < q k → t.logJacDet (.fin (t.fwd k)) = .ok (.fin 0) := by
  haveI := massLaw_finite hq hlp.total
  have hsub : t.fwd '' massSupport q ⊆ R := by
    rintro _ ⟨x, hx, rfl⟩
    exact (hinv.facts.2.2 x (hD hx)).1
  rw [C105_iff (hinv.restrict hD) (fun y hy => hjac y (hsub hy)) ((massSupport_countable q).image _).measurableSet (massSupport_countable q) subset_rfl (massLaw_base hlp)]
  constructor
  · intro h k hk
    exact h k ⟨k, hk, rfl⟩ (by rw [massLaw_point]; simp [hk])
  · rintro h _ ⟨k, hk, rfl⟩ -
    exact h k hk

theorem geometric_nonneg {p : ℝ} (h0 : 0 < p) (h1 : p < 1) (k : ℤ) : 0 ≤ onNat (geometricMass p) k := by
  have h2 : 0 ≤ 1 - p := by linarith
  unfold onNat
  split
  · cases k.toNat with
    | zero => exact le_rfl
    | succ n => rw [geometricMass]; positivity
  · exact le_rfl

theorem geometric_pos {p : ℝ} {k : ℤ} (hk : 0 < onNat (geometricMass p) k) : 0 < (k : ℝ) := by
  unfold onNat at hk
  split at hk
  · rename_i h
    rcases h.lt_or_eq with h | h
    · exact_mod_cast h
    · rw [← h] at hk
      simp [geometricMass] at hk
  · simp at hk

/-- **C105 fails**: for a geometric variable with the logarithm as transform, the log-probability is not the log-mass of the logarithm of the variable. -/
theorem C105_geometric_wrong {p : ℝ} (h0 : 0 < p) (h1 : p < 1) :
    let q := onNat (geometricMass p)
    ¬ IsLogDensityWrt (mixedRef false (Real.log '' massSupport q)) (fun y => transformedLogprob .log (fun v => geometricLogprob v (.fin p)) true (.fin y))
      (Real.log '' massSupport q) ((massLaw q).map Real.log) := by
  intro q h
  have hsub : massSupport q ⊆ Ioi 0 := by
    rintro _ ⟨k, hk, rfl⟩
    exact geometric_pos hk
  have e : ∀ x ∈ massSupport q, RVTransform.log.fwd x = Real.log x := fun x hx => by
    simp [RVTransform.fwd, RVTransform.log, log_fin_pos (hsub hx)]
  have e1 : RVTransform.log.fwd '' massSupport q = Real.log '' massSupport q := image_congr e
  have e2 : (massLaw q).map RVTransform.log.fwd = (massLaw q).map Real.log := by
    refine Measure.map_congr ?_
    have : ∀ᵐ x ∂(massLaw q), x ∈ massSupport q := by rw [ae_iff]; exact (massLaw_base (lp := fun v => geometricLogprob v (.fin p)) (C33_geometric h0 h1.le)).null
    filter_upwards [this] with x hx using e x hx
  rw [← e1, ← e2] at h
  have h3 := (C105_discrete_iff C49_log C50_log (lp := fun v => geometricLogprob v (.fin p)) (geometric_nonneg h0 h1) (C33_geometric h0 h1.le) hsub).1 h 2 (by
    have : 0 < 1 - p := by linarith
    show 0 < onNat (geometricMass p) 2
    have e3 : onNat (geometricMass p) 2 = (1 - p) ^ 1 * p := rfl
    rw [e3]
    positivity)
  have h4 : RVTransform.log.fwd ((2 : ℤ) : ℝ) = Real.log 2 := by simp [RVTransform.fwd, RVTransform.log, log_fin_pos (show (0 : ℝ) < 2 by norm_num)]
  rw [h4] at h3
  have : Real.log 2 = 0 := by simpa [RVTransform.log] using h3
  have := Real.log_pos (show (1 : ℝ) < 2 by norm_num)
  linarith

/-! ### The theorems apply. -/

example := C105_geometric_wrong (p := 1 / 2) (by norm_num) (by norm_num)

/-- A standard normal variable clipped below at 1, with the exponential as transform. -/
example := C105_iff C49_exp C50_exp measurableSet_Ioi (boundSet_countable (some 1) none) (subset_univ _)
  (hlp := by
    haveI : IsProbabilityMeasure (stdGauss.map (clipTo (some 1) none)) := Measure.isProbabilityMeasure_map (measurable_clipTo _ _).aemeasurable
    exact clip_base 1)

/-- The same, shifted. -/
example := C105_shift_partial 3 (boundSet_countable (some 1) none)
  (hlp := by
    haveI : IsProbabilityMeasure (stdGauss.map (clipTo (some 1) none)) := Measure.isProbabilityMeasure_map (measurable_clipTo _ _).aemeasurable
    exact clip_base 1)

/-- The logarithm of a geometric variable, without the Jacobian. -/
example := by
  have h := C33_geometric (p := 1 / 2) (by norm_num) (by norm_num)
  haveI := massLaw_finite (geometric_nonneg (p := 1 / 2) (by norm_num) (by norm_num)) h.total
  exact C105_discrete_without_jacobian (lp := fun v => geometricLogprob v (.fin (1 / 2))) (C49_log.restrict (D' := massSupport (onNat (geometricMass (1 / 2)))) (by
    rintro _ ⟨k, hk, rfl⟩
    exact geometric_pos hk)) (fun y _ => C50_log y trivial) ((massSupport_countable _).image _).measurableSet (massSupport_countable _) subset_rfl
    (massLaw_base (lp := fun v => geometricLogprob v (.fin (1 / 2))) h)

end Verif
