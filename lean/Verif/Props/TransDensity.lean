import Verif.Props.Transforms
import Verif.Props.Dist1
import Verif.Props.Dist2

/-! # C51: densities on the transformed space -/

namespace Verif
open FVal Set MeasureTheory

theorem dens_add_fin {a : FVal} (j : ℝ) : dens (.ok (a + .fin j)) = dens (.ok a) * ENNReal.ofReal (Real.exp j) := by
  have hj : ENNReal.ofReal (Real.exp j) ≠ 0 := by simp [Real.exp_pos]
  cases a with
  | nan => simp
  | ninf => simp
  | pinf => simp [ENNReal.top_mul hj]
  | fin x => simp [Real.exp_add, ENNReal.ofReal_mul (Real.exp_pos x).le]

/-- The image law of a density under the forward map. -/
theorem pushforward_density {t : RVTransform} {D R : Set ℝ} (hinv : Inverts t D R) (hjac : LogJac t R) (hR : MeasurableSet R)
    {lp : FVal → Except Err FVal} {μ : Measure ℝ} (hlp : IsLogDensityOn (fun x => lp (.fin x)) D μ)
    {g : ℝ → Except Err FVal}
    (hg : ∀ y ∈ R, ∀ x j l, t.backward (.fin y) = .ok (.fin x) → t.logJacDet (.fin y) = .ok (.fin j) → lp (.fin x) = .ok l → g y = .ok (l + .fin j)) :
    IsLogDensityOn g R (μ.map fun x => realOf (t.forward (.fin x))) ∧
    AEMeasurable (fun x => realOf (t.forward (.fin x))) μ ∧ MeasurableSet D := by
  set φ : ℝ → ℝ := fun x => realOf (t.forward (.fin x)) with hφ
  set h : ℝ → ℝ := fun y => realOf (t.backward (.fin y)) with hh
  choose! h' hd hd0 hj using hjac
  have hbd : ∀ y ∈ R, h y ∈ D ∧ φ (h y) = y ∧ t.backward (.fin y) = .ok (.fin (h y)) := by
    intro y hy
    obtain ⟨x, hx, e1, e2⟩ := hinv.bwd y hy
    have : h y = x := by simp [hh, e1]
    rw [this]
    exact ⟨hx, by simp [hφ, e2], e1⟩
  have hfd : ∀ x ∈ D, φ x ∈ R ∧ h (φ x) = x := by
    intro x hx
    obtain ⟨y, hy, e1, e2⟩ := hinv.fwd x hx
    have : φ x = y := by simp [hφ, e1]
    rw [this]
    exact ⟨hy, by simp [hh, e2]⟩
  have hinj : InjOn h R := fun a ha b hb hab => by rw [← (hbd a ha).2.1, ← (hbd b hb).2.1, hab]
  have himg : ∀ s ⊆ R, MeasurableSet s → MeasurableSet (h '' s) := fun s hs hm =>
    hm.image_of_continuousOn_injOn (fun x hx => (hd x (hs hx)).continuousAt.continuousWithinAt) (hinj.mono hs)
  have hDim : D = h '' R := by
    ext x
    exact ⟨fun hx => ⟨φ x, (hfd x hx).1, (hfd x hx).2⟩, fun ⟨y, hy, e⟩ => e ▸ (hbd y hy).1⟩
  have hDm : MeasurableSet D := hDim ▸ himg R subset_rfl hR
  have hpre : ∀ s ⊆ R, D ∩ φ ⁻¹' s = h '' s := by
    intro s hs
    ext x
    constructor
    · rintro ⟨hx, hxs⟩
      exact ⟨φ x, hxs, (hfd x hx).2⟩
    · rintro ⟨y, hy, rfl⟩
      exact ⟨(hbd y (hs hy)).1, by show φ (h y) ∈ s; rw [(hbd y (hs hy)).2.1]; exact hy⟩
  have haeD : ∀ᵐ x ∂μ, x ∈ D := by rw [ae_iff]; exact hlp.null
  have hmeas : Measurable (D.indicator φ) := by
    intro s hs
    have : D.indicator φ ⁻¹' s = (h '' (s ∩ R)) ∪ (Dᶜ ∩ {x | (0 : ℝ) ∈ s}) := by
      rw [← hpre _ inter_subset_right]
      ext x
      by_cases hx : x ∈ D
      · simp [hx, (hfd x hx).1]
      · simp [hx]
    rw [this]
    refine (himg _ inter_subset_right (hs.inter hR)).union (hDm.compl.inter ?_)
    by_cases h0 : (0 : ℝ) ∈ s <;> simp [h0]
  have hae : AEMeasurable φ μ := ⟨D.indicator φ, hmeas, by filter_upwards [haeD] with x hx; simp [hx]⟩
  have hval : ∀ s ⊆ R, MeasurableSet s → μ.map φ s = μ (h '' s) := by
    intro s hs hm
    rw [Measure.map_apply_of_aemeasurable hae hm, ← hpre s hs]
    refine measure_congr ?_
    filter_upwards [haeD] with x hx
    exact propext ⟨fun hxs => ⟨hx, hxs⟩, fun hxs => hxs.2⟩
  refine ⟨⟨fun y hy => ?_, fun s hs hm => ?_, ?_⟩, hae, hDm⟩
  · obtain ⟨l, hl, hnan⟩ := hlp.clean (h y) (hbd y hy).1
    refine ⟨_, hg y hy _ _ _ (hbd y hy).2.2 (hj y hy) hl, ?_⟩
    cases l <;> simp at hnan ⊢
  · rw [hval s hs hm, ← hlp.law (h '' s) (by rw [hDim]; exact image_mono hs) (himg s hs hm),
      lintegral_image_eq_lintegral_abs_deriv_mul hm (fun y hy => (hd y (hs hy)).hasDerivWithinAt) (hinj.mono hs)]
    refine setLIntegral_congr_fun hm fun y hy => ?_
    obtain ⟨l, hl, _⟩ := hlp.clean (h y) (hbd y (hs hy)).1
    rw [hg y (hs hy) _ _ _ (hbd y (hs hy)).2.2 (hj y (hs hy)) hl, dens_add_fin, hl, Real.exp_log (abs_pos.2 (hd0 y (hs hy))), mul_comm]
  · rw [Measure.map_apply_of_aemeasurable hae hR.compl]
    refine measure_mono_null (fun x hx => ?_) hlp.null
    exact fun hxD => hx (hfd x hxD).1

/-- **C51** For every base log-density `lp` of a law `μ` carried by the transform's domain `D`, the log-probability on the transformed
space is the log-density, on the transform's range, of the law of `forward` of the variable. -/
theorem C51_transformed_density {t : RVTransform} {D R : Set ℝ} (hinv : Inverts t D R) (hjac : LogJac t R) (hR : MeasurableSet R)
    {lp : FVal → Except Err FVal} {μ : Measure ℝ} (hlp : IsLogDensityOn (fun x => lp (.fin x)) D μ) :
    IsLogDensityOn (fun y => transformedLogprob t lp true (.fin y)) R (μ.map fun x => realOf (t.forward (.fin x))) :=
  (pushforward_density hinv hjac hR hlp fun y _ x j l h1 h2 h3 => by
    simp only [transformedLogprob, h1, h2, h3, bind, Except.bind, if_true]; rfl).1

/-- A log-density of a law carried by `D` is one on `D`. -/
theorem IsLogDensity.on {lp : ℝ → Except Err FVal} {μ : Measure ℝ} (h : IsLogDensity lp μ) {D : Set ℝ} (hD : μ Dᶜ = 0) : IsLogDensityOn lp D μ :=
  ⟨fun y _ => h.clean y, fun s _ hs => h.law s hs, hD⟩

/-- **C51**, total mass and events on the whole line: when the range is all of ℝ the transformed log-probability is a log-density in the
full sense, and it has the total mass of the base law. -/
theorem C51_transformed_mass {t : RVTransform} {D : Set ℝ} (hinv : Inverts t D univ) (hjac : LogJac t univ)
    {lp : FVal → Except Err FVal} {μ : Measure ℝ} (hlp : IsLogDensity (fun x => lp (.fin x)) μ) (hD : μ Dᶜ = 0) :
    IsLogDensity (fun y => transformedLogprob t lp true (.fin y)) (μ.map fun x => realOf (t.forward (.fin x))) ∧
    ∫⁻ y, dens (transformedLogprob t lp true (.fin y)) = μ univ := by
  have hg : ∀ y ∈ (univ : Set ℝ), ∀ x j l, t.backward (.fin y) = .ok (.fin x) → t.logJacDet (.fin y) = .ok (.fin j) → lp (.fin x) = .ok l →
      transformedLogprob t lp true (.fin y) = .ok (l + .fin j) := fun y _ x j l h1 h2 h3 => by
    simp only [transformedLogprob, h1, h2, h3, bind, Except.bind, if_true]; rfl
  obtain ⟨h, hae, -⟩ := pushforward_density hinv hjac MeasurableSet.univ (hlp.on hD) hg
  refine ⟨⟨fun x => h.clean x trivial, fun s hs => h.law s (subset_univ s) hs⟩, ?_⟩
  have := h.law univ subset_rfl MeasurableSet.univ
  rw [Measure.restrict_univ] at this
  rw [this, Measure.map_apply_of_aemeasurable hae MeasurableSet.univ, preimage_univ]

/-- **C51** for each transform object: all of them at once, for every base law carried by the domain (the circular transform only on `(-π, π)`; on the whole line it is false, `C51_circular_infinite_mass`). -/
theorem C51_each_transform_partial {lp : FVal → Except Err FVal} {μ : Measure ℝ} (hlp : IsLogDensity (fun x => lp (.fin x)) μ) :
    (∀ a, IsLogDensity (fun y => transformedLogprob (.loc (.fin a)) lp true (.fin y)) (μ.map fun x => x + a)) ∧
    (∀ a, a ≠ 0 → IsLogDensity (fun y => transformedLogprob (.scale (.fin a)) lp true (.fin y)) (μ.map fun x => x * a)) ∧
    (μ (Ioi 0)ᶜ = 0 → IsLogDensity (fun y => transformedLogprob .log lp true (.fin y)) (μ.map Real.log)) ∧
    (IsLogDensityOn (fun y => transformedLogprob .exp lp true (.fin y)) (Ioi 0) (μ.map Real.exp)) ∧
    (∀ a b, a < b → μ (Ioo a b)ᶜ = 0 → IsLogDensity (fun y => transformedLogprob (.interval (some (.fin a)) (some (.fin b))) lp true (.fin y))
      (μ.map fun x => Real.log ((x - a) / (b - x)))) ∧
    (∀ a, μ (Ioi a)ᶜ = 0 → IsLogDensity (fun y => transformedLogprob (.interval (some (.fin a)) none) lp true (.fin y)) (μ.map fun x => Real.log (x - a))) ∧
    (∀ b, μ (Iio b)ᶜ = 0 → IsLogDensity (fun y => transformedLogprob (.interval none (some (.fin b))) lp true (.fin y)) (μ.map fun x => Real.log (b - x))) ∧
    (μ (Ioo 0 1)ᶜ = 0 → IsLogDensity (fun y => transformedLogprob .logodds lp true (.fin y)) (μ.map fun x => Real.log (x / (1 - x)))) ∧
    (μ (Ioi 0)ᶜ = 0 → IsLogDensityOn (fun y => transformedLogprob .reciprocal lp true (.fin y)) (Ioi 0) (μ.map fun x => x⁻¹)) ∧
    (μ (Ioo (-Real.pi) Real.pi)ᶜ = 0 → IsLogDensityOn (fun y => transformedLogprob .circular lp true (.fin y)) (Ioo (-Real.pi) Real.pi) μ) := by
  have hmap : ∀ {D : Set ℝ} {f g : ℝ → ℝ}, μ Dᶜ = 0 → (∀ x ∈ D, f x = g x) → μ.map f = μ.map g := by
    intro D f g hD h
    refine Measure.map_congr ?_
    have : ∀ᵐ x ∂μ, x ∈ D := by rw [ae_iff]; exact hD
    filter_upwards [this] with x hx using h x hx
  refine ⟨fun a => ?_, fun a ha => ?_, fun h0 => ?_, ?_, fun a b hab h0 => ?_, fun a h0 => ?_, fun b h0 => ?_, fun h0 => ?_, fun h0 => ?_, fun h0 => ?_⟩
  · have h := (C51_transformed_mass (C49_loc a) (C50_loc a) hlp (by simp)).1
    rwa [hmap (D := univ) (by simp) (g := fun x => x + a) fun x _ => by simp [RVTransform.loc]] at h
  · have h := (C51_transformed_mass (C49_scale ha) (C50_scale ha) hlp (by simp)).1
    rwa [hmap (D := univ) (by simp) (g := fun x => x * a) fun x _ => by simp [RVTransform.scale]] at h
  · have h := (C51_transformed_mass C49_log C50_log hlp h0).1
    rwa [hmap h0 (g := Real.log) fun x hx => by simp [RVTransform.log, log_fin_pos hx]] at h
  · have h := C51_transformed_density C49_exp C50_exp measurableSet_Ioi (hlp.on (D := univ) (by simp))
    rwa [hmap (D := univ) (by simp) (g := Real.exp) fun x _ => by simp [RVTransform.exp]] at h
  · have h := (C51_transformed_mass (C49_interval hab) (C50_interval hab) hlp h0).1
    rwa [hmap h0 (g := fun x => Real.log ((x - a) / (b - x))) fun x hx => by
      have h1 := sub_pos.2 hx.1
      have h2 := sub_pos.2 hx.2
      simp [RVTransform.interval, log_fin_pos h1, log_fin_pos h2, Real.log_div h1.ne' h2.ne']] at h
  · have h := (C51_transformed_mass (C49_interval_lower a) (C50_interval_lower a) hlp h0).1
    rwa [hmap h0 (g := fun x => Real.log (x - a)) fun x hx => by simp [RVTransform.interval, log_fin_pos (sub_pos.2 hx)]] at h
  · have h := (C51_transformed_mass (C49_interval_upper b) (C50_interval_upper b) hlp h0).1
    rwa [hmap h0 (g := fun x => Real.log (b - x)) fun x hx => by simp [RVTransform.interval, log_fin_pos (sub_pos.2 hx)]] at h
  · have h := (C51_transformed_mass C49_logodds C50_logodds hlp h0).1
    rwa [hmap h0 (g := fun x => Real.log (x / (1 - x))) fun x hx => by
      have h2 := sub_pos.2 hx.2
      simp [RVTransform.logodds, div_fin _ h2.ne', log_fin_pos (div_pos hx.1 h2)]] at h
  · have hinv : Inverts .reciprocal (Ioi 0) (Ioi 0) := by
      have h : ∀ x ∈ Ioi (0 : ℝ), FVal.reciprocal (.fin x) = .fin (1 / x) := fun x hx => reciprocal_fin (ne_of_gt hx)
      have key : ∀ x ∈ Ioi (0 : ℝ), ∃ y ∈ Ioi (0 : ℝ), FVal.reciprocal (.fin x) = .fin y ∧ FVal.reciprocal (.fin y) = .fin x := fun x hx => by
        have hx0 : (0 : ℝ) < 1 / x := one_div_pos.2 hx
        exact ⟨1 / x, hx0, h x hx, by rw [h _ hx0, one_div_one_div]⟩
      refine ⟨fun x hx => ?_, fun x hx => ?_⟩ <;>
      · obtain ⟨y, hy, e1, e2⟩ := key x hx
        exact ⟨y, hy, by simp [RVTransform.reciprocal, e1], by simp [RVTransform.reciprocal, e2]⟩
    have h := C51_transformed_density hinv C50_reciprocal_partial measurableSet_Ioi (hlp.on h0)
    rwa [hmap h0 (g := fun x => x⁻¹) fun x hx => by simp [RVTransform.reciprocal, reciprocal_fin (ne_of_gt hx)]] at h
  · have hinv : Inverts .circular (Ioo (-Real.pi) Real.pi) (Ioo (-Real.pi) Real.pi) := by
      have h : ∀ y ∈ Ioo (-Real.pi) Real.pi, RVTransform.circular.backward (.fin y) = .ok (.fin y) := fun y hy => by
        simp [RVTransform.circular, FVal.sin, FVal.cos, FVal.arctan2, arg_circle ⟨hy.1, hy.2.le⟩]
      exact ⟨fun x hx => ⟨x, hx, rfl, h x hx⟩, fun y hy => ⟨y, hy, h y hy, rfl⟩⟩
    have h := C51_transformed_density hinv C50_circular measurableSet_Ioo (hlp.on h0)
    have e : (fun x => realOf (RVTransform.circular.forward (.fin x))) = id := rfl
    rwa [e, Measure.map_id] at h

/-- A log-normal variable under the log transform. -/
example : IsLogDensity (fun y => transformedLogprob .log (fun v => lognormalLogprob v (.fin 0) (.fin 1)) true (.fin y))
    (((ProbabilityTheory.gaussianReal 0 ((1 : ℝ) ^ 2).toNNReal).map Real.exp).map Real.log) := by
  refine (C51_each_transform_partial (C15_lognormal 0 one_pos).1).2.2.1 ?_
  rw [Measure.map_apply Real.measurable_exp measurableSet_Ioi.compl]
  refine measure_mono_null (fun x hx => ?_) (measure_empty (μ := ProbabilityTheory.gaussianReal 0 ((1 : ℝ) ^ 2).toNNReal))
  exact hx (Real.exp_pos x)

/-- **C51**, without the Jacobian term (`use_jacobian=False`) the result is the base log-probability at the back-transformed value. -/
theorem C51_without_jacobian (t : RVTransform) (lp : FVal → Except Err FVal) (v : FVal) :
    transformedLogprob t lp false v = t.backward v >>= lp := by
  simp only [transformedLogprob, bind, Except.bind]
  cases t.backward v with
  | error e => rfl
  | ok x => simp only; cases lp x <;> rfl

/-- **C51** fails for the circular transform when the transformed value ranges over the whole real line: the transformed log-probability is
periodic, so its total mass is infinite for every base density that gives `(-π, π)` positive mass. -/
theorem C51_circular_infinite_mass {lp : FVal → Except Err FVal} {μ : Measure ℝ} (hlp : IsLogDensity (fun x => lp (.fin x)) μ)
    (hpos : μ (Ioo (-Real.pi) Real.pi) ≠ 0) : ∫⁻ y, dens (transformedLogprob .circular lp true (.fin y)) = ⊤ := by
  have hper : ∀ y (k : ℕ), transformedLogprob .circular lp true (.fin (y + k * (2 * Real.pi))) = transformedLogprob .circular lp true (.fin y) := by
    intro y k
    simp [transformedLogprob, RVTransform.circular, FVal.sin, FVal.cos, Real.sin_add_nat_mul_two_pi, Real.cos_add_nat_mul_two_pi]
  have hbase : ∫⁻ y in Ioo (-Real.pi) Real.pi, dens (transformedLogprob .circular lp true (.fin y)) = μ (Ioo (-Real.pi) Real.pi) := by
    rw [← hlp.law _ measurableSet_Ioo]
    refine setLIntegral_congr_fun measurableSet_Ioo fun y hy => ?_
    obtain ⟨l, hl, hnan⟩ := hlp.clean y
    simp only [transformedLogprob, RVTransform.circular, FVal.sin, FVal.cos, FVal.arctan2, arg_circle ⟨hy.1, hy.2.le⟩, bind, Except.bind, hl, if_true, zero_eq]
    exact (dens_add_fin 0).trans (by simp)
  set f : ℝ → ENNReal := fun y => dens (transformedLogprob .circular lp true (.fin y)) with hf
  have hshift : ∀ k : ℕ, ∫⁻ y in (fun y => y + k * (2 * Real.pi)) '' Ioo (-Real.pi) Real.pi, f y = μ (Ioo (-Real.pi) Real.pi) := by
    intro k
    rw [lintegral_image_eq_lintegral_abs_deriv_mul measurableSet_Ioo (f' := fun _ => 1) (fun y _ => ((hasDerivAt_id' y).add_const _).hasDerivWithinAt)
      (fun a _ b _ h => by simpa using h), ← hbase]
    refine lintegral_congr fun y => ?_
    simp [hf, hper]
  have hdisj : Pairwise fun i j : ℕ => Disjoint ((fun y => y + i * (2 * Real.pi)) '' Ioo (-Real.pi) Real.pi) ((fun y => y + j * (2 * Real.pi)) '' Ioo (-Real.pi) Real.pi) := by
    have key : ∀ i j : ℕ, i < j → Disjoint ((fun y => y + i * (2 * Real.pi)) '' Ioo (-Real.pi) Real.pi) ((fun y => y + j * (2 * Real.pi)) '' Ioo (-Real.pi) Real.pi) := by
      intro i j hij
      rw [Set.disjoint_left]
      rintro _ ⟨a, ha, rfl⟩ ⟨b, hb, h⟩
      have h' : b + j * (2 * Real.pi) = a + i * (2 * Real.pi) := h
      have : (i : ℝ) + 1 ≤ j := by exact_mod_cast hij
      have hpi := Real.pi_pos
      nlinarith [ha.1, ha.2, hb.1, hb.2]
    intro i j hij
    rcases lt_or_gt_of_ne hij with h | h
    · exact key i j h
    · exact (key j i h).symm
  have hmeas : ∀ k : ℕ, MeasurableSet ((fun y => y + k * (2 * Real.pi)) '' Ioo (-Real.pi) Real.pi) := fun k =>
    measurableSet_Ioo.image_of_continuousOn_injOn (by fun_prop) (fun a _ b _ h => by simpa using h)
  refine top_le_iff.1 ?_
  calc ⊤ = ∑' _ : ℕ, μ (Ioo (-Real.pi) Real.pi) := (ENNReal.tsum_const_eq_top_of_ne_zero hpos).symm
    _ = ∑' k : ℕ, ∫⁻ y in (fun y => y + k * (2 * Real.pi)) '' Ioo (-Real.pi) Real.pi, f y := by simp only [hshift]
    _ = ∫⁻ y in ⋃ k : ℕ, (fun y => y + k * (2 * Real.pi)) '' Ioo (-Real.pi) Real.pi, f y := (lintegral_iUnion hmeas hdisj f).symm
    _ ≤ _ := setLIntegral_le_lintegral _ _

example : ∫⁻ y, dens (transformedLogprob .circular (fun v => uniformLogprob v (.fin 0) (.fin 1)) true (.fin y)) = ⊤ := by
  refine C51_circular_infinite_mass (C10_uniform zero_lt_one).1 ?_
  have h : (Icc (0 : ℝ) 1) ⊆ Ioo (-Real.pi) Real.pi := fun x hx => ⟨by linarith [hx.1, Real.pi_pos], by linarith [hx.2, Real.two_le_pi]⟩
  rw [ProbabilityTheory.cond_apply measurableSet_Icc, inter_eq_left.2 h]
  simp

end Verif
