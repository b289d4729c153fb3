import Verif.Spec.Censoring
import Verif.Lemmas.Density
import Verif.Props.Cdf
import Verif.Props.Dist1
import Mathlib.MeasureTheory.Integral.Lebesgue.Countable

/-! # C59-C61: clipping and rounding -/

namespace Verif
open MeasureTheory ENNReal Set FVal

/-- `log1mexp` of the log of a probability is the log of the complementary probability. -/
theorem log1mexp_prob {v : FVal} (hv : v ≠ nan) {p : ℝ≥0∞} (hp : v.toDens = p) (h1 : p ≤ 1) :
    log1mexp v ≠ nan ∧ (log1mexp v).toDens = 1 - p := by
  have hx : ∃ y : ℝ, 0 ≤ y ∧ p = ENNReal.ofReal y ∧ FVal.exp v = fin y := by
    cases v with
    | nan => exact absurd rfl hv
    | ninf => exact ⟨0, le_refl _, by simpa using hp.symm, rfl⟩
    | pinf => rw [← hp] at h1; simp at h1
    | fin x => exact ⟨Real.exp x, (Real.exp_pos x).le, hp.symm, rfl⟩
  obtain ⟨y, hy0, rfl, he⟩ := hx
  have hy1 : y ≤ 1 := ENNReal.ofReal_le_one.mp h1
  have e : log1mexp v = FVal.log (fin (1 - y)) := by simp [log1mexp, he]
  have hnn : 0 ≤ 1 - y := by linarith
  rw [e]
  obtain ⟨w, hw, hwn⟩ := clean_log_nonneg hnn
  constructor
  · cases hw; exact hwn
  · have := dens_log_nonneg hnn
    rw [dens_ok] at this
    rw [this, ENNReal.ofReal_sub _ hy0, ENNReal.ofReal_one]

/-- What `clip_logprob` evaluates to. -/
theorem measurableClip_eval {isInt : Bool} {lp lc : FVal → Except Err FVal} {l u : ClipArg} {lo hi : Option ℝ} (hl : LowerIs l lo)
    (hu : UpperIs u hi) (hb : BoundsLt lo hi) {x : ℝ} {p c : FVal} (hp : lp (fin x) = .ok p) (hc : lc (fin x) = .ok c) :
    measurableClip isInt lp lc l u (fin x) = .ok (
      if lo = some x then c else if ∃ a, lo = some a ∧ x < a then ninf else
      if hi = some x then (if isInt then logaddexp (log1mexp c) p else log1mexp c) else if ∃ b, hi = some b ∧ b < x then ninf else p) := by
  have key : ∀ (L U : Bound), (∀ a, lo = some a → L.value = fin a) → (lo = none → L.value = ninf) → (∀ a, hi = some a → U.value = fin a) →
      (hi = none → U.value = pinf) → clipLogprob isInt lp lc L U (fin x) = .ok (
      if lo = some x then c else if ∃ a, lo = some a ∧ x < a then ninf else
      if hi = some x then (if isInt then logaddexp (log1mexp c) p else log1mexp c) else if ∃ b, hi = some b ∧ b < x then ninf else p) := by
    intro L U h1 h2 h3 h4
    simp only [clipLogprob, hp, hc, bind, Except.bind]
    have hle : le L.value U.value := by
      cases lo with
      | none => rw [h2 rfl]; cases hi with
        | none => rw [h4 rfl]; trivial
        | some b => rw [h3 b rfl]; trivial
      | some a => rw [h1 a rfl]; cases hi with
        | none => rw [h4 rfl]; trivial
        | some b => rw [h3 b rfl]; exact le_of_lt hb
    have : ∀ r : FVal, switch (¬(L.const = true ∧ L.value = ninf) ∧ ¬(U.const = true ∧ U.value.isInf)) (checkParam r [le L.value U.value]) (.ok r) = .ok r := by
      intro r
      unfold switch
      split_ifs
      · exact checkParam_ok ⟨hle, trivial⟩
      · rfl
    rw [this]
    congr 1
    have hU : switch (¬(U.const = true ∧ U.value.isInf)) (switch (eq (fin x) U.value)
        (if isInt then logaddexp (log1mexp c) p else log1mexp c) (switch (gt (fin x) U.value) ninf p)) p =
        if hi = some x then (if isInt then logaddexp (log1mexp c) p else log1mexp c) else if ∃ b, hi = some b ∧ b < x then ninf else p := by
      cases hi with
      | none =>
        have e : ¬ eq (fin x) pinf := fun h => h
        have e' : ¬ gt (fin x) pinf := fun h => h
        simp [h4 rfl, switch, e, e']
      | some b =>
        have e : ¬ (fin b).isInf := by simp [FVal.isInf]
        have e2 : (b = x) = (x = b) := propext ⟨Eq.symm, Eq.symm⟩
        simp [h3 b rfl, switch, e, e2]
    rw [hU]
    cases lo with
    | none =>
      have e : ¬ eq (fin x) ninf := fun h => h
      have e' : ¬ lt (fin x) ninf := fun h => h
      simp [h2 rfl, switch, e, e']
    | some a =>
      have e2 : (a = x) = (x = a) := propext ⟨Eq.symm, Eq.symm⟩
      simp [h1 a rfl, switch, e2]
  unfold measurableClip
  refine key _ _ ?_ ?_ ?_ ?_
  · intro a ha; subst ha; cases l <;> simp_all [LowerIs, ClipArg.bound]
  · intro ha; subst ha; cases l <;> simp_all [LowerIs, ClipArg.bound]
  · intro a ha; subst ha; cases u <;> simp_all [UpperIs, ClipArg.bound]
  · intro ha; subst ha; cases u <;> simp_all [UpperIs, ClipArg.bound]

/-- **C59**: for any base law with a log-density and a log-CDF, and any bounds accepted by the code and not equal to each other (each
constant, symbolic, infinite, or the variable itself), the derived log-probability never raises, is never NaN, and its exponential, as
a density with respect to Lebesgue measure plus a unit atom at each bound, is the law of the clipped variable. -/
theorem C59_clip_partial {lp lc : FVal → Except Err FVal} {μ : Measure ℝ} [IsProbabilityMeasure μ]
    (hlp : IsLogDensity (fun x => lp (fin x)) μ) (hlc : IsLogCdf (fun x => lc (fin x)) μ)
    {l u : ClipArg} {lo hi : Option ℝ} (hl : LowerIs l lo) (hu : UpperIs u hi) (hb : BoundsLt lo hi) :
    (∀ x : ℝ, Clean (measurableClip false lp lc l u (fin x))) ∧
    ∀ s, MeasurableSet s →
      ∫⁻ x in s, dens (measurableClip false lp lc l u (fin x)) ∂(volume + atomAt lo + atomAt hi) = μ.map (clipTo lo hi) s := by
  set f : ℝ → ℝ≥0∞ := fun x => dens (measurableClip false lp lc l u (fin x)) with hf
  -- values
  have hev : ∀ x, ∃ p c, lp (fin x) = .ok p ∧ p ≠ nan ∧ lc (fin x) = .ok c ∧ c ≠ nan ∧ c.toDens = μ (Iic x) := fun x => by
    obtain ⟨p, hp, hpn⟩ := hlp.clean x
    obtain ⟨c, hc, hcn⟩ := hlc.clean x
    refine ⟨p, c, hp, hpn, hc, hcn, ?_⟩
    have := hlc.cdf x
    rwa [hc, dens_ok] at this
  have hin : ∀ x, (∀ a, lo = some a → a < x) → (∀ b, hi = some b → x < b) → f x = dens (lp (fin x)) := by
    intro x h1 h2
    obtain ⟨p, c, hp, -, hc, -, -⟩ := hev x
    simp only [hf]
    rw [measurableClip_eval hl hu hb hp hc, if_neg (fun h => lt_irrefl _ (h1 x h)), if_neg (fun ⟨a, h, h'⟩ => lt_asymm h' (h1 a h)),
      if_neg (fun h => lt_irrefl _ (h2 x h)), if_neg (fun ⟨a, h, h'⟩ => lt_asymm h' (h2 a h)), hp]
  have hlow : ∀ a, lo = some a → f a = μ (Iic a) := by
    intro a ha
    obtain ⟨p, c, hp, -, hc, -, hd⟩ := hev a
    simp only [hf]
    rw [measurableClip_eval hl hu hb hp hc, if_pos ha, dens_ok, hd]
  have hnoatom : ∀ x, μ {x} = 0 := fun x => by
    rw [← hlp.law {x} (measurableSet_singleton x)]
    simp
  have hhigh : ∀ b, hi = some b → f b = μ (Ici b) := by
    intro b hb'
    obtain ⟨p, c, hp, -, hc, hcn, hd⟩ := hev b
    simp only [hf]
    have hlt : ∀ a, lo = some a → a < b := by
      intro a ha; subst ha; subst hb'; exact hb
    rw [measurableClip_eval hl hu hb hp hc, if_neg (fun h => lt_irrefl _ (hlt b h)), if_neg (fun ⟨a, h, h'⟩ => lt_asymm h' (hlt a h)),
      if_pos hb', dens_ok]
    have h1 := (log1mexp_prob hcn hd prob_le_one).2
    simp only [Bool.false_eq_true, if_false]
    rw [h1, ← prob_compl_eq_one_sub measurableSet_Iic, compl_Iic]
    refine le_antisymm (measure_mono Ioi_subset_Ici_self) ?_
    rw [← Ioi_union_left]
    exact (measure_union_le _ _).trans (by simp [hnoatom])
  have hzero : ∀ x, ((∃ a, lo = some a ∧ x < a) ∨ ∃ b, hi = some b ∧ b < x) → f x = 0 := by
    intro x hx
    obtain ⟨p, c, hp, -, hc, hcn, hd⟩ := hev x
    simp only [hf]
    rw [measurableClip_eval hl hu hb hp hc]
    have hord : ∀ a b, lo = some a → hi = some b → a < b := by
      intro a b h1 h2; subst h1; subst h2; exact hb
    rcases hx with ⟨a, ha, hxa⟩ | ⟨b, hb', hxb⟩
    · rw [if_neg, if_pos ⟨a, ha, hxa⟩]
      · rfl
      · rw [ha]; simp; exact hxa.ne'
    · have h0 : ¬ lo = some x := fun h => lt_asymm (hord x b h hb') hxb
      have h2 : ¬ hi = some x := fun h => by rw [hb'] at h; simp at h; exact hxb.ne h
      have h3 : ∃ b, hi = some b ∧ b < x := ⟨b, hb', hxb⟩
      simp only [h0, h2, h3, if_true, if_false, ite_self]
      rfl
  set M : Set ℝ := {x | (∀ a, lo = some a → a < x) ∧ ∀ b, hi = some b → x < b} with hM
  set A : Set ℝ := {x | ∃ a, lo = some a ∧ x ≤ a} with hA
  set B : Set ℝ := {x | ∃ b, hi = some b ∧ b ≤ x} with hB
  have mA : MeasurableSet A := by
    cases lo with
    | none => simp [hA]
    | some a =>
      have : A = Iic a := by ext x; simp [hA]
      exact this ▸ measurableSet_Iic
  have mB : MeasurableSet B := by
    cases hi with
    | none => simp [hB]
    | some a =>
      have : B = Ici a := by ext x; simp [hB]
      exact this ▸ measurableSet_Ici
  have hMc : M = (A ∪ B)ᶜ := by
    ext x; simp only [hM, hA, hB, mem_setOf_eq, mem_compl_iff, mem_union, not_or, not_exists, not_and, not_le]
  have mM : MeasurableSet M := hMc ▸ (mA.union mB).compl
  have hAB : Disjoint A B := by
    rw [Set.disjoint_left]
    rintro x ⟨a, ha, hxa⟩ ⟨b, hb', hxb⟩
    subst ha; subst hb'
    exact absurd (hxb.trans hxa) (not_le.mpr hb)
  have cA : ∀ x ∈ A, ∀ a, lo = some a → clipTo lo hi x = a := by
    rintro x ⟨a', ha', hxa⟩ a ha
    obtain rfl : a' = a := by rw [ha] at ha'; exact (Option.some.inj ha').symm
    cases hi with
    | none => simp [clipTo, ha, hxa]
    | some b =>
      rw [ha] at hb
      have hab : a' < b := hb
      simp [clipTo, ha, max_eq_left hxa, hab.le]
  have cB : ∀ x ∈ B, ∀ b, hi = some b → clipTo lo hi x = b := by
    rintro x ⟨b', hb', hxb⟩ b hb''
    obtain rfl : b' = b := by rw [hb''] at hb'; exact (Option.some.inj hb').symm
    cases lo with
    | none => simp [clipTo, hb'', hxb]
    | some a => simp [clipTo, hb'', hxb]
  have cM : ∀ x ∈ M, clipTo lo hi x = x := by
    rintro x ⟨h1, h2⟩
    cases lo <;> cases hi <;> simp_all [clipTo, le_of_lt]
  have mclip : Measurable (clipTo lo hi) := by
    cases lo <;> cases hi <;> unfold clipTo <;> dsimp only
    · exact measurable_id
    · exact measurable_const.min measurable_id
    · exact measurable_const.max measurable_id
    · exact measurable_const.min (measurable_const.max measurable_id)
  refine ⟨fun x => ?_, fun s hs => ?_⟩
  · obtain ⟨p, c, hp, hpn, hc, hcn, hd⟩ := hev x
    rw [measurableClip_eval hl hu hb hp hc]
    refine ⟨_, rfl, ?_⟩
    have h1 := (log1mexp_prob hcn hd prob_le_one).1
    simp only [Bool.false_eq_true, if_false]
    split_ifs <;> first | assumption | simp
  · rw [Measure.map_apply mclip hs]
    have hvol : ∫⁻ x in s, f x = μ (s ∩ M) := by
      rw [← hlp.law _ (hs.inter mM), inter_comm, ← Measure.restrict_restrict mM, ← lintegral_indicator mM]
      refine lintegral_congr_ae (ae_restrict_of_ae ?_)
      have hall : ∀ c : Option ℝ, ∀ᵐ x : ℝ, c ≠ some x := by
        rintro (_ | c)
        · exact .of_forall (by simp)
        · exact ae_of_forall_ne c fun x hx => by simpa using hx.symm
      filter_upwards [hall lo, hall hi] with x h1 h2
      by_cases hx : x ∈ M
      · rw [indicator_of_mem hx]; exact hin x hx.1 hx.2
      · rw [indicator_of_notMem hx]
        refine hzero x ?_
        rw [hMc, mem_compl_iff, not_not] at hx
        rcases hx with ⟨a, ha, hxa⟩ | ⟨b, hb', hxb⟩
        · exact .inl ⟨a, ha, lt_of_le_of_ne hxa fun h => h1 (h ▸ ha)⟩
        · exact .inr ⟨b, hb', lt_of_le_of_ne hxb fun h => h2 (h ▸ hb')⟩
    have hatom : ∀ (o : Option ℝ) (C : Set ℝ), (∀ a, o = some a → f a = μ C) → (o = none → C = ∅) →
        (∀ x ∈ C, ∀ a, o = some a → clipTo lo hi x = a) → ∫⁻ x in s, f x ∂(atomAt o) = μ (clipTo lo hi ⁻¹' s ∩ C) := by
      intro o C h1 h2 h3
      cases o with
      | none => simp [atomAt, h2 rfl]
      | some a =>
        classical
        rw [atomAt, setLIntegral_dirac, h1 a rfl]
        split_ifs with ha
        · congr 1
          ext x
          simp only [mem_inter_iff, mem_preimage]
          exact ⟨fun h => ⟨by rw [h3 x h a rfl]; exact ha, h⟩, fun h => h.2⟩
        · symm
          convert measure_empty (μ := μ)
          ext x
          simp only [mem_inter_iff, mem_preimage, mem_empty_iff_false, iff_false, not_and]
          intro h hx
          rw [h3 x hx a rfl] at h
          exact ha h
    have hA' : ∀ a, lo = some a → f a = μ A := fun a ha => by
      rw [hlow a ha]; congr 1; ext x; simp [hA, ha]
    have hB' : ∀ a, hi = some a → f a = μ B := fun a ha => by
      rw [hhigh a ha]; congr 1; ext x; simp [hB, ha]
    rw [Measure.restrict_add, Measure.restrict_add, lintegral_add_measure, lintegral_add_measure, hvol,
      hatom lo A hA' (fun h => by simp [hA, h]) cA, hatom hi B hB' (fun h => by simp [hB, h]) cB]
    have hsM : s ∩ M = clipTo lo hi ⁻¹' s ∩ M := by
      ext x
      simp only [mem_inter_iff, mem_preimage]
      constructor <;> rintro ⟨h1, h2⟩ <;> refine ⟨?_, h2⟩
      · rwa [cM x h2]
      · rwa [cM x h2] at h1
    have mP : MeasurableSet (clipTo lo hi ⁻¹' s) := mclip hs
    rw [hsM, hMc, ← measure_inter_add_diff (clipTo lo hi ⁻¹' s) (mA.union mB), diff_eq, inter_union_distrib_left,
      measure_union (hAB.mono inter_subset_right inter_subset_right) (mP.inter mB)]
    ring

example := C59_clip_partial (lp := fun v => normalLogprob v (fin 1) (fin 2)) (lc := fun v => normalLogcdf v (fin 1) (fin 2)) (C09_normal 1 (σ := 2) (by norm_num)).1 (C43_normal_logcdf 1 (σ := 2) (by norm_num)).1
  (l := .const (fin 0)) (u := .base) (lo := some 0) (hi := none) rfl rfl trivial
example := C59_clip_partial (lp := fun v => normalLogprob v (fin 1) (fin 2)) (lc := fun v => normalLogcdf v (fin 1) (fin 2)) (C09_normal 1 (σ := 2) (by norm_num)).1 (C43_normal_logcdf 1 (σ := 2) (by norm_num)).1
  (l := .sym (fin (-1))) (u := .const (fin 3)) (lo := some (-1)) (hi := some 3) rfl rfl (show (-1 : ℝ) < 3 by norm_num)

/-- **C59, false of the code for equal bounds**: the clipped variable is then constant, yet the derived density of that single value
is `P(X ≤ a)`. -/
theorem C59_equal_bounds_wrong {lp lc : FVal → Except Err FVal} {μ : Measure ℝ} [IsProbabilityMeasure μ]
    (hlp : IsLogDensity (fun x => lp (fin x)) μ) (hlc : IsLogCdf (fun x => lc (fin x)) μ) (a : ℝ) :
    μ.map (clipTo (some a) (some a)) {a} = 1 ∧
    dens (measurableClip false lp lc (.const (fin a)) (.const (fin a)) (fin a)) = μ (Iic a) := by
  constructor
  · have : clipTo (some a) (some a) = fun _ => a := by
      funext x; simp [clipTo]
    rw [this, Measure.map_const]
    simp
  · obtain ⟨p, hp, -⟩ := hlp.clean a
    obtain ⟨c, hc, -⟩ := hlc.clean a
    have hd := hlc.cdf a
    rw [← hd, hc]
    simp only [measurableClip, ClipArg.bound, clipLogprob, hp, hc, bind, Except.bind]
    have e : ¬ (fin a).isInf := by simp [FVal.isInf]
    simp [switch, e, checkParam]

/-- Uniform on `[0, 1]` clipped to `[1/2, 1/2]`: density `1/2` for a value taken with probability one. -/
example : dens (measurableClip false (fun v => uniformLogprob v (fin 0) (fin 1)) (fun v => uniformLogcdf v (fin 0) (fin 1))
    (.const (fin (1 / 2))) (.const (fin (1 / 2))) (fin (1 / 2))) = ENNReal.ofReal (1 / 2) := by
  haveI : IsProbabilityMeasure (ProbabilityTheory.cond volume (Icc (0 : ℝ) 1)) :=
    ProbabilityTheory.cond_isProbabilityMeasure_of_finite (by simp) (by simp)
  rw [(C59_equal_bounds_wrong (lp := fun v => uniformLogprob v (fin 0) (fin 1)) (lc := fun v => uniformLogcdf v (fin 0) (fin 1)) (C10_uniform (a := 0) (b := 1) (by norm_num)).1 (C44_uniform_logcdf (a := 0) (b := 1) (by norm_num)).1 (1 / 2)).2,
    ProbabilityTheory.cond_apply measurableSet_Icc]
  have : Icc (0 : ℝ) 1 ∩ Iic (1 / 2) = Icc 0 (1 / 2) := by
    ext x; simp only [mem_inter_iff, mem_Icc, mem_Iic]
    constructor
    · rintro ⟨⟨h1, h2⟩, h3⟩; exact ⟨h1, h3⟩
    · rintro ⟨h1, h3⟩; exact ⟨⟨h1, by linarith⟩, h3⟩
  rw [this]; simp

/-- **C59, C60**: a lower bound above the upper bound raises, whatever the base variable and the value. -/
theorem C59_crossed_bounds_raise {isInt : Bool} {lp lc : FVal → Except Err FVal} {l u : ClipArg} {a b : ℝ} (hl : LowerIs l (some a))
    (hu : UpperIs u (some b)) (hab : b < a) {x : FVal} (hp : Clean (lp x)) (hc : Clean (lc x)) :
    measurableClip isInt lp lc l u x = .error .parameterValue := by
  obtain ⟨p, hp, -⟩ := hp
  obtain ⟨c, hc, -⟩ := hc
  have h1 : (l.bound ninf).value = fin a := by cases l <;> simp_all [LowerIs, ClipArg.bound]
  have h2 : (u.bound pinf).value = fin b := by cases u <;> simp_all [UpperIs, ClipArg.bound]
  have e : ¬ (fin b).isInf := by simp [FVal.isInf]
  simp only [measurableClip, clipLogprob, hp, hc, bind, Except.bind, h1, h2]
  simp [switch, e, checkParam, hab]

example := C59_crossed_bounds_raise (isInt := false) (lp := fun v => normalLogprob v (fin 1) (fin 2))
  (lc := fun v => normalLogcdf v (fin 1) (fin 2)) (l := .const (fin 1)) (u := .sym (fin 0)) (a := 1) (b := 0) rfl rfl (by norm_num) (x := fin 5)
  ((C09_normal 1 (σ := 2) (by norm_num)).1.clean 5) ((C43_normal_logcdf 1 (σ := 2) (by norm_num)).1.clean 5)

/-! ### Discrete variables -/

theorem logaddexp_dens {x y : FVal} (hx : x ≠ nan) (hy : y ≠ nan) :
    logaddexp x y ≠ nan ∧ (logaddexp x y).toDens = x.toDens + y.toDens := by
  have key : ∀ z : FVal, z ≠ nan → exp z = pinf ∧ z.toDens = ⊤ ∨ ∃ r : ℝ, 0 ≤ r ∧ exp z = fin r ∧ z.toDens = ENNReal.ofReal r := by
    intro z hz
    cases z with
    | nan => exact absurd rfl hz
    | pinf => exact .inl ⟨rfl, rfl⟩
    | ninf => exact .inr ⟨0, le_rfl, rfl, by simp⟩
    | fin r => exact .inr ⟨Real.exp r, (Real.exp_pos r).le, rfl, rfl⟩
  have hlp : log pinf = pinf := rfl
  rcases key x hx with ⟨h1, h2⟩ | ⟨r, hr, h1, h2⟩ <;> rcases key y hy with ⟨h3, h4⟩ | ⟨r', hr', h3, h4⟩
  · simp [logaddexp, h1, h2, h3, h4, hlp]
  · simp [logaddexp, h1, h2, h3, h4, hlp]
  · simp [logaddexp, h1, h2, h3, h4, hlp]
  · have h := dens_log_nonneg (add_nonneg hr hr')
    obtain ⟨w, hw, hwn⟩ := clean_log_nonneg (add_nonneg hr hr')
    rw [dens_ok] at h
    simp only [logaddexp, h1, h2, h3, h4, add_fin]
    refine ⟨?_, ?_⟩
    · cases hw; exact hwn
    · rw [h, ENNReal.ofReal_add hr hr']

open Classical in
/-- **C60**: for any base mass function with its log-CDF, and any integer bounds accepted by the code and not equal to each other, the
derived log-probability of every integer `k` is the log of `P(clip(X, a, b) = k)`; it never raises and is never NaN. -/
theorem C60_clip_discrete_partial {lp lc : FVal → Except Err FVal} {q : ℤ → ℝ} (hq : ∀ k, 0 ≤ q k)
    (hlp : IsLogMass (fun k => lp (fin k)) q) (hlc : ∀ k : ℤ, IsLogSum (lc (fin k)) (fun j => lp (fin j)) k)
    {l u : ClipArg} {lo hi : Option ℤ} (hl : LowerIs l (lo.map (↑))) (hu : UpperIs u (hi.map (↑)))
    (hb : BoundsLt (lo.map (↑)) (hi.map (↑))) (k : ℤ) :
    Clean (measurableClip true lp lc l u (fin k)) ∧
    dens (measurableClip true lp lc l u (fin k)) = clipMass lo hi (fun j => ENNReal.ofReal (q j)) k := by
  obtain ⟨p, hp, hpn⟩ := hlp.clean k
  obtain ⟨⟨c, hc, hcn⟩, hd⟩ := hlc k
  have hpd := hlp.mass k
  simp only [hlp.mass] at hd
  rw [hp, dens_ok] at hpd
  rw [hc, dens_ok] at hd
  have htot : ∑' j, ENNReal.ofReal (q j) = 1 := by
    rw [← ENNReal.ofReal_tsum_of_nonneg hq hlp.total.summable, hlp.total.tsum_eq, ENNReal.ofReal_one]
  have hd' : c.toDens = ∑' j, if j ≤ k then ENNReal.ofReal (q j) else 0 := by
    rw [hd]; congr 1; funext j; simp
  set D := fun j => ENNReal.ofReal (q j) with hD
  have hle : (∑' j, if j ≤ k then D j else 0) ≤ 1 := by
    rw [← htot]; refine ENNReal.tsum_le_tsum fun j => ?_
    split_ifs <;> simp [hD]
  have hup : 1 - (∑' j, if j ≤ k then D j else 0) + D k = ∑' j, if k ≤ j then D j else 0 := by
    have e1 : (1 : ℝ≥0∞) = (∑' j, if j ≤ k then D j else 0) + ∑' j, if k < j then D j else 0 := by
      rw [← ENNReal.tsum_add, ← htot]; congr 1; funext j
      by_cases h : j ≤ k
      · simp [h, not_lt.mpr h, hD]
      · simp [h, not_le.mp h, hD]
    have e2 : D k = ∑' j, if j = k then D j else 0 := by rw [tsum_ite_eq]
    conv_lhs => rw [e1]
    rw [ENNReal.add_sub_cancel_left (hle.trans_lt one_lt_top).ne, e2, ← ENNReal.tsum_add]
    congr 1; funext j
    rcases lt_trichotomy j k with h | h | h
    · simp [h.ne, not_lt.mpr h.le, not_le.mpr h]
    · simp [h]
    · simp [h.ne', h, h.le]
  rw [measurableClip_eval hl hu hb hp hc]
  obtain ⟨hm1, hm2⟩ := log1mexp_prob hcn hd' hle
  obtain ⟨ha1, ha2⟩ := logaddexp_dens hm1 hpn
  rw [hm2, hpd, hup] at ha2
  refine ⟨⟨_, rfl, by simp only [if_true]; split_ifs <;> first | assumption | simp⟩, ?_⟩
  rw [dens_ok, clipMass]
  simp only [if_true]
  have hone : p.toDens = ∑' j, if j = k then D j else 0 := by rw [hpd, tsum_ite_eq]
  have hz : (0 : ℝ≥0∞) = ∑' j : ℤ, if False then D j else 0 := by simp
  have hzn : ninf.toDens = ∑' j : ℤ, if False then D j else 0 := by simp
  cases lo with
  | none =>
    cases hi with
    | none =>
      simp only [Option.map_none, reduceCtorEq, false_and, exists_false, if_false, clipTo, Int.cast_inj]
      exact hone
    | some b =>
      simp only [Option.map_none, Option.map_some, reduceCtorEq, false_and, exists_false, if_false, clipTo, Option.some.injEq,
        exists_eq_left', Int.cast_inj, Int.cast_lt]
      have e : ∀ j : ℤ, (min (b : ℝ) j = k) = (min b j = k) := fun j => propext (by norm_cast)
      simp only [e]
      split_ifs with h1 h2
      · rw [ha2]; congr 1; funext j; congr 1; rw [h1]; simp
      · rw [hzn]; congr 1; funext j; congr 1; simp; omega
      · rw [hone]; congr 1; funext j; congr 1; simp; omega
  | some a =>
    cases hi with
    | none =>
      simp only [Option.map_none, Option.map_some, reduceCtorEq, false_and, exists_false, if_false, clipTo, Option.some.injEq,
        exists_eq_left', Int.cast_inj, Int.cast_lt]
      have e : ∀ j : ℤ, (max (a : ℝ) j = k) = (max a j = k) := fun j => propext (by norm_cast)
      simp only [e]
      split_ifs with h1 h2
      · rw [hd']; congr 1; funext j; congr 1; rw [h1]; simp
      · rw [hzn]; congr 1; funext j; congr 1; simp; omega
      · rw [hone]; congr 1; funext j; congr 1; simp; omega
    | some b =>
      have hab : a < b := by
        have : (a : ℝ) < b := hb
        exact_mod_cast this
      simp only [Option.map_some, clipTo, Option.some.injEq, exists_eq_left', Int.cast_inj, Int.cast_lt]
      have e : ∀ j : ℤ, (min (b : ℝ) (max (a : ℝ) j) = k) = (min b (max a j) = k) := fun j => propext (by norm_cast)
      simp only [e]
      split_ifs with h1 h2 h3 h4
      · rw [hd']; congr 1; funext j; congr 1; simp; omega
      · rw [hzn]; congr 1; funext j; congr 1; simp; omega
      · rw [ha2]; congr 1; funext j; congr 1; simp; omega
      · rw [hzn]; congr 1; funext j; congr 1; simp; omega
      · rw [hone]; congr 1; funext j; congr 1; simp; omega

example := C60_clip_discrete_partial (lp := fun v => poissonLogprob v (fin 2)) (lc := fun v => poissonLogcdf v (fin 2))
  (fun k => by simp only [onNat]; split_ifs; · unfold poissonMass; positivity
               · exact le_rfl) (C31_poisson (μ := 2) (by norm_num))
  (fun k => C45_poisson_logcdf (μ := 2) (by norm_num) k) (l := .const (fin 1)) (u := .sym (fin 4)) (lo := some 1) (hi := some 4)
  (by simp [LowerIs]) (by simp [UpperIs]) (by simp [BoundsLt]) 4

open Classical in
/-- **C60, false of the code for equal bounds**: the clipped variable is constant, but the derived mass of its value is `P(X ≤ a)`. -/
theorem C60_equal_bounds_wrong {lp lc : FVal → Except Err FVal} {q : ℤ → ℝ} (hq : ∀ k, 0 ≤ q k)
    (hlp : IsLogMass (fun k => lp (fin k)) q) (hlc : ∀ k : ℤ, IsLogSum (lc (fin k)) (fun j => lp (fin j)) k) (a : ℤ) :
    clipMass (some a) (some a) (fun j => ENNReal.ofReal (q j)) a = 1 ∧
    dens (measurableClip true lp lc (.const (fin a)) (.const (fin a)) (fin a)) = ∑' j, if j ≤ a then ENNReal.ofReal (q j) else 0 := by
  constructor
  · simp only [clipMass, clipTo, Option.map_some, inf_sup_self, if_true]
    rw [← ENNReal.ofReal_tsum_of_nonneg hq hlp.total.summable, hlp.total.tsum_eq, ENNReal.ofReal_one]
  · obtain ⟨p, hp, hpn⟩ := hlp.clean a
    obtain ⟨⟨c, hc, hcn⟩, hd⟩ := hlc a
    simp only [hlp.mass, Int.cast_le] at hd
    rw [← hd, hc]
    simp only [measurableClip, ClipArg.bound, clipLogprob, hp, hc, bind, Except.bind]
    have e : ¬ (fin (a : ℝ)).isInf := by simp [FVal.isInf]
    simp [switch, e, checkParam]

/-! ### Rounding -/

/-- `logdiffexp` of two log-probabilities is the log of the difference, provided the first is not `-inf`. -/
theorem logdiffexp_dens {a b : FVal} {p q : ℝ≥0∞} (ha : a ≠ nan) (hb : b ≠ nan) (hp : a.toDens = p) (hq : b.toDens = q) (h0 : p ≠ 0)
    (h1 : p ≤ 1) (hqp : q ≤ p) : logdiffexp a b ≠ nan ∧ (logdiffexp a b).toDens = p - q := by
  cases a with
  | nan => exact absurd rfl ha
  | ninf => exact absurd hp.symm h0
  | pinf => rw [← hp] at h1; simp at h1
  | fin x =>
    subst hp hq
    have hx := Real.exp_pos x
    cases b with
    | nan => exact absurd rfl hb
    | pinf => simp at hqp
    | ninf =>
      have : logdiffexp (fin x) ninf = fin x := by
        simp [logdiffexp, log1mexp, log_fin_pos one_pos]
      rw [this]; simp
    | fin y =>
      have hyx : y ≤ x := by
        simp only [toDens_fin] at hqp
        rwa [ENNReal.ofReal_le_ofReal_iff hx.le, Real.exp_le_exp] at hqp
      have e : logdiffexp (fin x) (fin y) = log (fin (Real.exp x - Real.exp y)) := by
        simp only [logdiffexp, log1mexp, sub_fin, exp_fin, one_eq]
        rcases hyx.eq_or_lt with h | h
        · subst h; simp
        · have : 0 < 1 - Real.exp (y - x) := by
            have : Real.exp (y - x) < 1 := by rw [← Real.exp_zero]; exact Real.exp_lt_exp.mpr (by linarith)
            linarith
          have h' : 0 < Real.exp x - Real.exp y := sub_pos.mpr (Real.exp_lt_exp.mpr h)
          rw [log_fin_pos this, log_fin_pos h', add_fin]
          congr 1
          have e : Real.exp x - Real.exp y = Real.exp x * (1 - Real.exp (y - x)) := by
            rw [mul_sub, ← Real.exp_add]; ring_nf
          rw [e, Real.log_mul hx.ne' this.ne', Real.log_exp]
      have hnn : 0 ≤ Real.exp x - Real.exp y := sub_nonneg.mpr (Real.exp_le_exp.mpr hyx)
      rw [e]
      obtain ⟨w, hw, hwn⟩ := clean_log_nonneg hnn
      have h := dens_log_nonneg hnn
      rw [dens_ok] at h
      refine ⟨by cases hw; exact hwn, ?_⟩
      rw [h, ENNReal.ofReal_sub _ (Real.exp_pos y).le]; rfl

theorem rint_int (k : ℤ) : rint (k : ℝ) = k := by simp [rint]

/-- The two ends of the interval of numbers rounded to `k`. -/
noncomputable def roundEnds (op : RoundOp) (k : ℤ) : ℝ × ℝ :=
  match op with
  | .halfToEven => (k - 1 / 2, k + 1 / 2)
  | .floor => (k, k + 1)
  | .ceil => (k - 1, k)

theorem roundEdges_int (op : RoundOp) (k : ℤ) :
    roundEdges op (fin k) = (fin (roundEnds op k).2, fin (roundEnds op k).1) := by
  cases op <;> simp [roundEdges, roundEnds, FVal.round, FVal.floor, FVal.ceil, rint_int]

theorem roundsTo_measure (op : RoundOp) (k : ℤ) (μ : Measure ℝ) [NullSingletonClass μ] :
    μ (roundsTo op k) = μ (Ioc (roundEnds op k).1 (roundEnds op k).2) := by
  cases op with
  | halfToEven =>
    have h1 : Ioo ((k : ℝ) - 1 / 2) (k + 1 / 2) ⊆ roundsTo .halfToEven k := by
      rintro x ⟨h1, h2⟩
      have : |x - k| < 1 / 2 := abs_lt.mpr ⟨by linarith, by linarith⟩
      exact ⟨this.le, fun h => absurd h this.ne⟩
    have h2 : roundsTo .halfToEven k ⊆ Icc ((k : ℝ) - 1 / 2) (k + 1 / 2) := by
      rintro x ⟨h1, -⟩
      rw [abs_le] at h1
      exact ⟨by linarith [h1.1], by linarith [h1.2]⟩
    refine le_antisymm ((measure_mono h2).trans (le_of_eq ?_)) ((le_of_eq ?_).trans (measure_mono h1))
    · exact measure_congr Ioc_ae_eq_Icc.symm
    · exact measure_congr Ioo_ae_eq_Ioc.symm
  | floor => exact measure_congr (Ico_ae_eq_Ioc (a := (k : ℝ)) (b := k + 1))
  | ceil => rfl

/-- **C61**: for every law without atoms, given its log-CDF, the derived log-probability of `round`, `floor` and `ceil` at every integer
`k` that is not below the support is the log of the probability that the variable rounds to `k`; it never raises and is never NaN.
Missing from the full claim: `0` at non-integer values (`C61_noninteger_wrong`) and below the support (`C61_below_support_nan`). -/
theorem C61_round_partial {lc : FVal → Except Err FVal} {μ : Measure ℝ} [IsProbabilityMeasure μ] [NullSingletonClass μ]
    (hlc : IsLogCdf (fun x => lc (fin x)) μ) (op : RoundOp) (k : ℤ) (hk : ∃ x ∈ roundsTo op k, μ (Iic x) ≠ 0) :
    Clean (roundLogprob op lc (fin k)) ∧ dens (roundLogprob op lc (fin k)) = μ (roundsTo op k) := by
  set a := (roundEnds op k).1 with ha
  set b := (roundEnds op k).2 with hb
  obtain ⟨u, hu, hun⟩ := hlc.clean b
  obtain ⟨l, hl, hln⟩ := hlc.clean a
  have hu' := hlc.cdf b
  have hl' := hlc.cdf a
  simp only [hu, hl, dens_ok] at hu' hl'
  have hab : a ≤ b := by cases op <;> simp [ha, hb, roundEnds] <;> linarith
  have hpos : μ (Iic b) ≠ 0 := by
    obtain ⟨x, hx, hx'⟩ := hk
    have hxb : x ≤ b := by
      cases op
      · have := (abs_le.mp hx.1).2; simp only [hb, roundEnds]; linarith
      · exact hx.2.le
      · exact hx.2
    exact fun h => hx' (measure_mono_null (Iic_subset_Iic.mpr hxb) h)
  have hm : μ (Iic b) - μ (Iic a) = μ (Ioc a b) := by
    rw [← measure_diff (Iic_subset_Iic.mpr hab) measurableSet_Iic.nullMeasurableSet (measure_ne_top _ _)]
    congr 1
    ext x; simp [and_comm]
  obtain ⟨h1, h2⟩ := logdiffexp_dens hun hln hu' hl' hpos prob_le_one (measure_mono (Iic_subset_Iic.mpr hab))
  have e : roundLogprob op lc (fin k) = .ok (logdiffexp u l) := by
    simp only [roundLogprob, roundEdges_int, ← ha, ← hb, hu, hl, bind, Except.bind]; rfl
  rw [e]
  exact ⟨⟨_, rfl, h1⟩, by rw [dens_ok, h2, hm, roundsTo_measure]⟩

theorem gaussian_ne_zero (μ : ℝ) {σ : ℝ} (hσ : 0 < σ) {s : Set ℝ} (h : volume s ≠ 0) :
    ProbabilityTheory.gaussianReal μ (σ ^ 2).toNNReal s ≠ 0 := fun h' =>
  h (ProbabilityTheory.gaussianReal_absolutelyContinuous' μ (by simpa using hσ.ne') h')

example : dens (roundLogprob .floor (fun v => normalLogcdf v (fin 1) (fin 2)) (fin ((3 : ℤ) : ℝ))) =
    ProbabilityTheory.gaussianReal 1 ((2 : ℝ) ^ 2).toNNReal (roundsTo .floor 3) := by
  haveI := ProbabilityTheory.nullSingletonClass_gaussianReal (μ := 1) (v := ((2 : ℝ) ^ 2).toNNReal) (by simp)
  exact (C61_round_partial (lc := fun v => normalLogcdf v (fin 1) (fin 2)) (C43_normal_logcdf 1 (σ := 2) (by norm_num)).1 .floor 3
    ⟨_, ⟨le_refl _, by simp⟩, gaussian_ne_zero 1 (σ := 2) (by norm_num) (by simp)⟩).2

/-- **C61, false of the code at non-integers**: no number rounds to a non-integer, but the derived log-probability there is the one of the
integer it rounds to. -/
theorem C61_noninteger_wrong (lc : FVal → Except Err FVal) (v : ℝ) :
    roundLogprob .halfToEven lc (fin v) = roundLogprob .halfToEven lc (fin (rint v)) ∧
    roundLogprob .floor lc (fin v) = roundLogprob .floor lc (fin ⌊v⌋) ∧
    roundLogprob .ceil lc (fin v) = roundLogprob .ceil lc (fin ⌈v⌉) := by
  refine ⟨?_, ?_, ?_⟩ <;> simp [roundLogprob, roundEdges, FVal.round, FVal.floor, FVal.ceil, rint_int]

/-- Standard normal, floor: positive mass at `1/2`. -/
example : dens (roundLogprob .floor (fun v => normalLogcdf v (fin 0) (fin 1)) (fin (1 / 2))) ≠ 0 := by
  haveI := ProbabilityTheory.nullSingletonClass_gaussianReal (μ := 0) (v := ((1 : ℝ) ^ 2).toNNReal) (by simp)
  rw [(C61_noninteger_wrong _ _).2.1, (C61_round_partial (lc := fun v => normalLogcdf v (fin 0) (fin 1))
    (C43_normal_logcdf 0 (σ := 1) (by norm_num)).1 .floor _
    ⟨_, ⟨le_refl _, by simp⟩, gaussian_ne_zero 0 (σ := 1) (by norm_num) (by simp)⟩).2]
  refine gaussian_ne_zero 0 (σ := 1) (by norm_num) ?_
  show volume (Ico _ _) ≠ 0
  simp

/-- **C61, false of the code below the support**: where the CDF is still `0` the result is NaN rather than `-inf`. -/
theorem C61_below_support_nan {lc : FVal → Except Err FVal} {μ : Measure ℝ} (hlc : IsLogCdf (fun x => lc (fin x)) μ) (op : RoundOp) (k : ℤ)
    (hk : μ (Iic (k + 1 : ℝ)) = 0) : roundLogprob op lc (fin k) = .ok nan ∧ μ (roundsTo op k) = 0 := by
  have hz : ∀ x : ℝ, x ≤ k + 1 → lc (fin x) = .ok ninf := by
    intro x hx
    obtain ⟨w, hw, hwn⟩ := hlc.clean x
    have h := hlc.cdf x
    rw [measure_mono_null (Iic_subset_Iic.mpr hx) hk, hw, dens_ok] at h
    rw [hw]
    cases w with
    | nan => exact absurd rfl hwn
    | ninf => rfl
    | pinf => simp at h
    | fin y => simp [Real.exp_pos, not_le.mpr (Real.exp_pos y)] at h
  have h1 : (roundEnds op k).1 ≤ k + 1 := by cases op <;> simp [roundEnds] <;> linarith
  have h2 : (roundEnds op k).2 ≤ k + 1 := by cases op <;> simp [roundEnds] <;> linarith
  refine ⟨?_, measure_mono_null ?_ hk⟩
  · simp only [roundLogprob, roundEdges_int, hz _ h1, hz _ h2, bind, Except.bind]
    simp [logdiffexp, log1mexp, pure, Except.pure]
  · intro x hx
    cases op
    · have := (abs_le.mp hx.1).2; simp only [mem_Iic]; linarith
    · exact hx.2.le
    · have := hx.2; simp only [mem_Iic]; linarith

/-- Uniform on `[0, 1]` at `-3`. -/
example : roundLogprob .ceil (fun v => uniformLogcdf v (fin 0) (fin 1)) (fin ((-3 : ℤ) : ℝ)) = .ok nan :=
  (C61_below_support_nan (lc := fun v => uniformLogcdf v (fin 0) (fin 1)) (C44_uniform_logcdf (a := 0) (b := 1) (by norm_num)).1 .ceil (-3)
    (by
      rw [ProbabilityTheory.cond_apply measurableSet_Icc]
      have : Icc (0 : ℝ) 1 ∩ Iic (((-3 : ℤ) : ℝ) + 1) = ∅ := by
        ext x; simp only [mem_inter_iff, mem_Icc, mem_Iic, mem_empty_iff_false, iff_false]
        rintro ⟨⟨h, -⟩, h'⟩; push_cast at h'; linarith
      rw [this]; simp)).1

end Verif
