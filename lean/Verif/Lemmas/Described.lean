import Verif.Props.Atoms
import Verif.Spec.FullDensity
import Mathlib.MeasureTheory.Function.Jacobian

/-! # Expectations as integrals against a log-density, for integrands that need not be measurable -/

namespace Verif
open MeasureTheory Set FVal

/-- The expectation `E` of functions of a variable is integration against `exp (f y)` over `R`, with respect to `ref`. -/
structure Described (E : (ℝ → ENNReal) → ENNReal) (ref : Measure ℝ) (R : Set ℝ) (f : ℝ → Except Err FVal) : Prop where
  set : MeasurableSet R
  clean : ∀ y ∈ R, Clean (f y)
  fin : ∀ y ∈ R, dens (f y) ≠ ⊤
  eq : ∀ G, E G = ∫⁻ y in R, dens (f y) * G y ∂ref

theorem Described.congr {E E' : (ℝ → ENNReal) → ENNReal} {ref : Measure ℝ} {R : Set ℝ} {f f' : ℝ → Except Err FVal} (h : Described E ref R f) (hE : ∀ G, E' G = E G)
    (hf : ∀ y ∈ R, f' y = f y) : Described E' ref R f' where
  set := h.set
  clean y hy := by rw [hf y hy]; exact h.clean y hy
  fin y hy := by rw [hf y hy]; exact h.fin y hy
  eq G := by
    rw [hE, h.eq]
    exact setLIntegral_congr_fun h.set fun y hy => by rw [hf y hy]

theorem Described.congr_fn {E : (ℝ → ENNReal) → ENNReal} {ref : Measure ℝ} {R : Set ℝ} {f : ℝ → Except Err FVal} (h : Described E ref R f) {G G' : ℝ → ENNReal} (hG : ∀ y ∈ R, G y = G' y) :
    E G = E G' := by
  rw [h.eq, h.eq]
  exact setLIntegral_congr_fun h.set fun y hy => by rw [hG y hy]

/-- A law with a density. -/
theorem described_law {kernel : FVal → List FVal → Except Err FVal} {law : List FVal → Measure ℝ} {ref : Measure ℝ} {supp : List FVal → Set ℝ} {p : List FVal}
    (h : IR.GoodOn kernel law ref supp p) (hfin : ∀ x ∈ supp p, dens (kernel (.fin x) p) ≠ ⊤) :
    Described (fun G => ∫⁻ x, G x ∂(law p)) ref (supp p) fun x => kernel (.fin x) p where
  set := h.set
  clean := h.clean
  fin := hfin
  eq G := by
    have hf : ∀ᵐ y ∂ref, (supp p).indicator (fun x => dens (kernel (.fin x) p)) y < ⊤ := by
      refine Filter.Eventually.of_forall fun y => ?_
      by_cases hy : y ∈ supp p
      · rw [indicator_of_mem hy]; exact lt_top_iff_ne_top.2 (hfin y hy)
      · rw [indicator_of_notMem hy]; exact ENNReal.zero_lt_top
    show ∫⁻ x, G x ∂(law p) = _
    rw [h.dens, lintegral_withDensity_eq_lintegral_mul_non_measurable _ h.meas hf, ← lintegral_indicator h.set]
    refine lintegral_congr fun y => ?_
    show (supp p).indicator (fun x => dens (kernel (.fin x) p)) y * G y = (supp p).indicator (fun x => dens (kernel (.fin x) p) * G x) y
    by_cases hy : y ∈ supp p
    · rw [indicator_of_mem hy, indicator_of_mem hy]
    · rw [indicator_of_notMem hy, indicator_of_notMem hy, zero_mul]

theorem goodOn_null {kernel : FVal → List FVal → Except Err FVal} {law : List FVal → Measure ℝ} {ref : Measure ℝ} {supp : List FVal → Set ℝ} {p : List FVal}
    (h : IR.GoodOn kernel law ref supp p) : law p (supp p)ᶜ = 0 := by
  rw [h.dens, withDensity_apply _ h.set.compl, setLIntegral_indicator h.set]
  simp

/-- An invertible function; where there are atoms it must have slope `1` or `-1`. -/
theorem Described.map {E : (ℝ → ENNReal) → ENNReal} {c : Bool} {S D : Set ℝ} {lp : FVal → Except Err FVal} (h : Described E (mixedRef c S) D fun x => lp (.fin x)) (hS : S.Countable)
    {ts : List RVTransform} {g : ℝ → ℝ} (hat : AtOk ts g D) (hinj : InjOn g D) (hcont : ContinuousOn g D) (hu : S = ∅ ∨ ((∀ x ∈ D, |deriv g x| = 1) ∧ Function.Injective g)) :
    Described (fun G => E fun x => G (g x)) (mixedRef c (g '' S)) (g '' D) fun y => layersLogprob ts lp (.fin y) := by
  have hval : ∀ x ∈ D, Clean (layersLogprob ts lp (.fin (g x))) ∧ HasDerivAt g (deriv g x) x ∧
      dens (layersLogprob ts lp (.fin (g x))) = dens (lp (.fin x)) * ENNReal.ofReal (1 / |deriv g x|) ∧ deriv g x ≠ 0 := by
    intro x hx
    obtain ⟨d, a1, a2, a3⟩ := hat x hx
    obtain ⟨v, hv, hvn⟩ := h.clean x hx
    rw [a1.deriv, a3 lp v hv, hv]
    refine ⟨⟨_, rfl, ?_⟩, a1, dens_shift a2, a2⟩
    cases v <;> simp_all
  have hR : MeasurableSet (g '' D) := h.set.image_of_continuousOn_injOn hcont hinj
  refine ⟨hR, ?_, ?_, fun G => ?_⟩
  · rintro _ ⟨x, hx, rfl⟩
    exact (hval x hx).1
  · rintro _ ⟨x, hx, rfl⟩
    rw [(hval x hx).2.2.1]
    exact ENNReal.mul_ne_top (h.fin x hx) ENNReal.ofReal_ne_top
  · show E (fun x => G (g x)) = _
    rw [h.eq, mixedRef, mixedRef, Measure.restrict_add, Measure.restrict_add, lintegral_add_measure, lintegral_add_measure]
    congr 1
    · cases c
      · simp
      · simp only [if_true]
        rw [lintegral_image_eq_lintegral_abs_deriv_mul h.set (fun x hx => ((hval x hx).2.1).hasDerivWithinAt) hinj]
        refine setLIntegral_congr_fun h.set fun x hx => ?_
        obtain ⟨-, -, h3, h4⟩ := hval x hx
        have : ENNReal.ofReal |deriv g x| * ENNReal.ofReal (1 / |deriv g x|) = 1 := by
          rw [← ENNReal.ofReal_mul (abs_nonneg _), mul_one_div, div_self (abs_ne_zero.2 h4), ENNReal.ofReal_one]
        show dens (lp (.fin x)) * G (g x) = _
        rw [h3]
        calc dens (lp (.fin x)) * G (g x) = (ENNReal.ofReal |deriv g x| * ENNReal.ofReal (1 / |deriv g x|)) * (dens (lp (.fin x)) * G (g x)) := by rw [this, one_mul]
          _ = _ := by ring
    · rcases hu with rfl | ⟨hu, hi⟩
      · simp [atomsOn]
      · rw [lintegral_atomsOn _ _ (hS.image g) hR, lintegral_atomsOn _ _ hS h.set, ← image_inter hi, tsum_image (fun y => dens (layersLogprob ts lp (.fin y)) * G y) hi.injOn]
        refine tsum_congr fun a => ?_
        obtain ⟨a, ha, haS⟩ := a
        obtain ⟨-, -, h3, h4⟩ := hval a ha
        show dens (lp (.fin a)) * G (g a) = dens (layersLogprob ts lp (.fin (g a))) * G (g a)
        rw [h3, hu a ha]
        simp


theorem integers_countable : integers.Countable := countable_range _

/-- Integrals over a set of integers. -/
theorem lintegral_integers {R : Set ℝ} (hR : MeasurableSet R) (g : ℝ → ENNReal) : ∫⁻ y in R, g y ∂(mixedRef false integers) = ∑' k : ℤ, R.indicator g (k : ℝ) := by
  have hS := integers_countable
  rw [mixedRef]
  simp only [Bool.false_eq_true, if_false, zero_add]
  rw [← lintegral_indicator hR]
  have := lintegral_atomsOn integers univ hS MeasurableSet.univ (R.indicator g)
  rw [Measure.restrict_univ, univ_inter] at this
  rw [this, integers, ← image_univ, tsum_image (R.indicator g) (Int.cast_injective.injOn), tsum_univ fun k : ℤ => R.indicator g (k : ℝ)]

/-- An integer variable with masses `w`. -/
theorem described_int {E : (ℝ → ENNReal) → ENNReal} {w : ℤ → ENNReal} (hE : ∀ G, E G = ∑' k : ℤ, w k * G k) {R : Set ℝ} (hRi : R ⊆ integers) {f : ℝ → Except Err FVal}
    (hin : ∀ k : ℤ, (k : ℝ) ∈ R → Clean (f k) ∧ dens (f k) = w k) (hout : ∀ k : ℤ, (k : ℝ) ∉ R → w k = 0) (hw : ∀ k, w k ≠ ⊤) : Described E (mixedRef false integers) R f where
  set := (integers_countable.mono hRi).measurableSet
  clean y hy := by
    obtain ⟨k, rfl⟩ := hRi hy
    exact (hin k hy).1
  fin y hy := by
    obtain ⟨k, rfl⟩ := hRi hy
    rw [(hin k hy).2]
    exact hw k
  eq G := by
    rw [hE, lintegral_integers (integers_countable.mono hRi).measurableSet]
    refine tsum_congr fun k => ?_
    by_cases hk : (k : ℝ) ∈ R
    · rw [indicator_of_mem hk, (hin k hk).2]
    · rw [indicator_of_notMem hk, hout k hk, zero_mul]

/-! ## Rounding -/

theorem roundsTo_disjoint (r : RoundOp) {k k' : ℤ} {x : ℝ} (h : x ∈ roundsTo r k) (h' : x ∈ roundsTo r k') : k = k' := by
  cases r with
  | floor =>
    obtain ⟨h1, h2⟩ := h
    obtain ⟨h3, h4⟩ := h'
    have a : (k : ℝ) < k' + 1 := by linarith
    have b : (k' : ℝ) < k + 1 := by linarith
    norm_cast at a b
    omega
  | ceil =>
    obtain ⟨h1, h2⟩ := h
    obtain ⟨h3, h4⟩ := h'
    have a : (k : ℝ) - 1 < k' := by linarith
    have b : (k' : ℝ) - 1 < k := by linarith
    norm_cast at a b
    omega
  | halfToEven =>
    obtain ⟨h1, h2⟩ := h
    obtain ⟨h3, h4⟩ := h'
    rw [abs_le] at h1 h3
    have a : (k : ℝ) ≤ k' + 1 := by linarith
    have b : (k' : ℝ) ≤ k + 1 := by linarith
    by_contra hne
    norm_cast at a b
    have hcase : k' = k + 1 ∨ k = k' + 1 := by omega
    have key : |x - k| = 1 / 2 ∧ |x - k'| = 1 / 2 := by
      rcases hcase with rfl | rfl
      · push_cast at *
        have : x - k = 1 / 2 := by linarith
        rw [this, show x - (k + 1) = -(1 / 2) by linarith, abs_neg]
        norm_num
      · push_cast at *
        have : x - k' = 1 / 2 := by linarith
        rw [this, show x - (k' + 1) = -(1 / 2) by linarith, abs_neg]
        norm_num
    obtain ⟨m, hm⟩ := h2 key.1
    obtain ⟨m', hm'⟩ := h4 key.2
    omega

/-- The value computed by rounding. -/
theorem round_value (r : RoundOp) (x : ℝ) : ∃ k : ℤ, Full.roundEval r (.fin x) = .fin k ∧ x ∈ roundsTo r k := by
  cases r with
  | floor => exact ⟨⌊x⌋, by simp [Full.roundEval, FVal.floor], Int.floor_le x, Int.lt_floor_add_one x⟩
  | ceil => exact ⟨⌈x⌉, by simp [Full.roundEval, FVal.ceil], by linarith [Int.ceil_lt_add_one x], Int.le_ceil x⟩
  | halfToEven =>
    refine ⟨rint x, rfl, ?_⟩
    have h1 := Int.floor_le x
    have h2 := Int.lt_floor_add_one x
    show |x - rint x| ≤ 1 / 2 ∧ (|x - rint x| = 1 / 2 → Even (rint x))
    unfold rint
    split_ifs with a b c
    · rw [abs_of_nonneg (by linarith)]
      exact ⟨a.le, fun h => absurd h a.ne⟩
    · push_cast
      rw [abs_of_neg (by linarith)]
      exact ⟨by linarith, fun h => by linarith⟩
    · rw [abs_of_nonneg (by linarith)]
      exact ⟨not_lt.1 b, fun _ => Int.even_iff.2 c⟩
    · push_cast
      rw [abs_of_nonpos (by linarith)]
      exact ⟨by linarith, fun _ => Int.even_iff.2 (by omega)⟩

theorem roundsTo_measurable (r : RoundOp) (k : ℤ) : MeasurableSet (roundsTo r k) := by
  cases r with
  | floor => exact measurableSet_Ico
  | ceil => exact measurableSet_Ioc
  | halfToEven =>
    have : roundsTo .halfToEven k = {x : ℝ | |x - k| ≤ 1 / 2} ∩ ({x : ℝ | |x - k| = 1 / 2}ᶜ ∪ {_x : ℝ | Even k}) := by
      ext x
      simp only [roundsTo, NearestEven, mem_setOf_eq, mem_inter_iff, mem_union, mem_compl_iff]
      tauto
    rw [this]
    refine MeasurableSet.inter (measurableSet_le (by fun_prop) (by fun_prop)) (MeasurableSet.union (measurableSet_eq_fun (by fun_prop) (by fun_prop)).compl ?_)
    exact MeasurableSet.const _

/-- The number that `x` is rounded to. -/
noncomputable def roundTo (r : RoundOp) (x : ℝ) : ℤ := (round_value r x).choose

theorem roundTo_eval (r : RoundOp) (x : ℝ) : Full.roundEval r (.fin x) = .fin (roundTo r x) := (round_value r x).choose_spec.1

theorem roundTo_mem (r : RoundOp) (x : ℝ) : x ∈ roundsTo r (roundTo r x) := (round_value r x).choose_spec.2

theorem lintegral_round (μ : Measure ℝ) (r : RoundOp) (G : ℝ → ENNReal) : ∫⁻ x, G (roundTo r x) ∂μ = ∑' k : ℤ, μ (roundsTo r k) * G k := by
  have hU : (⋃ k : ℤ, roundsTo r k) = univ := eq_univ_of_forall fun x => mem_iUnion.2 ⟨_, roundTo_mem r x⟩
  rw [← setLIntegral_univ, ← hU, lintegral_iUnion (fun k => roundsTo_measurable r k) fun k k' hk => disjoint_left.2 fun x h h' => hk (roundsTo_disjoint r h h')]
  refine tsum_congr fun k => ?_
  rw [setLIntegral_congr_fun (g := fun _ => G k) (roundsTo_measurable r k) fun x hx => by rw [roundsTo_disjoint r (roundTo_mem r x) hx], setLIntegral_const, mul_comm]

/-- A rounded variable. -/
theorem described_round {lc : FVal → Except Err FVal} {μ : Measure ℝ} [IsProbabilityMeasure μ] [NullSingletonClass μ] (hlc : IsLogCdf (fun x => lc (fin x)) μ) (r : RoundOp) {D : Set ℝ}
    (hD : μ Dᶜ = 0) (hpos : ∀ x ∈ D, μ (Iic x) ≠ 0) :
    Described (fun G => ∫⁻ x, G (roundTo r x) ∂μ) (mixedRef false integers) {y | ∃ k : ℤ, y = k ∧ ∃ x ∈ D, x ∈ roundsTo r k} fun y => roundLogprob r lc (.fin y) := by
  refine described_int (w := fun k => μ (roundsTo r k)) (lintegral_round μ r) (fun y hy => ?_) (fun k hk => ?_) (fun k hk => ?_) fun k => measure_ne_top _ _
  · obtain ⟨k, rfl, -⟩ := hy
    exact ⟨k, rfl⟩
  · obtain ⟨k', hk', x, hx, hxk⟩ := hk
    obtain rfl : k = k' := by exact_mod_cast hk'
    exact C61_round_partial hlc r k ⟨x, hxk, hpos x hx⟩
  · refine measure_mono_null (fun x hx hxD => hk ⟨k, rfl, x, hxD, hx⟩) hD

/-! ## Clipping -/

theorem clipTo_low {lo hi : Option ℝ} (hb : BoundsLt lo hi) {a x : ℝ} (ha : lo = some a) (hx : x ≤ a) : clipTo lo hi x = a := by
  subst ha
  cases hi with
  | none => simp [clipTo, hx]
  | some b => simp [clipTo, hx, le_of_lt (show a < b from hb)]

theorem clipTo_high {lo hi : Option ℝ} (hb : BoundsLt lo hi) {b x : ℝ} (hb' : hi = some b) (hx : b ≤ x) : clipTo lo hi x = b := by
  subst hb'
  cases lo with
  | none => simp [clipTo, hx]
  | some a =>
    have : a < b := hb
    simp [clipTo, max_eq_right (this.le.trans hx), hx]

theorem clipTo_mid {lo hi : Option ℝ} {x : ℝ} (h1 : ∀ a, lo = some a → a ≤ x) (h2 : ∀ b, hi = some b → x ≤ b) : clipTo lo hi x = x := by
  cases lo <;> cases hi <;> simp_all [clipTo]

/-- The points at or below the lower bound. -/
def below (lo : Option ℝ) : Set ℝ := {x | ∃ a, lo = some a ∧ x ≤ a}

/-- The points at or above the upper bound. -/
def above (hi : Option ℝ) : Set ℝ := {x | ∃ b, hi = some b ∧ b ≤ x}

theorem below_measurable (lo : Option ℝ) : MeasurableSet (below lo) := by
  cases lo with
  | none => simp [below]
  | some a =>
    have : below (some a) = Iic a := by ext x; simp [below]
    rw [this]; exact measurableSet_Iic

theorem above_measurable (hi : Option ℝ) : MeasurableSet (above hi) := by
  cases hi with
  | none => simp [above]
  | some a =>
    have : above (some a) = Ici a := by ext x; simp [above]
    rw [this]; exact measurableSet_Ici

/-- The integral over a unit atom. -/
theorem lintegral_atomAt (o : Option ℝ) {R : Set ℝ} (hR : MeasurableSet R) (g : ℝ → ENNReal) : ∫⁻ y in R, g y ∂(atomAt o) = match o with | some a => R.indicator g a | none => 0 := by
  cases o with
  | none => simp [atomAt]
  | some a =>
    rw [← lintegral_indicator hR]
    simp [atomAt]

/-- A clipped continuous variable. -/
theorem described_clip {lp lc : FVal → Except Err FVal} {μ : Measure ℝ} [IsProbabilityMeasure μ] (hlp : IsLogDensity (fun x => lp (fin x)) μ) (hlc : IsLogCdf (fun x => lc (fin x)) μ)
    {l u : ClipArg} {lo hi : Option ℝ} (hl : LowerIs l lo) (hu : UpperIs u hi) (hb : BoundsLt lo hi) {D : Set ℝ} (h : Described (fun G => ∫⁻ x, G x ∂μ) volume D fun x => lp (.fin x))
    (hnull : μ Dᶜ = 0) :
    Described (fun G => ∫⁻ x, G (clipTo lo hi x) ∂μ) (mixedRef true (boundSet lo hi)) (clipTo lo hi '' D) fun y => measurableClip false lp lc l u (.fin y) := by
  have hval : ∀ x, ∃ p c, lp (fin x) = .ok p ∧ p ≠ nan ∧ lc (fin x) = .ok c ∧ c ≠ nan ∧ c.toDens = μ (Iic x) := fun x => by
    obtain ⟨p, hp, hpn⟩ := hlp.clean x
    obtain ⟨c, hc, hcn⟩ := hlc.clean x
    refine ⟨p, c, hp, hpn, hc, hcn, ?_⟩
    have := hlc.cdf x
    simp only [hc] at this
    exact this
  have hac : μ ≪ volume := Measure.AbsolutelyContinuous.mk fun s hs h0 => by
    rw [← hlp.law s hs]
    exact setLIntegral_measure_zero s _ h0
  have hlt : ∀ {a b}, lo = some a → hi = some b → a < b := by
    rintro a b rfl rfl; exact hb
  have hlo : ∀ a, lo = some a → dens (measurableClip false lp lc l u (.fin a)) = μ (Iic a) := by
    intro a ha
    obtain ⟨p, c, hp, -, hc, -, hcd⟩ := hval a
    rw [measurableClip_eval hl hu hb hp hc, if_pos ha]
    exact hcd
  have hhi : ∀ b, hi = some b → dens (measurableClip false lp lc l u (.fin b)) = μ (Ici b) := by
    intro b hb'
    obtain ⟨p, c, hp, -, hc, hcn, hcd⟩ := hval b
    have n1 : lo ≠ some b := fun h => (hlt h hb').false
    have n2 : ¬ ∃ a, lo = some a ∧ b < a := by rintro ⟨a, h1, h2⟩; linarith [hlt h1 hb']
    rw [measurableClip_eval hl hu hb hp hc, if_neg n1, if_neg n2, if_pos hb']
    show (log1mexp c).toDens = _
    rw [(log1mexp_prob hcn hcd prob_le_one).2, ← prob_compl_eq_one_sub measurableSet_Iic, compl_Iic]
    have : μ {b} = 0 := hac (by simp)
    exact measure_congr (Ioi_ae_eq_Ici' this)
  have hmid : ∀ x, x ∉ below lo → x ∉ above hi → measurableClip false lp lc l u (.fin x) = lp (.fin x) := by
    intro x h1 h2
    obtain ⟨p, c, hp, -, hc, -, -⟩ := hval x
    rw [measurableClip_eval hl hu hb hp hc, if_neg fun h => h1 ⟨x, h, le_rfl⟩, if_neg fun ⟨a, h, hx⟩ => h1 ⟨a, h, hx.le⟩, if_neg fun h => h2 ⟨x, h, le_rfl⟩,
      if_neg fun ⟨b, h, hx⟩ => h2 ⟨b, h, hx.le⟩, hp]
  set B : Set ℝ := (below lo)ᶜ ∩ (above hi)ᶜ with hB
  have hBm : MeasurableSet B := (below_measurable lo).compl.inter (above_measurable hi).compl
  have hcB : ∀ x ∈ B, clipTo lo hi x = x := fun x hx => clipTo_mid (fun a ha => le_of_not_ge fun h => hx.1 ⟨a, ha, h⟩) (fun b hb' => le_of_not_ge fun h => hx.2 ⟨b, hb', h⟩)
  -- the range
  set R := clipTo lo hi '' D with hR
  have hRB : R ∩ B = D ∩ B := by
    ext y
    constructor
    · rintro ⟨⟨x, hx, rfl⟩, hy⟩
      by_cases h1 : x ∈ below lo
      · obtain ⟨a, ha, hxa⟩ := h1
        rw [clipTo_low hb ha hxa] at hy
        exact absurd ⟨a, ha, le_rfl⟩ hy.1
      by_cases h2 : x ∈ above hi
      · obtain ⟨b, hb', hxb⟩ := h2
        rw [clipTo_high hb hb' hxb] at hy
        exact absurd ⟨b, hb', le_rfl⟩ hy.2
      rw [hcB x ⟨h1, h2⟩]
      exact ⟨hx, h1, h2⟩
    · rintro ⟨h1, h2⟩
      exact ⟨⟨y, h1, hcB y h2⟩, h2⟩
  have hRcover : R ⊆ (D ∩ B) ∪ boundSet lo hi := by
    rintro _ ⟨x, hx, rfl⟩
    by_cases h1 : x ∈ below lo
    · obtain ⟨a, ha, hxa⟩ := h1
      rw [clipTo_low hb ha hxa]
      exact .inr (.inl ha)
    by_cases h2 : x ∈ above hi
    · obtain ⟨b, hb', hxb⟩ := h2
      rw [clipTo_high hb hb' hxb]
      exact .inr (.inr hb')
    rw [hcB x ⟨h1, h2⟩]
    exact .inl ⟨hx, h1, h2⟩
  have hRm : MeasurableSet R := by
    have : R = (D ∩ B) ∪ (R ∩ boundSet lo hi) := by
      refine Subset.antisymm (fun y hy => ?_) (union_subset (by rw [← hRB]; exact inter_subset_left) inter_subset_left)
      rcases hRcover hy with h | h
      · exact .inl h
      · exact .inr ⟨hy, h⟩
    rw [this]
    exact (h.set.inter hBm).union ((boundSet_countable lo hi).mono inter_subset_right).measurableSet
  obtain ⟨hcl, -⟩ := C59_clip_partial hlp hlc hl hu hb
  refine ⟨hRm, fun y _ => hcl y, fun y hy => ?_, fun G => ?_⟩
  · rcases hRcover hy with hy | hy | hy
    · rw [hmid y hy.2.1 hy.2.2]; exact h.fin y hy.1
    · rw [hlo y hy]; exact measure_ne_top _ _
    · rw [hhi y hy]; exact measure_ne_top _ _
  · show ∫⁻ x, G (clipTo lo hi x) ∂μ = _
    have hAC : Disjoint (below lo) (above hi) := by
      rw [disjoint_left]
      rintro x ⟨a, ha, h1⟩ ⟨b, hb', h2⟩
      linarith [hlt ha hb']
    -- split the draws
    have hsplit : ∫⁻ x, G (clipTo lo hi x) ∂μ = ∫⁻ x in B, G x ∂μ + ∫⁻ x in below lo, G (clipTo lo hi x) ∂μ + ∫⁻ x in above hi, G (clipTo lo hi x) ∂μ := by
      have hc : (below lo ∪ above hi)ᶜ = B := by rw [compl_union]
      rw [← lintegral_add_compl _ ((below_measurable lo).union (above_measurable hi)), lintegral_union (above_measurable hi) hAC, hc, add_comm, add_assoc]
      congr 1
      exact setLIntegral_congr_fun hBm fun x hx => by rw [hcB x hx]
    have hA : ∫⁻ x in below lo, G (clipTo lo hi x) ∂μ = ∫⁻ y in R, dens (measurableClip false lp lc l u (.fin y)) * G y ∂(atomAt lo) := by
      rw [lintegral_atomAt _ hRm, setLIntegral_congr_fun (g := fun _ => match lo with | some a => G a | none => 0) (below_measurable lo) (by
        rintro x ⟨a, ha, hx⟩
        show G (clipTo lo hi x) = _
        rw [clipTo_low hb ha hx, ha])]
      rw [setLIntegral_const]
      cases hlo' : lo with
      | none => simp
      | some a =>
        have e : below (some a) = Iic a := by ext x; simp [below]
        simp only [e]
        by_cases ha : a ∈ R
        · rw [indicator_of_mem ha, hlo a hlo', mul_comm]
        · have h0 : μ (Iic a) = 0 := measure_mono_null (fun x hx hxD => ha ⟨x, hxD, clipTo_low hb hlo' hx⟩) hnull
          rw [indicator_of_notMem ha, h0, mul_zero]
    have hC : ∫⁻ x in above hi, G (clipTo lo hi x) ∂μ = ∫⁻ y in R, dens (measurableClip false lp lc l u (.fin y)) * G y ∂(atomAt hi) := by
      rw [lintegral_atomAt _ hRm, setLIntegral_congr_fun (g := fun _ => match hi with | some a => G a | none => 0) (above_measurable hi) (by
        rintro x ⟨a, ha, hx⟩
        show G (clipTo lo hi x) = _
        rw [clipTo_high hb ha hx, ha])]
      rw [setLIntegral_const]
      cases hhi' : hi with
      | none => simp
      | some a =>
        have e : above (some a) = Ici a := by ext x; simp [above]
        simp only [e]
        by_cases ha : a ∈ R
        · rw [indicator_of_mem ha, hhi a hhi', mul_comm]
        · have h0 : μ (Ici a) = 0 := measure_mono_null (fun x hx hxD => ha ⟨x, hxD, clipTo_high hb hhi' hx⟩) hnull
          rw [indicator_of_notMem ha, h0, mul_zero]
    have hV : ∫⁻ x in B, G x ∂μ = ∫⁻ y in R, dens (measurableClip false lp lc l u (.fin y)) * G y := by
      have h1 := h.eq (B.indicator G)
      simp only [lintegral_indicator hBm] at h1
      rw [h1, ← lintegral_inter_add_sdiff (μ := volume) _ R hBm, setLIntegral_measure_zero (R \ B), add_zero, hRB, ← lintegral_indicator (h.set.inter hBm), ← lintegral_indicator h.set]
      · refine lintegral_congr fun y => ?_
        by_cases hy : y ∈ D <;> by_cases hyB : y ∈ B
        · rw [indicator_of_mem hy, indicator_of_mem hyB, indicator_of_mem (show y ∈ D ∩ B from ⟨hy, hyB⟩), hmid y hyB.1 hyB.2]
        · rw [indicator_of_mem hy, indicator_of_notMem hyB, indicator_of_notMem (fun h => hyB h.2), mul_zero]
        · rw [indicator_of_notMem hy, indicator_of_notMem (fun h => hy h.1)]
        · rw [indicator_of_notMem hy, indicator_of_notMem (fun h => hy h.1)]
      · refine measure_mono_null (fun y hy => ?_) ((boundSet_countable lo hi).measure_zero volume)
        rcases hRcover hy.1 with h | h
        · exact absurd h.2 hy.2
        · exact h
    rw [hsplit, hV, hA, hC, mixedRef_bounds hb, Measure.restrict_add, Measure.restrict_add, lintegral_add_measure, lintegral_add_measure]

/-- Integrals over a law on the integers. -/
theorem lintegral_int_law {μ : Measure ℝ} (hμ : μ integersᶜ = 0) (G : ℝ → ENNReal) : ∫⁻ x, G x ∂μ = ∑' k : ℤ, μ {(k : ℝ)} * G k := by
  have hr : μ.restrict integers = μ := Measure.restrict_eq_self_of_ae_mem (by rw [ae_iff]; exact hμ)
  have := lintegral_countable (μ := μ) G integers_countable
  rw [hr] at this
  rw [this, integers, ← image_univ, tsum_image (fun y => G y * μ {y}) (Int.cast_injective.injOn), tsum_univ fun k : ℤ => G (k : ℝ) * μ {(k : ℝ)}]
  exact tsum_congr fun k => mul_comm _ _

/-- A bound that is an integer. -/
theorem int_bound {o : Option ℝ} (h : ∀ a, o = some a → a ∈ integers) : ∃ o' : Option ℤ, o = o'.map (↑) := by
  cases o with
  | none => exact ⟨none, rfl⟩
  | some a =>
    obtain ⟨k, rfl⟩ := h a rfl
    exact ⟨some k, rfl⟩

theorem clipTo_int (lo hi : Option ℤ) (j : ℤ) : ∃ k : ℤ, clipTo (lo.map (↑)) (hi.map (↑)) (j : ℝ) = k := by
  cases lo with
  | none =>
    cases hi with
    | none => exact ⟨j, rfl⟩
    | some b => exact ⟨min b j, by simp [clipTo]⟩
  | some a =>
    cases hi with
    | none => exact ⟨max a j, by simp [clipTo]⟩
    | some b => exact ⟨min b (max a j), by simp [clipTo]⟩

/-- A clipped integer variable. -/
theorem described_clip_int {lp lc : FVal → Except Err FVal} {μ : Measure ℝ} [IsProbabilityMeasure μ] (hμ : μ integersᶜ = 0)
    (hlp : ∀ k : ℤ, Clean (lp (.fin k)) ∧ dens (lp (.fin k)) = μ {(k : ℝ)}) (hlc : ∀ k : ℤ, Clean (lc (.fin k)) ∧ dens (lc (.fin k)) = μ (Iic (k : ℝ)))
    {l u : ClipArg} {lo hi : Option ℝ} (hl : LowerIs l lo) (hu : UpperIs u hi) (hb : BoundsLt lo hi) (hint : boundSet lo hi ⊆ integers) {D : Set ℝ} (hDi : D ⊆ integers) (hnull : μ Dᶜ = 0) :
    Described (fun G => ∫⁻ x, G (clipTo lo hi x) ∂μ) (mixedRef false integers) (clipTo lo hi '' D) fun y => measurableClip true lp lc l u (.fin y) := by
  obtain ⟨lo, rfl⟩ := int_bound fun a ha => hint (.inl ha)
  obtain ⟨hi, rfl⟩ := int_bound fun a ha => hint (.inr ha)
  set q : ℤ → ℝ := fun k => (μ {(k : ℝ)}).toReal with hq
  have hqe : ∀ k, ENNReal.ofReal (q k) = μ {(k : ℝ)} := fun k => ENNReal.ofReal_toReal (measure_ne_top _ _)
  have htot : ∑' k : ℤ, μ {(k : ℝ)} = 1 := by
    have := lintegral_int_law hμ fun _ => 1
    simp only [lintegral_const, measure_univ, one_mul, mul_one] at this
    exact this.symm
  have hmass : IsLogMass (fun k => lp (.fin k)) q := by
    refine ⟨fun k => (hlp k).1, fun k => by rw [hqe]; exact (hlp k).2, ?_⟩
    have hs : Summable q := ENNReal.summable_toReal (by rw [htot]; exact ENNReal.one_ne_top)
    have : ∑' k, q k = 1 := by
      rw [hq, ← ENNReal.tsum_toReal_eq fun k => measure_ne_top _ _, htot, ENNReal.toReal_one]
    rw [← this]
    exact hs.hasSum
  have hsum : ∀ k : ℤ, IsLogSum (lc (.fin k)) (fun j => lp (.fin j)) k := by
    intro k
    refine ⟨(hlc k).1, ?_⟩
    rw [(hlc k).2]
    have := lintegral_int_law hμ ((Iic (k : ℝ)).indicator fun _ => 1)
    rw [lintegral_indicator measurableSet_Iic, setLIntegral_one] at this
    rw [this]
    refine tsum_congr fun j => ?_
    by_cases hj : (j : ℝ) ≤ k
    · rw [if_pos hj, indicator_of_mem (show (j : ℝ) ∈ Iic (k : ℝ) from hj), mul_one, (hlp j).2]
    · rw [if_neg hj, indicator_of_notMem (show (j : ℝ) ∉ Iic (k : ℝ) from hj), mul_zero]
  have hcl := fun k => C60_clip_discrete_partial (fun k => ENNReal.toReal_nonneg) hmass hsum hl hu hb k
  have hclip : ∀ k, clipMass lo hi (fun j => ENNReal.ofReal (q j)) k = μ (clipTo (lo.map (↑)) (hi.map (↑)) ⁻¹' {(k : ℝ)}) := by
    intro k
    have hm : MeasurableSet (clipTo (lo.map (↑)) (hi.map (↑)) ⁻¹' {(k : ℝ)}) := measurable_clipTo _ _ (measurableSet_singleton _)
    have := lintegral_int_law hμ ((clipTo (lo.map (↑)) (hi.map (↑)) ⁻¹' {(k : ℝ)}).indicator fun _ => 1)
    rw [lintegral_indicator hm, setLIntegral_one] at this
    rw [this, clipMass]
    refine tsum_congr fun j => ?_
    by_cases hj : clipTo (lo.map (↑)) (hi.map (↑)) (j : ℝ) = k
    · rw [if_pos hj, indicator_of_mem (show (j : ℝ) ∈ clipTo _ _ ⁻¹' {(k : ℝ)} from hj), mul_one, hqe]
    · rw [if_neg hj, indicator_of_notMem (show (j : ℝ) ∉ clipTo _ _ ⁻¹' {(k : ℝ)} from hj), mul_zero]
  refine described_int (w := fun k => clipMass lo hi (fun j => ENNReal.ofReal (q j)) k) (fun G => ?_) ?_ (fun k _ => hcl k) (fun k hk => ?_) fun k => ?_
  · show ∫⁻ x, G (clipTo _ _ x) ∂μ = _
    rw [lintegral_int_law hμ fun x => G (clipTo _ _ x)]
    simp only [clipMass, ← ENNReal.tsum_mul_right]
    rw [ENNReal.tsum_comm]
    refine tsum_congr fun j => ?_
    obtain ⟨k, hk⟩ := clipTo_int lo hi j
    rw [tsum_eq_single k, if_pos hk, hqe, hk]
    intro k' hk'
    rw [if_neg fun h => hk' (by rw [hk] at h; exact_mod_cast h.symm), zero_mul]
  · rintro _ ⟨x, hx, rfl⟩
    obtain ⟨j, rfl⟩ := hDi hx
    obtain ⟨k, hk⟩ := clipTo_int lo hi j
    exact ⟨k, hk.symm⟩
  · show clipMass lo hi _ k = 0
    rw [hclip]
    exact measure_mono_null (fun x hx hxD => hk ⟨x, hxD, hx⟩) hnull
  · show clipMass lo hi _ k ≠ ⊤
    rw [hclip]
    exact measure_ne_top _ _

/-! ## Integer laws -/

open Classical in
theorem massLaw_apply (q : ℤ → ℝ) {s : Set ℝ} (hs : MeasurableSet s) : massLaw q s = ∑' k : ℤ, if (k : ℝ) ∈ s then ENNReal.ofReal (q k) else 0 := by
  rw [massLaw, Measure.sum_apply _ hs]
  refine tsum_congr fun k => ?_
  rw [Measure.smul_apply, Measure.dirac_apply' _ hs, smul_eq_mul]
  split_ifs with h
  · rw [indicator_of_mem h, Pi.one_apply, mul_one]
  · rw [indicator_of_notMem h, mul_zero]

theorem massLaw_singleton (q : ℤ → ℝ) (k : ℤ) : massLaw q {(k : ℝ)} = ENNReal.ofReal (q k) := by
  classical
  rw [massLaw_apply q (measurableSet_singleton _)]
  refine (tsum_eq_single k fun j hj => ?_).trans (if_pos (mem_singleton _))
  exact if_neg fun h => hj (Int.cast_injective (mem_singleton_iff.1 h))

theorem measurable_indicator_countable {S : Set ℝ} (hS : S.Countable) (f : ℝ → ENNReal) : Measurable (S.indicator f) := by
  intro t _
  by_cases h0 : (0 : ENNReal) ∈ t
  · refine MeasurableSet.of_compl (hS.mono fun x hx => ?_).measurableSet
    by_contra h
    exact hx (by rw [mem_preimage, indicator_of_notMem h]; exact h0)
  · refine (hS.mono fun x hx => ?_).measurableSet
    by_contra h
    rw [mem_preimage, indicator_of_notMem h] at hx
    exact h0 hx

/-- A registered mass function is the density of its law with respect to unit atoms at the integers. -/
theorem massLaw_good {kernel : FVal → List FVal → Except Err FVal} {p : List FVal} {q : ℤ → ℝ} (hq : ∀ k, 0 ≤ q k) (hm : IsLogMass (fun k : ℤ => kernel (.fin k) p) q) {law : List FVal → Measure ℝ}
    (hlaw : law p = massLaw q) {supp : List FVal → Set ℝ} (hs : supp p ⊆ integers) (hout : ∀ k : ℤ, (k : ℝ) ∉ supp p → q k = 0) :
    IR.GoodOn kernel law (mixedRef false integers) supp p := by
  classical
  have hset : MeasurableSet (supp p) := (integers_countable.mono hs).measurableSet
  refine ⟨?_, hset, fun x hx => ?_, ?_, ?_⟩
  · refine ⟨?_⟩
    rw [hlaw, massLaw_apply q MeasurableSet.univ]
    simp only [mem_univ, if_true]
    rw [← ENNReal.ofReal_tsum_of_nonneg hq hm.total.summable, hm.total.tsum_eq, ENNReal.ofReal_one]
  · obtain ⟨k, rfl⟩ := hs hx
    exact hm.clean k
  · exact measurable_indicator_countable (integers_countable.mono hs) _
  · refine Measure.ext fun s hsm => ?_
    rw [withDensity_apply _ hsm, lintegral_integers hsm, hlaw, massLaw_apply q hsm]
    refine tsum_congr fun k => ?_
    by_cases hk : (k : ℝ) ∈ s
    · rw [if_pos hk, indicator_of_mem hk]
      by_cases hk' : (k : ℝ) ∈ supp p
      · rw [indicator_of_mem hk']; exact (hm.mass k).symm
      · rw [indicator_of_notMem hk', hout k hk', ENNReal.ofReal_zero]
    · rw [if_neg hk, indicator_of_notMem hk]

end Verif
