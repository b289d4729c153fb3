import Verif.Spec.Library
import Verif.Lemmas.Dist1
import Verif.Lemmas.Dist2
import Verif.Props.Dist1
import Verif.Props.Dist2
import Verif.Props.StudentT
import Verif.Props.Triangular
import Verif.Props.VonMises
import Verif.Props.Wald
import Verif.Props.Discrete1
import Verif.Props.Discrete2
import Verif.Props.FullDensity

/-! # Lemmas on the laws of the library -/

namespace Verif.Library
open Verif FVal MeasureTheory ProbabilityTheory Set

/-- What is to be shown of every distribution. -/
def Described (d : Lib) (p : List FVal) : Prop :=
  Full.SourceOk registry world d p ∧ ∀ᵐ x ∂d.ref, x ∉ d.supp p → IsNegInf (d.logprob (fin x) p)

theorem ref_float {d : Lib} (h : d.kind = .float) : d.ref = volume := by
  rw [Lib.ref, h, Full.rvAtoms, if_pos rfl, Full.mixedRef_empty, if_pos (show (Full.Kind.float == Full.Kind.float) = true from rfl)]

theorem ref_int {d : Lib} (h : d.kind = .int) : d.ref = mixedRef false integers := by
  rw [Lib.ref, h, Full.rvAtoms, if_neg (by simp)]; rfl

theorem negInf_dens {r : Except Err FVal} (h : IsNegInf r) : dens r = 0 := by
  rw [IsNegInf] at h
  rw [h]; rfl

theorem negInf_of_dens {r : Except Err FVal} (h : Clean r) (h0 : dens r = 0) : IsNegInf r := by
  obtain ⟨v, rfl, hv⟩ := h
  cases v with
  | nan => exact absurd rfl hv
  | ninf => rfl
  | pinf => exact absurd h0 (by simp [dens, FVal.toDens])
  | fin x =>
    refine absurd h0 ?_
    simp only [dens, FVal.toDens, ENNReal.ofReal_eq_zero, not_le]
    positivity

theorem float_described {d : Lib} {p : List FVal} (hk : d.kind = .float) (hS : MeasurableSet (d.supp p)) (hprob : IsProbabilityMeasure (d.law p)) {f : ℝ → ℝ} (hf : Measurable f)
    (hev : ∀ x ∈ d.supp p, d.logprob (fin x) p = .ok (fin (Real.log (f x)))) (hlaw : ∀ s, MeasurableSet s → ∫⁻ x in s, dens (d.logprob (fin x) p) = d.law p s)
    (hout : ∀ᵐ x : ℝ, x ∉ d.supp p → IsNegInf (d.logprob (fin x) p)) : Described d p := by
  have hr := ref_float hk
  have hind : ((d.supp p).indicator fun x : ℝ => dens (d.logprob (fin x) p)) = (d.supp p).indicator fun x => ENNReal.ofReal (Real.exp (Real.log (f x))) := by
    funext x
    by_cases h : x ∈ d.supp p
    · rw [indicator_of_mem h, indicator_of_mem h, hev x h]; rfl
    · rw [indicator_of_notMem h, indicator_of_notMem h]
  refine ⟨⟨⟨hprob, hS, fun x hx => ?_, ?_, ?_⟩, fun x hx => ?_⟩, by rw [hr]; exact hout⟩
  · show Clean (d.logprob (fin x) p)
    rw [hev x hx]; exact clean_fin _
  · show Measurable ((d.supp p).indicator fun x : ℝ => dens (d.logprob (fin x) p))
    rw [hind]
    exact (Real.measurable_exp.comp (Real.measurable_log.comp hf)).ennreal_ofReal.indicator hS
  · show d.law p = d.ref.withDensity ((d.supp p).indicator fun x : ℝ => dens (d.logprob (fin x) p))
    rw [hr]
    refine Measure.ext fun s hs => ?_
    rw [withDensity_apply _ hs, ← hlaw s hs]
    refine lintegral_congr_ae (ae_restrict_of_ae ?_)
    filter_upwards [hout] with x hx
    by_cases h : x ∈ d.supp p
    · rw [indicator_of_mem h]
    · rw [indicator_of_notMem h, negInf_dens (hx h)]
  · show dens (d.logprob (fin x) p) ≠ ⊤
    rw [hev x hx]
    exact ENNReal.ofReal_ne_top

theorem ae_integers {P : ℝ → Prop} (h : ∀ k : ℤ, P k) : ∀ᵐ x ∂(mixedRef false integers), P x := by
  have : mixedRef false integers = Measure.count.restrict integers := by simp [mixedRef, atomsOn]
  rw [this, ae_restrict_iff' integers_countable.measurableSet]
  refine .of_forall ?_
  rintro _ ⟨k, rfl⟩
  exact h k

theorem int_described {d : Lib} {p : List FVal} (hk : d.kind = .int) {q : ℤ → ℝ} (hq : ∀ k, 0 ≤ q k) (hm : IsLogMass (fun k : ℤ => d.logprob (fin k) p) q) (hlaw : d.law p = massLaw q) (hs : d.supp p ⊆ integers)
    (hout : ∀ k : ℤ, (k : ℝ) ∉ d.supp p → q k = 0) : Described d p := by
  have hr := ref_int hk
  refine ⟨⟨?_, fun x hx => ?_⟩, ?_⟩
  · have : IR.GoodOn d.logprob d.law d.ref d.supp p := by rw [hr]; exact massLaw_good hq hm hlaw hs hout
    exact this
  · obtain ⟨k, rfl⟩ := hs hx
    show dens (d.logprob (fin k) p) ≠ ⊤
    rw [show dens (d.logprob (fin k) p) = _ from hm.mass k]
    exact ENNReal.ofReal_ne_top
  · rw [hr]
    refine ae_integers fun k hk => negInf_of_dens (hm.clean k) ?_
    rw [hm.mass k, hout k hk, ENNReal.ofReal_zero]

theorem onNat_nonneg {f : ℕ → ℝ} (h : ∀ k, 0 ≤ f k) (k : ℤ) : 0 ≤ onNat f k := by
  rw [onNat]; split_ifs
  · exact h _
  · exact le_rfl

theorem onNat_zero {f : ℕ → ℝ} {S : Set ℝ} (h : ∀ k : ℕ, (k : ℝ) ∉ S → f k = 0) (k : ℤ) (hk : (k : ℝ) ∉ S) : onNat f k = 0 := by
  rw [onNat]; split_ifs with h0
  · refine h _ fun h' => hk ?_
    obtain ⟨n, rfl⟩ := Int.eq_ofNat_of_zero_le h0
    simpa using h'
  · rfl

/-- The mass function is not negative, from what `IsLogMass` says of it. -/
theorem nat_integers {x : ℝ} {k : ℕ} (h : x = k) : x ∈ integers := ⟨k, by simp [h]⟩

theorem ae_two (a b : ℝ) {P : ℝ → Prop} (h : ∀ x, x ≠ a → x ≠ b → P x) : ∀ᵐ x, P x := by
  have h1 : ∀ᵐ x : ℝ, x ≠ a := by rw [ae_iff]; simp
  have h2 : ∀ᵐ x : ℝ, x ≠ b := by rw [ae_iff]; simp
  filter_upwards [h1, h2] with x ha hb using h x ha hb

theorem triangularPDF_pos {a c b x : ℝ} (hac : a ≤ c) (hx : x ∈ Ioo a b) : 0 < triangularPDF a c b x := by
  obtain ⟨h1, h2⟩ := hx
  rw [triangularPDF]
  split_ifs with h3 h4
  · have e1 : 0 < x - a := by linarith
    have e2 : 0 < b - a := by linarith
    have e3 : 0 < c - a := by linarith [h3.2]
    positivity
  · have e1 : 0 < b - x := by linarith
    have e2 : 0 < b - a := by linarith
    have e3 : 0 < b - c := by linarith [h4.1]
    positivity
  · exact absurd ⟨not_lt.1 fun h => h3 ⟨h1, h⟩, h2, h1⟩ h4

theorem triangular_inside {a c b x : ℝ} (hac : a ≤ c) (hcb : c ≤ b) (hx : x ∈ Ioo a b) : triangularLogprob (fin x) (fin a) (fin c) (fin b) = .ok (fin (Real.log (triangularPDF a c b x))) := by
  have hpos := triangularPDF_pos (c := c) hac hx
  rcases lt_or_ge x c with h | h
  · have e : triangularPDF a c b x = 2 * (x - a) / ((b - a) * (c - a)) := if_pos ⟨hx.1, h⟩
    rw [triangular_left hcb hx.1.le h, ← e, log_fin_pos hpos]
  · have e : triangularPDF a c b x = 2 * (b - x) / ((b - a) * (b - c)) := by rw [triangularPDF, if_neg fun h' => absurd h'.2 (not_lt.2 h), if_pos ⟨h, hx.2, hx.1⟩]
    rw [triangular_right hac (h.trans_lt hx.2) h hx.2.le, ← e, log_fin_pos hpos]

theorem triangularPDF_out {a c b x : ℝ} (hcb : c ≤ b) (hx : x ∉ Ioo a b) : triangularPDF a c b x = 0 := by
  rw [triangularPDF, if_neg fun h => hx ⟨h.1, h.2.trans_le hcb⟩, if_neg fun h => hx ⟨h.2.2, h.2.1⟩]

theorem triangular_measurable (a c b : ℝ) : Measurable (triangularPDF a c b) := by
  have m1 : MeasurableSet {x : ℝ | a < x ∧ x < c} := measurableSet_Ioo
  have m2 : MeasurableSet {x : ℝ | c ≤ x ∧ x < b ∧ a < x} := measurableSet_Ici.inter (measurableSet_Iio.inter measurableSet_Ioi)
  exact Measurable.ite m1 (by fun_prop) (Measurable.ite m2 (by fun_prop) measurable_const)

theorem triangular_law {a c b : ℝ} (hac : a ≤ c) (hcb : c ≤ b) (hab : a < b) {s : Set ℝ} (hs : MeasurableSet s) :
    ∫⁻ x in s, dens (triangularLogprob (fin x) (fin a) (fin c) (fin b)) = Lib.law .triangular [fin a, fin c, fin b] s := by
  show _ = (volume.withDensity fun x => ENNReal.ofReal (triangularPDF a c b x)) s
  rw [withDensity_apply _ hs]
  refine lintegral_congr_ae (ae_restrict_of_ae (ae_two a b fun x h1 h2 => ?_))
  beta_reduce
  by_cases hx : x ∈ Ioo a b
  · rw [triangular_inside hac hcb hx, dens_log (triangularPDF_pos hac hx)]
  · rw [triangularPDF_out hcb hx, ENNReal.ofReal_zero]
    exact negInf_dens ((C25_triangular_partial hac hcb hab).2.1 x fun h => hx ⟨lt_of_le_of_ne h.1 (Ne.symm h1), lt_of_le_of_ne h.2 h2⟩)

theorem logistic_inside (m : ℝ) {s : ℝ} (hs : 0 < s) (x : ℝ) : logisticLogprob (fin x) (fin m) (fin s) = .ok (fin (Real.log (logisticPDF m s x))) := by
  rw [logistic_eval x m hs, logisticPDF]
  refine congrArg (fun y => Except.ok (fin (Real.log y))) ?_
  field_simp

theorem logistic_measurable (m s : ℝ) : Measurable (logisticPDF m s) := by unfold logisticPDF; fun_prop

theorem logistic_law (m : ℝ) {s : ℝ} (hs : 0 < s) {t : Set ℝ} (ht : MeasurableSet t) :
    ∫⁻ x in t, dens (logisticLogprob (fin x) (fin m) (fin s)) = Lib.law .logistic [fin m, fin s] t := by
  show _ = (volume.withDensity fun x => ENNReal.ofReal (logisticPDF m s x)) t
  rw [withDensity_apply _ ht]
  refine lintegral_congr fun x => ?_
  rw [logistic_inside m hs, dens_log]
  unfold logisticPDF; positivity

/-- The triangular and logistic laws have the usual distribution functions. -/
theorem triangular_iic {a c b : ℝ} (hac : a ≤ c) (hcb : c ≤ b) (hab : a < b) (x : ℝ) : Lib.law .triangular [fin a, fin c, fin b] (Iic x) = ENNReal.ofReal (triangularCDF a c b x) := by
  rw [← triangular_law hac hcb hab measurableSet_Iic, (C25_triangular_partial hac hcb hab).2.2.1]

theorem logistic_iic (m : ℝ) {s : ℝ} (hs : 0 < s) (x : ℝ) : Lib.law .logistic [fin m, fin s] (Iic x) = ENNReal.ofReal (1 / (1 + Real.exp (-(x - m) / s))) := by
  obtain ⟨law, h1, h2, _⟩ := C27_logistic m hs
  rw [← h2, ← h1.law _ measurableSet_Iic, logistic_law m hs measurableSet_Iic]

theorem all_described {d : Lib} {p : List FVal} (h : d.Domain p) : Described d p := by
  cases h with
  | @uniform a b hab =>
    have hp : IsProbabilityMeasure (Lib.law .uniform [fin a, fin b]) := by
      refine cond_isProbabilityMeasure_of_finite ?_ ?_
      · rw [Real.volume_Icc]; simpa using hab
      · rw [Real.volume_Icc]; exact ENNReal.ofReal_ne_top
    refine float_described rfl measurableSet_Ioo hp (f := fun _ => (b - a)⁻¹) measurable_const (fun x hx => uniform_eval_in hab hx.1.le hx.2.le) (C10_uniform hab).1.law (ae_two a b fun x h1 h2 hx => ?_)
    refine ((C10_uniform hab).2 x).2 fun h => hx ⟨lt_of_le_of_ne h.1 (Ne.symm h1), lt_of_le_of_ne h.2 h2⟩
  | @normal m s hs =>
    exact float_described rfl MeasurableSet.univ (inferInstanceAs (IsProbabilityMeasure (gaussianReal m _))) (measurable_gaussianPDFReal _ _) (fun x _ => normal_eval x m hs) (C09_normal m hs).1.law
      (.of_forall fun x hx => absurd trivial hx)
  | @halfnormal l s hs =>
    have hp : IsProbabilityMeasure (Lib.law .halfnormal [fin l, fin s]) := Measure.isProbabilityMeasure_map (by fun_prop)
    exact float_described rfl measurableSet_Ioi hp ((measurable_gaussianPDFReal _ _).const_mul 2) (fun x hx => halfnormal_eval_ge hs (le_of_lt hx)) (C11_halfnormal l hs).1.law
      (ae_of_forall_ne l fun x hx h => ((C11_halfnormal l hs).2 x).2 (lt_of_le_of_ne (not_lt.1 h) hx))
  | @beta a b ha hb =>
    refine float_described rfl measurableSet_Ioo (isProbabilityMeasureBeta ha hb) (measurable_betaPDFReal a b) (fun x hx => beta_eval_in ha hb hx.1 hx.2) (C12_beta ha hb).1.law (ae_two 0 1 fun x h1 h2 hx => ?_)
    exact (C12_beta ha hb).2 x fun h => hx ⟨lt_of_le_of_ne h.1 (Ne.symm h1), lt_of_le_of_ne h.2 h2⟩
  | @exponential m hm =>
    exact float_described (f := fun x => m⁻¹ * Real.exp (-(m⁻¹ * x))) rfl measurableSet_Ioi (isProbabilityMeasure_expMeasure (inv_pos.2 hm)) (by fun_prop) (fun x hx => exponential_eval_nonneg hm (le_of_lt hx)) (C13_exponential hm).1.law
      (ae_of_forall_ne 0 fun x hx h => ((C13_exponential hm).2 x).2 (lt_of_le_of_ne (not_lt.1 h) hx))
  | @laplace m b hb =>
    have h1 := isProbabilityMeasure_expMeasure (one_pos (α := ℝ))
    have hp : IsProbabilityMeasure (Lib.law .laplace [fin m, fin b]) := by
      refine ⟨?_⟩
      show ((2 : ENNReal)⁻¹ • (expMeasure 1).map (fun e => m + b * e) + (2 : ENNReal)⁻¹ • (expMeasure 1).map (fun e => m - b * e)) univ = 1
      have e1 := (Measure.isProbabilityMeasure_map (μ := expMeasure 1) (f := fun e => m + b * e) (by fun_prop)).measure_univ
      have e2 := (Measure.isProbabilityMeasure_map (μ := expMeasure 1) (f := fun e => m - b * e) (by fun_prop)).measure_univ
      rw [Measure.add_apply, Measure.smul_apply, Measure.smul_apply, e1, e2, smul_eq_mul, mul_one, ENNReal.inv_two_add_inv_two]
    exact float_described (f := fun x => (2 * b)⁻¹ * Real.exp (-|x - m| / b)) rfl MeasurableSet.univ hp (by fun_prop) (fun x _ => laplace_eval x m hb) (C14_laplace m hb).law (.of_forall fun x hx => absurd trivial hx)
  | @lognormal m s hs =>
    have hp : IsProbabilityMeasure (Lib.law .lognormal [fin m, fin s]) := Measure.isProbabilityMeasure_map (by fun_prop)
    exact float_described (f := fun x => x⁻¹ * gaussianPDFReal m (s ^ 2).toNNReal (Real.log x)) rfl measurableSet_Ioi hp (measurable_inv.mul ((measurable_gaussianPDFReal _ _).comp Real.measurable_log)) (fun x hx => lognormal_eval_pos m hs hx)
      (C15_lognormal m hs).1.law (.of_forall fun x hx => ((C15_lognormal m hs).2 x).2 (not_lt.1 hx))
  | @pareto a m ha hm =>
    exact float_described rfl measurableSet_Ioi (isProbabilityMeasure_paretoMeasure hm ha) (measurable_paretoPDFReal m a) (fun x hx => pareto_eval_ge ha hm (le_of_lt hx)) (C16_pareto ha hm).1.law
      (ae_of_forall_ne m fun x hx h => ((C16_pareto ha hm).2 x).2 (lt_of_le_of_ne (not_lt.1 h) hx))
  | @cauchy a b hb =>
    exact float_described rfl MeasurableSet.univ (inferInstanceAs (IsProbabilityMeasure (cauchyMeasure a _))) (measurable_cauchyPDFReal _ _) (fun x _ => cauchy_eval x a hb) (C17_cauchy a hb).1.law
      (.of_forall fun x hx => absurd trivial hx)
  | @halfcauchy l b hb =>
    have hp : IsProbabilityMeasure (Lib.law .halfcauchy [fin l, fin b]) := Measure.isProbabilityMeasure_map (by fun_prop)
    exact float_described rfl measurableSet_Ioi hp ((measurable_cauchyPDFReal _ _).const_mul 2) (fun x hx => halfcauchy_eval_ge hb (le_of_lt hx)) (C18_halfcauchy l hb).1.law
      (ae_of_forall_ne l fun x hx h => ((C18_halfcauchy l hb).2 x).2 (lt_of_le_of_ne (not_lt.1 h) hx))
  | @gamma a t ha ht =>
    exact float_described rfl measurableSet_Ioi (isProbabilityMeasure_gammaMeasure ha (by positivity)) (measurable_gammaPDFReal a (1 / t)) (fun x hx => gamma_eval_pos ha ht hx) (C19_gamma_partial ha ht).1.law
      (ae_of_forall_ne 0 fun x hx h => (C19_gamma_partial ha ht).2 x (lt_of_le_of_ne (not_lt.1 h) hx))
  | @invgamma a b ha hb =>
    have h1 := isProbabilityMeasure_gammaMeasure ha hb
    have hp : IsProbabilityMeasure (Lib.law .invgamma [fin a, fin b]) := Measure.isProbabilityMeasure_map measurable_inv.aemeasurable
    exact float_described (f := fun x => (x ^ 2)⁻¹ * gammaPDFReal a b x⁻¹) rfl measurableSet_Ioi hp ((by fun_prop : Measurable fun x : ℝ => (x ^ 2)⁻¹).mul ((measurable_gammaPDFReal a b).comp measurable_inv)) (fun x hx => invgamma_eval_pos ha hb hx)
      (C20_invgamma ha hb).1.law (.of_forall fun x hx => ((C20_invgamma ha hb).2 x).2 (not_lt.1 hx))
  | @chisquare n hn =>
    refine float_described rfl measurableSet_Ioi (isProbabilityMeasure_gammaMeasure (by positivity) (by positivity)) (measurable_gammaPDFReal (n / 2) (1 / 2)) (fun x hx => ?_) (C21_chisquare hn).1.law
      (ae_of_forall_ne 0 fun x hx h => (C21_chisquare hn).2 x (lt_of_le_of_ne (not_lt.1 h) hx))
    have := gamma_eval_pos (α := n / 2) (θ := 2) (by positivity) (by norm_num) hx
    rw [← this]
    show chisquareLogprob _ _ = _
    rw [chisquareLogprob, ofNat_eq, div_fin _ (by norm_num)]
  | @wald m l hm hl =>
    refine float_described (f := waldPDF m l) rfl measurableSet_Ioi ⟨(C22_wald hm hl).2.1⟩ ?_ (fun x hx => wald_eval_pos hm hl hx) (C22_wald hm hl).1.law (.of_forall fun x hx => ((C22_wald hm hl).2.2.2 x).2 (not_lt.1 hx))
    unfold waldPDF
    fun_prop
  | @weibull c hc =>
    have h1 := isProbabilityMeasure_expMeasure (one_pos (α := ℝ))
    have hp : IsProbabilityMeasure (Lib.law .weibull [fin c]) := Measure.isProbabilityMeasure_map (by fun_prop)
    exact float_described (f := fun x => c * x ^ (c - 1) * Real.exp (-(x ^ c))) rfl measurableSet_Ioi hp (by fun_prop) (fun x hx => weibull_eval_pos hc hx) (C23_weibull_partial hc).2.1
      (ae_of_forall_ne 0 fun x hx h => (C23_weibull_partial hc).2.2 x (lt_of_le_of_ne (not_lt.1 h) hx))
  | @vonmises m k hk =>
    refine float_described (f := fun x => (2 * Real.pi * i0Real k)⁻¹ * Real.exp (k * Real.cos (x - m))) rfl measurableSet_Ioo ⟨(C24_vonmises m hk).2.1⟩ (by fun_prop) (fun x hx => vonmises_in m hk ⟨hx.1.le, hx.2.le⟩) (C24_vonmises m hk).1.law
      (ae_two (-Real.pi) Real.pi fun x h1 h2 hx => ((C24_vonmises m hk).2.2 x).2 fun h => hx ⟨lt_of_le_of_ne h.1 (Ne.symm h1), lt_of_le_of_ne h.2 h2⟩)
  | @triangular a c b hac hcb hab =>
    have hm := triangular_measurable a c b
    have hp : IsProbabilityMeasure (Lib.law .triangular [fin a, fin c, fin b]) := by
      refine ⟨?_⟩
      rw [← (C25_triangular_partial hac hcb hab).2.2.2, ← setLIntegral_univ, triangular_law hac hcb hab MeasurableSet.univ]
    refine float_described (f := triangularPDF a c b) rfl measurableSet_Ioo hp hm (fun x hx => triangular_inside hac hcb hx) (fun s hs => triangular_law hac hcb hab hs) (ae_two a b fun x h1 h2 hx => ?_)
    exact (C25_triangular_partial hac hcb hab).2.1 x fun h => hx ⟨lt_of_le_of_ne h.1 (Ne.symm h1), lt_of_le_of_ne h.2 h2⟩
  | @gumbel m b hb =>
    have h1 := isProbabilityMeasure_expMeasure (one_pos (α := ℝ))
    have hp : IsProbabilityMeasure (Lib.law .gumbel [fin m, fin b]) := Measure.isProbabilityMeasure_map (by fun_prop)
    exact float_described (f := fun x => b⁻¹ * Real.exp (-((x - m) / b)) * Real.exp (-(Real.exp (-((x - m) / b))))) rfl MeasurableSet.univ hp (by fun_prop) (fun x _ => gumbel_eval x m hb) (C26_gumbel m hb).law
      (.of_forall fun x hx => absurd trivial hx)
  | @logistic m s hs =>
    have hp : IsProbabilityMeasure (Lib.law .logistic [fin m, fin s]) := by
      obtain ⟨law, h1, _, h3⟩ := C27_logistic m hs
      refine ⟨?_⟩
      rw [← h3, ← h1.law _ MeasurableSet.univ, logistic_law m hs MeasurableSet.univ]
    exact float_described (f := logisticPDF m s) rfl MeasurableSet.univ hp (logistic_measurable m s) (fun x _ => logistic_inside m hs x) (fun t ht => logistic_law m hs ht) (.of_forall fun x hx => absurd trivial hx)
  | @studentt n l s hn hs =>
    have h1 : IsProbabilityMeasure (gammaMeasure (n / 2) (n / 2)) := isProbabilityMeasure_gammaMeasure (by positivity) (by positivity)
    have hp : IsProbabilityMeasure (Lib.law .studentt [fin n, fin l, fin s]) := Measure.isProbabilityMeasure_map (by fun_prop)
    refine float_described (f := fun x => tMixConst n s ((x - l) / s)) rfl MeasurableSet.univ hp ?_ (fun x _ => studentt_eval x l hn hs) (C35_studentt_partial l hn hs).1.law (.of_forall fun x hx => absurd trivial hx)
    unfold tMixConst
    fun_prop
  | @binomial n p h0 h1 =>
    refine int_described rfl (onNat_nonneg (binomialMass_nonneg h0 h1)) (C28_binomial n h0 h1) ?_ (fun x ⟨k, hk, _⟩ => nat_integers hk) (onNat_zero fun k hk => ?_)
    · show massLaw (onNat (binomialMass ⌊(n : ℝ)⌋₊ p)) = _
      rw [Nat.floor_natCast]
    · rw [binomialMass, if_neg]
      exact fun h => hk ⟨k, rfl, by exact_mod_cast h⟩
  | @betabinomial n a b ha hb =>
    have hz : ∀ k, ¬ k ≤ n → betaBinomialMass n a b k = 0 := fun k hk => by simp [betaBinomialMass, binomialMass, hk]
    refine int_described rfl (onNat_nonneg fun k => ?_) (C29_betabinomial n ha hb) ?_ (fun x ⟨k, hk, _⟩ => nat_integers hk) (onNat_zero fun k hk => ?_)
    · by_cases h : k ≤ n
      · have h1 := beta_pos (by positivity : 0 < a + k) (by positivity : 0 < b + (n - k : ℕ))
        have h2 := beta_pos ha hb
        rw [betaBinomialMass_eq ha hb h]; positivity
      · rw [hz k h]
    · show massLaw (onNat (betaBinomialMass ⌊(n : ℝ)⌋₊ a b)) = _
      rw [Nat.floor_natCast]
    · exact hz k fun h => hk ⟨k, rfl, by exact_mod_cast h⟩
  | @bernoulli p h0 h1 =>
    refine int_described rfl (onNat_nonneg fun k => ?_) (C30_bernoulli h0 h1).1 rfl ?_ (onNat_zero fun k hk => ?_)
    · match k with
      | 0 => exact sub_nonneg.2 h1
      | 1 => exact h0
      | k + 2 => exact le_rfl
    · rintro x (rfl | rfl)
      · exact ⟨0, by simp⟩
      · exact ⟨1, by simp⟩
    · match k with
      | 0 => exact absurd (.inl (by simp)) hk
      | 1 => exact absurd (.inr (by simp)) hk
      | k + 2 => rfl
  | @poisson m hm =>
    refine int_described rfl (onNat_nonneg fun k => ?_) (C31_poisson hm) rfl ?_ (onNat_zero fun k hk => absurd ⟨k, rfl⟩ hk)
    · unfold poissonMass; positivity
    · rintro _ ⟨k, rfl⟩; exact nat_integers rfl
  | @nbinom n p hn hb h0 h1 =>
    refine int_described rfl (onNat_nonneg fun k => (negBinomialMass_pos hn h0 h1 k).le) (C32_nbinom_partial hn hb h0 h1) rfl ?_ (onNat_zero fun k hk => absurd ⟨k, rfl⟩ hk)
    rintro _ ⟨k, rfl⟩; exact nat_integers rfl
  | @geometric p h0 h1 =>
    have h2 : 0 ≤ 1 - p := sub_nonneg.2 h1
    refine int_described rfl (onNat_nonneg fun k => ?_) (C33_geometric h0 h1) rfl (fun x ⟨k, hk, _⟩ => nat_integers hk) (onNat_zero fun k hk => ?_)
    · cases k with
      | zero => exact le_rfl
      | succ k => rw [geometricMass]; positivity
    · cases k with
      | zero => rfl
      | succ k => exact absurd ⟨k + 1, rfl, by exact_mod_cast Nat.le_add_left 1 k⟩ hk
  | @hypergeometric g b n hn =>
    refine int_described rfl (onNat_nonneg fun k => ?_) (C34_hypergeometric hn) ?_ (fun x ⟨k, hk, _⟩ => nat_integers hk) (onNat_zero fun k hk => ?_)
    · unfold hypergeometricMass; split_ifs <;> positivity
    · show massLaw (onNat (hypergeometricMass ⌊(g : ℝ)⌋₊ ⌊(b : ℝ)⌋₊ ⌊(n : ℝ)⌋₊)) = _
      simp only [Nat.floor_natCast]
    · by_cases h1 : k ≤ n
      · have : g < k := by
          by_contra h
          exact hk ⟨k, rfl, by exact_mod_cast not_lt.1 h, by exact_mod_cast h1⟩
        rw [hypergeometricMass, if_pos h1, Nat.choose_eq_zero_of_lt this]; simp
      · rw [hypergeometricMass, if_neg h1]

end Verif.Library
