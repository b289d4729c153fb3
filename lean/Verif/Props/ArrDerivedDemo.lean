import Verif.Props.ArrDerivedJoint
import Verif.Props.Cdf

/-! # C108: a model with derived array variables

`τ ~ Exponential(5)`; `v = exp(cumsum(ε))` where `ε` is a vector of normal variables with standard deviation `τ` (a geometric random walk);
`w = clip(u, -1, 1)` where `u` is a vector of normal variables with means `v` (censored observations). -/

namespace Verif.ArrGraph.Walk
open Verif Cond MeasureTheory ProbabilityTheory Set
open Schools (Dist normalK expK law1 scalar vector)

/-- The elementwise formulas. -/
noncomputable def elem : Dist → FVal → List FVal → Except Err FVal
  | .normal => normalK
  | .exponential => expK

noncomputable def cdfK : Dist → FVal → List FVal → Except Err FVal
  | .normal, x, [m, s] => normalLogcdf x m s
  | _, _, _ => .error .notImplemented

noncomputable def kernel (d : Dist) : Arr FVal → List (Arr FVal) → Except Err (Arr FVal) := elemwiseLogprob (elem d)

noncomputable def cdf (d : Dist) : Arr FVal → List (Arr FVal) → Except Err (Arr FVal) := elemwiseLogprob (cdfK d)

theorem normal_total (v : FVal) (m : ℝ) {s : ℝ} (hs : 0 < s) : ∃ y, normalLogprob v (.fin m) (.fin s) = .ok y := by
  simp [normalLogprob, checkParam, FVal.gt, FVal.lt, hs]

theorem normal_res {z : FVal} (hz : z = .nan ∨ z = .pinf ∨ z = .ninf) {s : ℝ} (hs : 0 < s) :
    (-half * FVal.sq z - FVal.log (FVal.sqrt (2 * .fin Real.pi)) - FVal.log (.fin s)).toDens = 0 := by
  have h1 : FVal.log (FVal.sqrt (2 * .fin Real.pi)) = .fin (Real.log (Real.sqrt (2 * Real.pi))) := by
    have e : (2 * .fin Real.pi : FVal) = .fin (2 * Real.pi) := rfl
    rw [e, FVal.sqrt, if_neg (not_lt.2 (by positivity)), FVal.log_fin_pos (by positivity)]
  rw [h1, FVal.log_fin_pos hs]
  have h2 : ∀ w : FVal, w = .pinf → (-half * w - .fin (Real.log (Real.sqrt (2 * Real.pi))) - .fin (Real.log s)).toDens = 0 := by
    rintro _ rfl
    have e : (-half * .pinf : FVal) = .ninf := by
      show FVal.infMul (-(1 / 2)) = _
      rw [FVal.infMul, if_neg (by norm_num), if_pos (by norm_num)]
    rw [e]
    rfl
  rcases hz with rfl | rfl | rfl
  · rfl
  · exact h2 _ rfl
  · exact h2 _ rfl

theorem normal_outside {v : FVal} (hv : ∀ x : ℝ, v ≠ .fin x) (m : ℝ) {s : ℝ} (hs : 0 < s) : dens (normalLogprob v (.fin m) (.fin s)) = 0 := by
  have hz : (v - .fin m) / .fin s = .nan ∨ (v - .fin m) / .fin s = .pinf ∨ (v - .fin m) / .fin s = .ninf := by
    cases v with
    | fin x => exact absurd rfl (hv x)
    | nan => exact .inl rfl
    | pinf =>
      refine .inr (.inl ?_)
      show (if s < 0 then FVal.ninf else .pinf) = _
      rw [if_neg hs.not_gt]
    | ninf =>
      refine .inr (.inr ?_)
      show (if s < 0 then FVal.pinf else .ninf) = _
      rw [if_neg hs.not_gt]
  have h := normal_res hz hs
  rw [normalLogprob, checkParam, if_pos (by simpa [FVal.gt, FVal.lt] using hs)]
  exact h

/-- A vector or array of normal variables with any means and standard deviations that fit. -/
theorem normal_entries {s : List ℕ} {a b : Arr FVal} (hfit : Fit s [a, b]) (ha : ∀ c, InRange c s → ∃ m : ℝ, a.get (project c a.shape) = .fin m)
    (hb : ∀ c, InRange c s → ∃ sd : ℝ, 0 < sd ∧ b.get (project c b.shape) = .fin sd) :
    EntryDensity s (fun x => kernel .normal x [a, b]) (fun _ => univ) fun c => law1 .normal (paramsAt [a, b] c) := by
  have hp : ∀ c, InRange c s → ∃ m sd : ℝ, 0 < sd ∧ paramsAt [a, b] c = [.fin m, .fin sd] := fun c hc => by
    obtain ⟨m, hm⟩ := ha c hc
    obtain ⟨sd, h0, hs⟩ := hb c hc
    exact ⟨m, sd, h0, by simp only [paramsAt, List.map_cons, List.map_nil, hm, hs]⟩
  have e : ∀ (m : ℝ) {sd : ℝ}, 0 < sd → (fun x : ℝ => dens (normalLogprob (.fin x) (.fin m) (.fin sd))) = gaussianPDF m (sd ^ 2).toNNReal := fun m sd h => by
    funext x
    rw [normal_eval x m h, dens_log (gaussianPDFReal_pos _ _ _ (toNNReal_sq_ne h))]
    rfl
  refine C108_plain (k := normalK) hfit (fun c hc v => ?_) (fun c hc => ?_) (fun c hc => MeasurableSet.univ) (fun c hc x _ => ?_) (C := fun _ => ∅) (fun _ => countable_empty) (fun c hc v hv => ?_) (fun c hc => ?_) fun c hc => ?_ <;>
    obtain ⟨m, sd, h0, hpc⟩ := hp c hc <;> rw [hpc]
  · exact normal_total v m h0
  · exact inferInstanceAs (IsProbabilityMeasure (gaussianReal _ _))
  · obtain ⟨y, hy, hne⟩ := (C09_normal m h0).1.clean x
    show normalLogprob _ _ _ ≠ _
    rw [hy]
    intro h
    cases h
    exact hne rfl
  · exact normal_outside (fun x => hv x (.inl trivial)) m h0
  · exact (e m h0) ▸ measurable_gaussianPDF m (sd ^ 2).toNNReal
  · show gaussianReal _ _ = volume.withDensity fun x => dens (normalLogprob (.fin x) (.fin m) (.fin sd))
    rw [e m h0]
    exact gaussianReal_of_var_ne_zero _ (toNNReal_sq_ne h0)

theorem exp_outside {v : FVal} (hv : ∀ x ∈ Ioi (0 : ℝ) ∪ {0}, v ≠ .fin x) {m : ℝ} (hm : 0 < m) : dens (exponentialLogprob v (.fin m)) = 0 := by
  cases v with
  | fin x =>
    have hx : x < 0 := by
      by_contra h
      rcases (not_lt.1 h).eq_or_lt with h | h
      · exact hv x (.inr h.symm) rfl
      · exact hv x (.inl h) rfl
    rw [exponential_eval_neg hm hx]
    rfl
  | nan => simp [exponentialLogprob, checkParam, FVal.gt, FVal.lt, hm, FVal.ge, FVal.le, FVal.switch, dens]
  | pinf =>
    have e : (-FVal.log (.fin m) - FVal.pinf / .fin m) = .ninf := by
      rw [FVal.log_fin_pos hm]
      show -FVal.fin (Real.log m) - (if m < 0 then FVal.ninf else .pinf) = _
      rw [if_neg hm.not_gt]
      rfl
    simp [exponentialLogprob, checkParam, FVal.gt, FVal.lt, hm, FVal.ge, FVal.le, FVal.switch, dens, e]
  | ninf => simp [exponentialLogprob, checkParam, FVal.gt, FVal.lt, hm, FVal.ge, FVal.le, FVal.switch, dens]

/-- An array of exponential variables. At `0` the formula is not zero, although the law is concentrated on the positive numbers. -/
theorem exp_entries {s : List ℕ} {a : Arr FVal} (hfit : Fit s [a]) (ha : ∀ c, InRange c s → ∃ m : ℝ, 0 < m ∧ a.get (project c a.shape) = .fin m) :
    EntryDensity s (fun x => kernel .exponential x [a]) (fun _ => Ioi 0) fun c => law1 .exponential (paramsAt [a] c) := by
  have hp : ∀ c, InRange c s → ∃ m : ℝ, 0 < m ∧ paramsAt [a] c = [.fin m] := fun c hc => by
    obtain ⟨m, h0, hm⟩ := ha c hc
    exact ⟨m, h0, by simp only [paramsAt, List.map_cons, List.map_nil, hm]⟩
  refine C108_plain (k := expK) hfit (fun c hc v => ?_) (fun c hc => ?_) (fun c hc => measurableSet_Ioi) (fun c hc x hx => ?_) (C := fun _ => {0}) (fun _ => countable_singleton 0)
    (fun c hc v hv => ?_) (fun c hc => ?_) fun c hc => ?_ <;> obtain ⟨m, h0, hpc⟩ := hp c hc <;> rw [hpc]
  · show ∃ y, exponentialLogprob v (.fin m) = .ok y
    simp [exponentialLogprob, checkParam, FVal.gt, FVal.lt, h0]
  · exact isProbabilityMeasure_expMeasure (inv_pos.2 h0)
  · obtain ⟨y, hy, hne⟩ := (C13_exponential h0).1.clean x
    show exponentialLogprob _ _ ≠ _
    rw [hy]
    intro h
    cases h
    exact hne rfl
  · exact exp_outside hv h0
  · have e := TransVec.Demo.dens_exponential h0
    exact e ▸ (measurable_exponentialPDFReal _).ennreal_ofReal
  · have e := TransVec.Demo.dens_exponential h0
    show volume.withDensity (exponentialPDF m⁻¹) = volume.withDensity fun x => dens (exponentialLogprob (.fin x) (.fin m))
    rw [e]

/-- The log-CDF at the parameters of an entry. -/
noncomputable def logcdfAt (p : List (Arr FVal)) (c : List ℕ) (v : FVal) : FVal := match cdfK .normal v (paramsAt p c) with | .ok l => l | .error _ => .nan

theorem cdf_entries {s : List ℕ} {a b : Arr FVal} (hfit : Fit s [a, b]) (ha : ∀ c, InRange c s → ∃ m : ℝ, a.get (project c a.shape) = .fin m)
    (hb : ∀ c, InRange c s → ∃ sd : ℝ, 0 < sd ∧ b.get (project c b.shape) = .fin sd) :
    EntrywiseFn s (fun x => cdf .normal x [a, b]) (logcdfAt [a, b]) ∧ ∀ c, InRange c s → IsLogCdf (fun x => .ok (logcdfAt [a, b] c (.fin x))) (law1 .normal (paramsAt [a, b] c)) := by
  have hp : ∀ c, InRange c s → ∃ m sd : ℝ, 0 < sd ∧ paramsAt [a, b] c = [.fin m, .fin sd] := fun c hc => by
    obtain ⟨m, hm⟩ := ha c hc
    obtain ⟨sd, h0, hs⟩ := hb c hc
    exact ⟨m, sd, h0, by simp only [paramsAt, List.map_cons, List.map_nil, hm, hs]⟩
  have hk : ∀ c, InRange c s → ∀ v, cdfK .normal v (paramsAt [a, b] c) = .ok (logcdfAt [a, b] c v) := fun c hc v => by
    obtain ⟨m, sd, h0, hpc⟩ := hp c hc
    simp only [logcdfAt, hpc, cdfK, normalLogcdf, checkParam]
    rw [if_pos (by simpa [FVal.gt, FVal.lt] using h0)]
  refine ⟨elemwise_fn hfit hk, fun c hc => ?_⟩
  have e : (fun x : ℝ => Except.ok (logcdfAt [a, b] c (.fin x))) = fun x => cdfK .normal (.fin x) (paramsAt [a, b] c) := by
    funext x
    exact (hk c hc _).symm
  rw [e]
  obtain ⟨m, sd, h0, hpc⟩ := hp c hc
  rw [hpc]
  exact (C43_normal_logcdf m h0).1

theorem fit_self_scalar {s : List ℕ} {a b : Arr FVal} (ha : a.shape = s) (hb : b.shape = []) : Fit s [a, b] := by
  rw [Fit, List.map_cons, List.map_cons, List.map_nil, ha, hb, bshape_some]
  have hmax : maxDims [s, s, []] = s.length := by simp [maxDims]
  rw [hmax]
  refine ⟨rfl, fun d h => ⟨fun t ht => ?_, fun _ => ⟨s, by simp, ?_⟩⟩⟩
  · simp only [List.mem_cons, List.not_mem_nil, or_false] at ht
    rcases ht with rfl | rfl | rfl
    · exact .inr (by simp [padded, h])
    · exact .inr (by simp [padded, h])
    · exact .inl (by simp [padded, h])
  · simp [padded, h]

variable (T : ℕ)

def shape (i : ℕ) : List ℕ := if i = 0 then [] else [T + 1]

/-- Laws of the variables of the model. -/
noncomputable def law (i : ℕ) : Derived Dist → List (Arr FVal) → Measure (Fin (entries (shape T i)) → ℝ)
  | .base d, p => Measure.pi fun k => law1 d (paramsAt p (coord k))
  | .layer .exp (.cumsum _ (.base d)), p => ((Measure.pi fun k => law1 d (paramsAt p (coord k))).map (cumsumOf (shape T i) 0)).map fun x k => Real.exp (x k)
  | .clip _ _ d, _ :: _ :: p => Measure.pi fun k => (law1 d (paramsAt p (coord k))).map (clipTo (some (-1)) (some 1))
  | _, _ => 0

noncomputable def ref (i : ℕ) : Measure (Fin (entries (shape T i)) → ℝ) := Measure.pi fun _ => if i = 2 then volume + atomAt (some (-1)) + atomAt (some 1) else volume

noncomputable def tau : RVDef (Derived Dist) := ⟨.base .exponential, 1, ![.const (scalar 5)]⟩
noncomputable def v : RVDef (Derived Dist) := ⟨.layer .exp (.cumsum 0 (.base .normal)), 2, ![.const (scalar 0), .rv 0 (.base .exponential) 1 tau.args]⟩
noncomputable def w : RVDef (Derived Dist) := ⟨.clip true true .normal, 4, ![.const (scalar (-1)), .const (scalar 1), .rv 1 (.layer .exp (.cumsum 0 (.base .normal))) 2 v.args, .const (scalar 1)]⟩
noncomputable def model : List (ℕ × RVDef (Derived Dist)) := [(0, tau), (1, v), (2, w)]

variable (empty : List ℕ → FVal)

/-- The geometric random walk. -/
theorem walk_good {sd : ℝ} (hsd : 0 < sd) {b : Arr FVal} (hb : b.shape = []) (hbv : ∀ c, b.get (project c b.shape) = .fin sd) :
    JointDensity [T + 1] (fun x => derivedKernel kernel cdf elem empty (.layer .exp (.cumsum 0 (.base .normal))) x [scalar 0, b]) (fun _ => ArrTransform.fn [] .exp '' univ)
      (law T 1 (.layer .exp (.cumsum 0 (.base .normal))) [scalar 0, b]) := by
  have h1 := normal_entries (s := [T + 1]) (a := scalar 0) (b := b) (Schools.fit_scalars rfl hb) (fun c _ => ⟨0, rfl⟩) (fun c _ => ⟨sd, hsd, hbv c⟩)
  have h2 := h1.joint
  have h3 := C108_cumsum kernel cdf elem empty (s := [T + 1]) (axis := 0) (a := 0) ⟨by simp, .inl rfl⟩ (by simp) (e := .base .normal) (p := [scalar 0, b]) h2
  exact C108_layer_joint kernel cdf elem empty (s := [T + 1]) (op := .exp) (p := [scalar 0, b]) (q := [scalar 0, b]) (t := .exp) ⟨rfl, rfl⟩ h3 trivial fun _ _ => trivial

noncomputable def K : Derived Dist → Arr FVal → List (Arr FVal) → Except Err (Arr FVal) := derivedKernel kernel cdf elem empty

theorem valid (ρ : ℕ → Arr FVal) (σ : ∀ i, Fin (entries (shape T i)) → ℝ) : Valid (fun i => numbers (shape T i)) (K empty) (law T) (ref T) ρ model σ := by
  have p0 : ∀ σ ρ, params σ ρ tau = [scalar 5] := fun σ ρ => by simp [params, tau, List.ofFn_succ, evalAt]
  have hpos : ∀ᵐ x ∂(law T 0 (.base .exponential) [scalar 5]), 0 < x (⟨0, one_pos⟩ : Fin 1) := by
    have hp : ∀ k : Fin (entries (shape T 0)), law1 .exponential (paramsAt [scalar 5] (coord k)) = (volume : Measure ℝ).withDensity (exponentialPDF 5⁻¹) := fun k => rfl
    have : ∀ k : Fin (entries (shape T 0)), SigmaFinite (law1 .exponential (paramsAt [scalar 5] (coord k))) := fun k => by
      rw [hp]
      have : IsProbabilityMeasure ((volume : Measure ℝ).withDensity (exponentialPDF 5⁻¹)) := isProbabilityMeasure_expMeasure (by norm_num)
      infer_instance
    exact (Measure.quasiMeasurePreserving_eval _ _).ae (Schools.exp_pos_ae (m := 5))
  refine ⟨?_, ?_⟩
  · rw [p0]
    exact Schools.exp_good (s := []) (a := scalar 5) rfl (m := fun _ => 5) (fun _ => rfl) (by norm_num)
  rw [p0]
  filter_upwards [hpos] with x0 h0
  have p1 : params (asg (fun i => numbers (shape T i)) (Function.update σ 0 x0)) ρ v = [scalar 0, numbers [] x0] := by
    simp only [params, v, List.ofFn_succ, evalAt, asg]
    rfl
  refine ⟨?_, ae_of_all _ fun x1 => ⟨?_, ae_of_all _ fun _ => trivial⟩⟩
  · rw [p1]
    exact (walk_good T empty h0 (b := numbers [] x0) rfl fun c => Schools.scalar_entry x0 c).goodAt
  · have p2 : params (asg (fun i => numbers (shape T i)) (Function.update (Function.update σ 0 x0) 1 x1)) ρ w = [scalar (-1), scalar 1, numbers [T + 1] x1, scalar 1] := by
      simp only [params, w, List.ofFn_succ, evalAt, asg]
      rfl
    rw [p2]
    have hfit : Fit [T + 1] [numbers [T + 1] x1, scalar 1] := fit_self_scalar rfl rfl
    have ha : ∀ c, InRange c [T + 1] → ∃ m : ℝ, (numbers [T + 1] x1).get (project c (numbers [T + 1] x1).shape) = .fin m := fun c hc => by
      rw [show (numbers [T + 1] x1).shape = [T + 1] from rfl, project_self hc]
      obtain ⟨k, rfl⟩ := shape_coord hc
      exact ⟨_, numbers_get x1 k⟩
    have hb : ∀ c, InRange c [T + 1] → ∃ sd : ℝ, 0 < sd ∧ (scalar 1).get (project c (scalar 1).shape) = .fin sd := fun c _ => ⟨1, one_pos, rfl⟩
    obtain ⟨hc1, hc2⟩ := cdf_entries hfit ha hb
    exact C108_clip kernel cdf elem empty (s := [T + 1]) (t := []) (d := .normal) (lc := true) (uc := true) (lower := scalar (-1)) (upper := scalar 1) (normal_entries hfit ha hb) hc1 hc2
      (bshape_nil_right _) (bshape_nil_right _) (by rfl) (fun c _ => .inr ⟨1, rfl⟩) (fun c _ => by simp [Arr.entry, scalar, FVal.le]) (lo := fun _ => some (-1)) (hi := fun _ => some 1)
      (fun c _ => rfl) (fun c _ => rfl) fun c _ => by simp [BoundsLt]

/-- Value variables `10`, `11`, `12`. -/
noncomputable def env (σ : ∀ i, Fin (entries (shape T i)) → ℝ) (i : ℕ) : Arr FVal := if 10 ≤ i then numbers (shape T (i - 10)) (σ (i - 10)) else ⟨[], fun _ => .nan⟩

/-- The joint density of the model, for series of any length; `w` is realized. -/
example (ρ : ℕ → Arr FVal) (ω : ℕ → Derived Dist → List (Arr FVal) → Arr FVal) :
    ∃ j vvs, joint (Dict.get? model) [1, 0] [11, 10] [(2, 12)] = .ok (some (j, vvs)) ∧
      (∀ x, x ∈ vvs ↔ ∃ v, v ∉ Dict.keys [(2, 12)] ∧ Dict.get? (rvValues [1, 0] [11, 10] [(2, 12)]) v = some x) ∧
      ∀ σ₀, ∀ φ, refE (ref T) model σ₀ (fun σ => dens (evalJoint (K empty) (env T σ) ω j) * φ σ) = sampleE (fun i => numbers (shape T i)) (law T) ρ model σ₀ φ := by
  obtain ⟨j, vvs, h1, h2, h3⟩ := C106_joint_density (fun i => numbers (shape T i)) (K empty) (law T) (ref T) ρ ω (l := model) (rvs := [1, 0]) (clones := [11, 10]) (realized := [(2, 12)])
    (by simp [model]) (by simp [DependencyOrder, model, tau, v, w, Mentions, Fin.forall_fin_succ]) (by simp [model, tau, v, w, User, Fin.forall_fin_succ]) rfl
    (by intro v; simp [model, Dict.keys]; tauto) (by simp [model, tau, v, w, Mentions, Fin.forall_fin_succ]) (env T)
    (by
      intro σ v x h
      have e : rvValues [1, 0] [11, 10] [(2, 12)] = [(1, 11), (0, 10), (2, 12)] := by decide
      rw [e] at h
      simp only [Dict.get?] at h
      split_ifs at h with h1 h2 h3 <;> cases h <;> (subst_vars; rfl))
    (by
      intro σ p hp
      simp only [model, List.mem_cons, List.not_mem_nil, or_false] at hp
      rcases hp with rfl | rfl | rfl <;> simp [params, tau, v, w, List.ofFn_succ, evalAt])
  exact ⟨j, vvs, h1, h2, fun σ₀ φ => h3 σ₀ (valid T empty ρ σ₀) φ⟩

/-- The non-centred parametrisation `μ + τ ε` of a vector of normal variables. -/
example (J : ℕ) (mu tau : ℝ) (ht : 0 < tau) :
    GoodAt (numbers [J]) (derivedKernel kernel cdf elem empty (.layer .loc (.layer .scale (.base .normal))))
      (Measure.pi fun k : Fin (entries [J]) => ((law1 .normal (paramsAt [scalar 0, scalar 1] (coord k))).map fun x => x * tau).map fun x => x + mu) (Measure.pi fun _ => volume)
      [scalar mu, scalar tau, scalar 0, scalar 1] := by
  have h1 := normal_entries (s := [J]) (a := scalar 0) (b := scalar 1) (Schools.fit_scalars rfl rfl) (fun c _ => ⟨0, rfl⟩) (fun c _ => ⟨1, one_pos, rfl⟩)
  have h2 := C108_layer kernel cdf elem empty (s := [J]) (e := .base .normal) (op := .scale) (p := [scalar tau, scalar 0, scalar 1]) (t := .scale (scalar tau)) ⟨_, rfl, rfl⟩ h1 (bshape_nil_right _)
    fun c _ => ⟨tau, ht.ne', rfl⟩
  have h3 := C108_layer kernel cdf elem empty (s := [J]) (e := .layer .scale (.base .normal)) (op := .loc) (p := [scalar mu, scalar tau, scalar 0, scalar 1]) (t := .loc (scalar mu)) ⟨_, rfl, rfl⟩ h2
    (bshape_nil_right _) fun c _ => ⟨mu, rfl⟩
  exact C108_independent h3

/-- Logarithms and inverses of a vector of exponential variables. -/
example (J : ℕ) (m : ℝ) (hm : 0 < m) :
    GoodAt (numbers [J]) (derivedKernel kernel cdf elem empty (.layer .log (.base .exponential)))
      (Measure.pi fun k : Fin (entries [J]) => (law1 .exponential (paramsAt [scalar m] (coord k))).map Real.log) (Measure.pi fun _ => volume) [scalar m] ∧
    GoodAt (numbers [J]) (derivedKernel kernel cdf elem empty (.layer .reciprocal (.base .exponential)))
      ((Measure.pi fun k : Fin (entries [J]) => law1 .exponential (paramsAt [scalar m] (coord k))).map fun x k => 1 / x k) (Measure.pi fun _ => volume) [scalar m] := by
  have h1 := exp_entries (s := [J]) (a := scalar m) (bshape_nil_right _) fun c _ => ⟨m, hm, rfl⟩
  exact ⟨C108_independent (C108_layer kernel cdf elem empty (s := [J]) (e := .base .exponential) (op := .log) (p := [scalar m]) (t := .log) ⟨rfl, rfl⟩ h1 trivial fun c _ => subset_rfl),
    (C108_layer_joint kernel cdf elem empty (s := [J]) (e := .base .exponential) (op := .reciprocal) (p := [scalar m]) (t := .reciprocal) ⟨rfl, rfl⟩ h1.joint trivial
      fun c _ => subset_rfl).goodAt⟩

end Verif.ArrGraph.Walk
