import Verif.Lemmas.Erfc
import Verif.Spec.Cdf
import Verif.Props.Dist1
import Verif.Props.Discrete1

/-! # C43-C48: log-CDFs and inverse CDFs -/

namespace Verif
open FVal MeasureTheory ProbabilityTheory ENNReal Set Filter Topology

/-! ### Normal -/

theorem normalLogcdf_eval (μ : ℝ) {σ : ℝ} (hσ : 0 < σ) (v : ℝ) :
    normalLogcdf (fin v) (fin μ) (fin σ) = .ok (fin (Real.log (Phi ((v - μ) / σ)))) := by
  have h2 : (0 : ℝ) < Real.sqrt 2 := by positivity
  set z := (v - μ) / σ with hz
  have hPz := Phi_pos z
  rw [normalLogcdf]
  beta_reduce
  have hzv : ((fin v - fin μ) / fin σ : FVal) = fin z := by fv [div_fin _ hσ.ne']; rw [hz]
  rw [hzv, checkParam_ok (by simpa using hσ)]
  congr 1
  have e2 : (2 : ℝ) ≠ 0 := two_ne_zero
  by_cases h : z < -1
  · rw [switch_pos (by simpa using h)]
    fv [sqrt_fin (show (0 : ℝ) ≤ 2 by norm_num), div_fin _ h2.ne', erfcx, div_fin _ e2]
    have e : erfcReal (-z / Real.sqrt 2) = 2 * Phi z := by
      have := erfcReal_half (-z)
      rw [Phi_neg] at this; linarith
    have hp : 0 < Real.exp ((-z / Real.sqrt 2) ^ 2) * erfcReal (-z / Real.sqrt 2) / 2 := by rw [e]; positivity
    rw [log_fin_pos hp, sub_fin, e, show Real.exp ((-z / Real.sqrt 2) ^ 2) * (2 * Phi z) / 2 =
      Real.exp ((-z / Real.sqrt 2) ^ 2) * Phi z by ring, Real.log_mul (Real.exp_pos _).ne' hPz.ne', Real.log_exp, div_pow,
      Real.sq_sqrt (by norm_num)]
    congr 1; ring
  · rw [switch_neg (by simpa using h)]
    fv [sqrt_fin (show (0 : ℝ) ≤ 2 by norm_num), div_fin _ h2.ne', erfc, div_fin _ e2]
    have e : 1 + -erfcReal (z / Real.sqrt 2) / 2 = Phi z := by
      have := erfcReal_half z
      linarith
    rw [log1p_fin_pos (by rw [e]; exact hPz), e]

/-- **C43** For `σ > 0`, in both numerical branches, `exp (normal logcdf)` at `v` is `P(X ≤ v)` for `X ~ N(μ, σ²)`; it is always a
finite number (in particular never NaN), and it is the integral over `(-∞, v]` of `exp (normal logprob)`. -/
theorem C43_normal_logcdf (μ : ℝ) {σ : ℝ} (hσ : 0 < σ) :
    IsLogCdf (fun v => normalLogcdf (fin v) (fin μ) (fin σ)) (gaussianReal μ (σ ^ 2).toNNReal) ∧
    (∀ v, ∃ r, normalLogcdf (fin v) (fin μ) (fin σ) = .ok (fin r)) ∧
    ∀ v, dens (normalLogcdf (fin v) (fin μ) (fin σ)) = ∫⁻ x in Iic v, dens (normalLogprob (fin x) (fin μ) (fin σ)) := by
  have hc : ∀ v, dens (normalLogcdf (fin v) (fin μ) (fin σ)) = gaussianReal μ (σ ^ 2).toNNReal (Iic v) := fun v => by
    rw [normalLogcdf_eval μ hσ, dens_log (Phi_pos _), gaussianReal_Iic μ hσ]
  refine ⟨⟨fun v => ?_, hc⟩, fun v => ⟨_, normalLogcdf_eval μ hσ v⟩, fun v => ?_⟩
  · rw [normalLogcdf_eval μ hσ]; exact clean_fin _
  · rw [hc, (C09_normal μ hσ).1.law _ measurableSet_Iic]

example := C43_normal_logcdf 1 (σ := 2) (by norm_num)

/-- The contract of `at.erfcinv`: on `(0, 2)` it returns a number whose `erfc` is the argument. -/
def IsErfcInv (erfcinv : FVal → FVal) : Prop :=
  ∀ y : ℝ, 0 < y → y < 2 → ∃ x, erfcinv (fin y) = fin x ∧ erfcReal x = y

/-- **C47** For `σ > 0`: the CDF of `N(μ, σ²)` at `icdf q` is `q` for every `0 < q < 1`, and `icdf` of the CDF at `x` is `x`
for every real `x`. -/
theorem C47_normal_icdf {erfcinv : FVal → FVal} (he : IsErfcInv erfcinv) (μ : ℝ) {σ : ℝ} (hσ : 0 < σ) :
    (∀ q : ℝ, 0 < q → q < 1 → ∃ x, normalIcdf erfcinv (fin q) (fin μ) (fin σ) = fin x ∧
      gaussianReal μ (σ ^ 2).toNNReal (Iic x) = ENNReal.ofReal q) ∧
    ∀ x : ℝ, normalIcdf erfcinv (fin (gaussianReal μ (σ ^ 2).toNNReal (Iic x)).toReal) (fin μ) (fin σ) = fin x := by
  have h2 : (0 : ℝ) < Real.sqrt 2 := by positivity
  have key : ∀ q : ℝ, 0 < q → q < 1 → ∃ x, normalIcdf erfcinv (fin q) (fin μ) (fin σ) = fin x ∧ Phi ((x - μ) / σ) = q := by
    intro q h0 h1
    obtain ⟨x, hx, hex⟩ := he (2 * q) (by linarith) (by linarith)
    refine ⟨μ + σ * -Real.sqrt 2 * x, ?_, ?_⟩
    · rw [normalIcdf]
      fv [sqrt_fin (show (0 : ℝ) ≤ 2 by norm_num), hx]
    · have e : (μ + σ * -Real.sqrt 2 * x - μ) / σ = -(Real.sqrt 2 * x) := by field_simp; ring
      have := erfcReal_half (Real.sqrt 2 * x)
      rw [mul_div_cancel_left₀ _ h2.ne', hex] at this
      rw [e, Phi_neg]; linarith
  refine ⟨fun q h0 h1 => ?_, fun x => ?_⟩
  · obtain ⟨x, hx, hp⟩ := key q h0 h1
    exact ⟨x, hx, by rw [gaussianReal_Iic μ hσ, hp]⟩
  · rw [gaussianReal_Iic μ hσ, ENNReal.toReal_ofReal (Phi_pos _).le]
    obtain ⟨y, hy, hp⟩ := key _ (Phi_pos ((x - μ) / σ)) (Phi_lt_one _)
    have := Phi_strictMono.injective hp
    rw [hy, fin_inj]
    rw [div_left_inj' hσ.ne'] at this
    linarith

theorem exists_isErfcInv : ∃ e, IsErfcInv e := by
  have h2 : (0 : ℝ) < Real.sqrt 2 := by positivity
  have hs : ∀ y : ℝ, ∃ x, 0 < y → y < 2 → erfcReal x = y := by
    intro y
    by_cases h : 0 < y ∧ y < 2
    · obtain ⟨z, hz⟩ := Phi_surj (q := 1 - y / 2) (by linarith [h.2]) (by linarith [h.1])
      refine ⟨z / Real.sqrt 2, fun _ _ => ?_⟩
      have := erfcReal_half z
      linarith
    · exact ⟨0, fun h0 h1 => absurd ⟨h0, h1⟩ h⟩
  choose f hf using hs
  exact ⟨fun v => match v with | fin y => fin (f y) | v => v, fun y h0 h1 => ⟨f y, rfl, hf y h0 h1⟩⟩

example : ∃ e, IsErfcInv e ∧ ∃ x, normalIcdf e (fin (1 / 4)) (fin 3) (fin 2) = fin x ∧
    gaussianReal 3 ((2 : ℝ) ^ 2).toNNReal (Iic x) = ENNReal.ofReal (1 / 4) := by
  obtain ⟨e, he⟩ := exists_isErfcInv
  exact ⟨e, he, (C47_normal_icdf he 3 (σ := 2) (by norm_num)).1 (1 / 4) (by norm_num) (by norm_num)⟩

/-! ### Uniform -/

/-- **C44** For `a < b`, `exp (uniform logcdf)` at `v` is `P(X ≤ v)` for `X` uniform on `[a, b]`; never NaN, `-inf` exactly up to `a`
and exactly `0` from `b` on. -/
theorem C44_uniform_logcdf {a b : ℝ} (hab : a < b) :
    IsLogCdf (fun v => uniformLogcdf (fin v) (fin a) (fin b)) (ProbabilityTheory.cond volume (Icc a b)) ∧
    (∀ v, IsNegInf (uniformLogcdf (fin v) (fin a) (fin b)) ↔ v ≤ a) ∧
    ∀ v, uniformLogcdf (fin v) (fin a) (fin b) = .ok (fin 0) ↔ b ≤ v := by
  have hv : volume (Icc a b) = ENNReal.ofReal (b - a) := Real.volume_Icc
  have hba : 0 < b - a := sub_pos.2 hab
  have hle : a ≤ b := hab.le
  have e1 : ∀ v, v < a → uniformLogcdf (fin v) (fin a) (fin b) = .ok ninf := fun v h => by
    rw [uniformLogcdf]; beta_reduce; rw [checkParam_ok (by simpa using hle), switch_pos (by simpa using h)]
  have e2 : ∀ v, a ≤ v → v < b → uniformLogcdf (fin v) (fin a) (fin b) = .ok (log (fin ((v - a) / (b - a)))) :=
    fun v h h' => by
      rw [uniformLogcdf]; beta_reduce
      rw [checkParam_ok (by simpa using hle), switch_neg (by simpa using h), switch_pos (by simpa using h')]
      fv []
      rw [log_div_nonneg (sub_nonneg.2 h) hba]
  have e3 : ∀ v, b ≤ v → uniformLogcdf (fin v) (fin a) (fin b) = .ok (fin 0) := fun v h => by
    rw [uniformLogcdf]; beta_reduce
    rw [checkParam_ok (by simpa using hle), switch_neg (by simpa using hle.trans h), switch_neg (by simpa using h)]
    rfl
  have e2' : ∀ v, a < v → v < b → uniformLogcdf (fin v) (fin a) (fin b) = .ok (fin (Real.log ((v - a) / (b - a)))) :=
    fun v h h' => by rw [e2 v h.le h', log_fin_pos (div_pos (sub_pos.2 h) hba)]
  refine ⟨⟨fun v => ?_, fun v => ?_⟩, fun v => ?_, fun v => ?_⟩
  · rcases lt_or_ge v a with h | h
    · rw [e1 v h]; exact clean_ninf
    · rcases lt_or_ge v b with h' | h'
      · rw [e2 v h h']; exact clean_log_nonneg (div_nonneg (sub_nonneg.2 h) hba.le)
      · rw [e3 v h']; exact clean_fin _
  · rw [ProbabilityTheory.cond_apply measurableSet_Icc, hv]
    rcases lt_or_ge v a with h | h
    · rw [e1 v h, show Icc a b ∩ Iic v = ∅ by
        ext x; simp only [mem_inter_iff, mem_Icc, mem_Iic, mem_empty_iff_false, iff_false]; intro hx; linarith [hx.1.1, hx.2]]
      simp
    · rcases lt_or_ge v b with h' | h'
      · rw [e2 v h h', dens_log_nonneg (div_nonneg (sub_nonneg.2 h) hba.le), show Icc a b ∩ Iic v = Icc a v by
          ext x; simp only [mem_inter_iff, mem_Icc, mem_Iic]
          exact ⟨fun hx => ⟨hx.1.1, hx.2⟩, fun hx => ⟨⟨hx.1, hx.2.trans h'.le⟩, hx.2⟩⟩, Real.volume_Icc,
          ENNReal.ofReal_div_of_pos hba, ENNReal.div_eq_inv_mul]
      · rw [e3 v h', show Icc a b ∩ Iic v = Icc a b by
          ext x; simp only [mem_inter_iff, mem_Icc, mem_Iic]
          exact ⟨fun hx => hx.1, fun hx => ⟨hx, hx.2.trans h'⟩⟩, hv, ENNReal.inv_mul_cancel (by simpa using hba) (by simp)]
        simp
  · rcases lt_trichotomy v a with h | rfl | h
    · rw [e1 v h]; simp [IsNegInf, h.le]
    · rw [e2 v le_rfl hab]; simp [IsNegInf]
    · rcases lt_or_ge v b with h' | h'
      · rw [e2' v h h']; simp [IsNegInf, h]
      · rw [e3 v h']; simp [IsNegInf, h]
  · rcases lt_trichotomy v a with h | rfl | h
    · rw [e1 v h]; simp [h.trans hab]
    · rw [e2 v le_rfl hab]; simp [hab]
    · rcases lt_or_ge v b with h' | h'
      · rw [e2' v h h']
        have h1 : (v - a) / (b - a) < 1 := (div_lt_one hba).2 (by linarith)
        have := Real.log_neg (div_pos (sub_pos.2 h) hba) h1
        simp only [Except.ok.injEq, fin_inj, this.ne, not_le.2 h']
      · rw [e3 v h']; simp [h']

example := C44_uniform_logcdf (a := -1) (b := 3) (by norm_num)

/-! ### Poisson -/

theorem poissonTail_hasDeriv (k : ℕ) (x : ℝ) :
    HasDerivAt (fun t => -∑ j ∈ Finset.range (k + 1), poissonMass t j) (Real.exp (-x) * x ^ k / k.factorial) x := by
  have hd : ∀ j : ℕ, HasDerivAt (fun t => poissonMass t j)
      (Real.exp (-x) * ((j : ℝ) * x ^ (j - 1)) / j.factorial - Real.exp (-x) * x ^ j / j.factorial) x := by
    intro j
    unfold poissonMass
    have h1 : HasDerivAt (fun t : ℝ => Real.exp (-t)) (-Real.exp (-x)) x := by
      simpa using (hasDerivAt_id' x).fun_neg.exp
    refine ((h1.fun_mul (hasDerivAt_pow j x)).div_const _).congr_deriv ?_
    ring
  induction k with
  | zero =>
    simp only [zero_add, Finset.range_one, Finset.sum_singleton]
    refine (hd 0).fun_neg.congr_deriv ?_
    simp
  | succ k ih =>
    simp only [Finset.sum_range_succ _ (k + 1), neg_add]
    refine (ih.fun_add (hd (k + 1)).fun_neg).congr_deriv ?_
    simp only [Nat.add_sub_cancel, Nat.factorial_succ]
    push_cast
    field_simp
    ring

theorem poissonTail_tendsto (k : ℕ) :
    Tendsto (fun t => -∑ j ∈ Finset.range (k + 1), poissonMass t j) atTop (𝓝 0) := by
  rw [show (0 : ℝ) = -∑ j ∈ Finset.range (k + 1), (0 : ℝ) / (j.factorial : ℝ) by simp]
  refine (tendsto_finsetSum _ fun j _ => ?_).neg
  unfold poissonMass
  refine Tendsto.div_const ?_ _
  have := Real.tendsto_pow_mul_exp_neg_atTop_nhds_zero j
  simpa [mul_comm] using this

theorem gammaincc_nat (k : ℕ) {μ : ℝ} (hμ : 0 ≤ μ) :
    gammaincc (fin ((k : ℝ) + 1)) (fin μ) = fin (∑ j ∈ Finset.range (k + 1), poissonMass μ j) := by
  have h := integral_Ioi_of_hasDerivAt_of_nonneg' (a := μ) (fun x _ => poissonTail_hasDeriv k x)
    (fun x hx => by have : 0 ≤ x := hμ.trans (le_of_lt hx); positivity) (poissonTail_tendsto k)
  rw [gammaincc, if_pos ⟨by positivity, hμ⟩, fin_inj, Real.Gamma_nat_eq_factorial]
  have e : ∀ t : ℝ, Real.exp (-t) * t ^ ((k : ℝ) + 1 - 1) = k.factorial * (Real.exp (-t) * t ^ k / k.factorial) := by
    intro t
    rw [add_sub_cancel_right, Real.rpow_natCast]
    field_simp
  simp_rw [e]
  rw [integral_const_mul, h]
  field_simp
  ring

theorem tsum_le_nat (f : ℕ → ℝ) (hf : ∀ k, 0 ≤ f k) (g : ℤ → ℝ≥0∞) (hg : ∀ k, g k = ENNReal.ofReal (onNat f k))
    (v : ℝ) (hv : 0 ≤ ⌊v⌋) : (open Classical in ∑' k : ℤ, if (k : ℝ) ≤ v then g k else 0) =
      ENNReal.ofReal (∑ j ∈ Finset.range (⌊v⌋.toNat + 1), f j) := by
  classical
  rw [ENNReal.ofReal_sum_of_nonneg fun j _ => hf j]
  rw [← (Nat.cast_injective (R := ℤ)).tsum_eq]
  · rw [tsum_eq_sum (s := Finset.range (⌊v⌋.toNat + 1))]
    · refine Finset.sum_congr rfl fun j hj => ?_
      have hj : (j : ℤ) ≤ ⌊v⌋ := by simp at hj; omega
      rw [if_pos (by exact_mod_cast Int.le_floor.1 hj), hg]
      simp [onNat]
    · intro j hj
      rw [if_neg]
      intro h
      have : (j : ℤ) ≤ ⌊v⌋ := Int.le_floor.2 (by exact_mod_cast h)
      simp at hj; omega
  · intro k hk
    rw [Function.mem_support] at hk
    by_contra hn
    apply hk
    split_ifs
    · rw [hg, onNat, if_neg]
      · simp
      · intro h0; exact hn ⟨k.toNat, by simp [h0]⟩
    · rfl

theorem tsum_le_neg (f : ℕ → ℝ) (g : ℤ → ℝ≥0∞) (hg : ∀ k, g k = ENNReal.ofReal (onNat f k))
    (v : ℝ) (hv : v < 0) : (open Classical in ∑' k : ℤ, if (k : ℝ) ≤ v then g k else 0) = 0 := by
  classical
  rw [ENNReal.tsum_eq_zero]
  intro k
  split_ifs with h
  · have : k < 0 := by
      have : (k : ℝ) < 0 := h.trans_lt hv
      exact_mod_cast this
    rw [hg, onNat, if_neg (not_le.2 this)]; simp
  · rfl

/-- **C45** For `μ ≥ 0` (including `0`) and every real `v`, `exp (poisson logcdf)` at `v` is the sum of the masses
`exp (poisson logprob)` of the integers `k ≤ v`; never NaN. -/
theorem C45_poisson_logcdf {μ : ℝ} (hμ : 0 ≤ μ) (v : ℝ) :
    IsLogSum (poissonLogcdf (fin v) (fin μ)) (fun k => poissonLogprob (fin k) (fin μ)) v := by
  have hm := (C31_poisson hμ).mass
  have hnn : ∀ k, 0 ≤ poissonMass μ k := fun k => by unfold poissonMass; positivity
  rcases lt_or_ge v 0 with h | h
  · have hf : ⌊v⌋ < 0 := Int.floor_lt.2 (by simpa using h)
    have hf' : (⌊v⌋ : ℝ) < 0 := by exact_mod_cast hf
    have : poissonLogcdf (fin v) (fin μ) = .ok ninf := by
      rw [poissonLogcdf]; beta_reduce
      rw [checkParam_ok (by simpa using hμ), floor_fin, switch_neg (by simpa using hf)]
    rw [this]
    exact ⟨clean_ninf, by rw [tsum_le_neg _ _ hm v h]; rfl⟩
  · have hf : 0 ≤ ⌊v⌋ := Int.floor_nonneg.2 h
    obtain ⟨n, hn⟩ := Int.eq_ofNat_of_zero_le hf
    have : poissonLogcdf (fin v) (fin μ) = .ok (log (fin (∑ j ∈ Finset.range (n + 1), poissonMass μ j))) := by
      rw [poissonLogcdf]; beta_reduce
      rw [checkParam_ok (by simpa using hμ), floor_fin, switch_pos (by simp [hf]), hn]
      fv [Int.cast_natCast]
      rw [gammaincc_nat n hμ]
    rw [this]
    have hs : 0 ≤ ∑ j ∈ Finset.range (n + 1), poissonMass μ j := Finset.sum_nonneg fun j _ => hnn j
    refine ⟨clean_log_nonneg hs, ?_⟩
    rw [tsum_le_nat _ hnn _ hm v hf, dens_log_nonneg hs, hn, Int.toNat_natCast]

example := C45_poisson_logcdf (μ := 3 / 2) (by norm_num) (7 / 2)
example := C45_poisson_logcdf (μ := 0) le_rfl 2

/-! ### Geometric -/

theorem geometric_sum (p : ℝ) (n : ℕ) : ∑ j ∈ Finset.range (n + 1), geometricMass p j = 1 - (1 - p) ^ n := by
  induction n with
  | zero => simp [geometricMass]
  | succ n ih => rw [Finset.sum_range_succ, ih]; simp only [geometricMass]; ring

/-- **C46** For `0 < p ≤ 1` and every integer `v`, `exp (geometric logcdf)` at `v` is the sum of the masses
`exp (geometric logprob)` of the integers `k ≤ v`; never NaN. -/
theorem C46_geometric_logcdf {p : ℝ} (h0 : 0 < p) (h1 : p ≤ 1) (v : ℤ) :
    IsLogSum (geometricLogcdf (fin v) (fin p)) (fun k => geometricLogprob (fin k) (fin p)) v := by
  have hm := (C33_geometric h0 h1).mass
  have hnn : ∀ k, 0 ≤ geometricMass p k := fun k => by
    cases k with
    | zero => simp [geometricMass]
    | succ k => have : 0 ≤ 1 - p := by linarith
                simp only [geometricMass]; positivity
  have hck : [le 0 (fin p), ge 1 (fin p)].foldr And True := by simp [h0.le, h1]
  rcases lt_or_ge v 0 with h | h
  · have hv : (v : ℝ) < 0 := by exact_mod_cast h
    have : geometricLogcdf (fin v) (fin p) = .ok ninf := by
      rw [geometricLogcdf]; beta_reduce
      rw [checkParam_ok hck, switch_pos (by simp [h.le])]
    rw [this]
    exact ⟨clean_ninf, by rw [tsum_le_neg _ _ hm v hv]; rfl⟩
  · obtain ⟨n, rfl⟩ := Int.eq_ofNat_of_zero_le h
    have h1p : 0 ≤ 1 - p := by linarith
    have hpow : (1 - p) ^ n ≤ 1 := pow_le_one₀ h1p (by linarith)
    have : geometricLogcdf (fin ((n : ℤ) : ℝ)) (fin p) = .ok (log (fin (1 - (1 - p) ^ n))) := by
      rw [geometricLogcdf]; beta_reduce
      rw [checkParam_ok hck]
      rcases Nat.eq_zero_or_pos n with rfl | hn
      · rw [switch_pos (by simp)]; simp
      · have hn' : (0 : ℝ) < n := by exact_mod_cast hn
        rw [switch_neg (by simpa using hn.ne'), log1mexp]
        congr 1
        rcases h1.lt_or_eq with hp | rfl
        · rw [Int.cast_natCast, neg_fin, log1p_fin_pos (by linarith)]
          fv []
          rw [← sub_eq_add_neg, mul_comm, Real.exp_nat_mul, Real.exp_log (by linarith)]
        · have : log1p (-fin (1 : ℝ)) = ninf := by simp [log1p]
          rw [this, Int.cast_natCast, ninf_mul_fin, infMul_neg (by linarith)]
          simp [hn.ne']
    rw [this]
    have hs : 0 ≤ 1 - (1 - p) ^ n := by linarith
    refine ⟨clean_log_nonneg hs, ?_⟩
    rw [tsum_le_nat _ hnn _ hm _ (by simp), dens_log_nonneg hs, geometric_sum]
    simp

example := C46_geometric_logcdf (p := 1 / 3) (by norm_num) (by norm_num) 4
example := C46_geometric_logcdf (p := 1) (by norm_num) (by norm_num) 4

theorem cdfOfMass_geometric_nat (p : ℝ) (n : ℕ) : cdfOfMass (onNat (geometricMass p)) n = 1 - (1 - p) ^ n := by
  rw [cdfOfMass, ← geometric_sum p n, ← (Nat.cast_injective (R := ℤ)).tsum_eq]
  · rw [tsum_eq_sum (s := Finset.range (n + 1))]
    · refine Finset.sum_congr rfl fun j hj => ?_
      have : j ≤ n := by simpa [Nat.lt_succ_iff] using hj
      simp [onNat, this]
    · intro j hj
      have : ¬ j ≤ n := by simpa [Nat.lt_succ_iff] using hj
      simp [this]
  · intro k hk
    rw [Function.mem_support] at hk
    by_contra hn
    apply hk
    split_ifs
    · rw [onNat, if_neg]
      intro h0; exact hn ⟨k.toNat, by simp [h0]⟩
    · rfl

theorem cdfOfMass_geometric_neg (p : ℝ) {k : ℤ} (hk : k < 0) : cdfOfMass (onNat (geometricMass p)) k = 0 := by
  rw [cdfOfMass]
  have : ∀ j : ℤ, (if j ≤ k then onNat (geometricMass p) j else 0) = 0 := fun j => by
    split_ifs with h
    · rw [onNat, if_neg (by omega)]
    · rfl
  simp [this]

/-- **C48** For `0 < p < 1` and `0 < q < 1`, the geometric `icdf` at `q` is the least integer `k` with `P(X ≤ k) ≥ q`. -/
theorem C48_geometric_icdf {p q : ℝ} (hp0 : 0 < p) (hp1 : p < 1) (hq0 : 0 < q) (hq1 : q < 1) :
    ∃ k : ℤ, geometricIcdf (fin q) (fin p) = fin k ∧ IsLeast {k | q ≤ cdfOfMass (onNat (geometricMass p)) k} k := by
  have hlp : Real.log (1 - p) < 0 := Real.log_neg (by linarith) (by linarith)
  have hlq : Real.log (1 - q) < 0 := Real.log_neg (by linarith) (by linarith)
  set r := Real.log (1 - q) / Real.log (1 - p) with hr
  have hrpos : 0 < r := div_pos_of_neg_of_neg hlq hlp
  have hiff : ∀ k : ℤ, q ≤ cdfOfMass (onNat (geometricMass p)) k ↔ ⌈r⌉ ≤ k := by
    intro k
    rw [Int.ceil_le]
    rcases lt_or_ge k 0 with h | h
    · rw [cdfOfMass_geometric_neg p h]
      have : (k : ℝ) < 0 := by exact_mod_cast h
      constructor <;> intro h' <;> linarith
    · obtain ⟨n, rfl⟩ := Int.eq_ofNat_of_zero_le h
      rw [cdfOfMass_geometric_nat, Int.cast_natCast, hr, div_le_iff_of_neg hlp]
      have : (n : ℝ) * Real.log (1 - p) = Real.log ((1 - p) ^ n) := (Real.log_pow _ _).symm
      rw [this, Real.log_le_log_iff (pow_pos (by linarith) n) (by linarith)]
      constructor <;> intro h' <;> linarith
  refine ⟨⌈r⌉, ?_, (hiff _).2 le_rfl, fun k hk => (hiff k).1 hk⟩
  rw [geometricIcdf, neg_fin, neg_fin, log1p_fin_pos (by linarith), log1p_fin_pos (by linarith), div_fin, ceil_fin, ← sub_eq_add_neg,
    ← sub_eq_add_neg]
  rw [← sub_eq_add_neg]; exact hlp.ne

example := C48_geometric_icdf (p := 1 / 3) (q := 9 / 10) (by norm_num) (by norm_num) (by norm_num) (by norm_num)

end Verif
