import Verif.Spec.Transform
import Verif.Lemmas.FVal
import Verif.Lemmas.Density
import Mathlib.Analysis.SpecialFunctions.Log.Deriv
import Mathlib.Analysis.SpecialFunctions.ExpDeriv
import Mathlib.Analysis.SpecialFunctions.Trigonometric.Deriv
import Mathlib.Analysis.Calculus.Deriv.Inv
import Mathlib.MeasureTheory.Function.JacobianOneDim

/-! # C49-C53: value transforms are invertible and their Jacobian terms are right -/

namespace Verif
open FVal Set

@[simp] theorem realOf_fin (x : ℝ) : realOf (.ok (.fin x)) = x := rfl

/-! ## C49: forward and backward invert each other -/

/-- **C49**, location: a bijection of the real line. -/
theorem C49_loc (a : ℝ) : Inverts (.loc (.fin a)) univ univ :=
  ⟨fun x _ => ⟨x + a, trivial, by simp [RVTransform.loc], by simp [RVTransform.loc]⟩,
    fun y _ => ⟨y - a, trivial, by simp [RVTransform.loc], by simp [RVTransform.loc]⟩⟩

/-- **C49**, scale: for every non-zero scale. -/
theorem C49_scale {a : ℝ} (ha : a ≠ 0) : Inverts (.scale (.fin a)) univ univ :=
  ⟨fun x _ => ⟨x * a, trivial, by simp [RVTransform.scale], by simp [RVTransform.scale, div_fin _ ha, ha]⟩,
    fun y _ => ⟨y / a, trivial, by simp [RVTransform.scale, div_fin _ ha], by simp [RVTransform.scale, ha]⟩⟩

example : Inverts (.scale (.fin (-3))) univ univ := C49_scale (by norm_num)

/-- **C49**, log: from the positive numbers onto the real line. -/
theorem C49_log : Inverts .log (Ioi 0) univ :=
  ⟨fun x hx => ⟨Real.log x, trivial, by simp [RVTransform.log, log_fin_pos hx], by simp [RVTransform.log, Real.exp_log hx]⟩,
    fun y _ => ⟨Real.exp y, Real.exp_pos y, by simp [RVTransform.log], by simp [RVTransform.log, log_fin_pos (Real.exp_pos y)]⟩⟩

/-- **C49**, exp: from the real line onto the positive numbers. -/
theorem C49_exp : Inverts .exp univ (Ioi 0) :=
  ⟨fun x _ => ⟨Real.exp x, Real.exp_pos x, by simp [RVTransform.exp], by simp [RVTransform.exp, log_fin_pos (Real.exp_pos x)]⟩,
    fun y hy => ⟨Real.log y, trivial, by simp [RVTransform.exp, log_fin_pos hy], by simp [RVTransform.exp, Real.exp_log hy]⟩⟩

/-- **C49**, reciprocal: on the non-zero numbers. -/
theorem C49_reciprocal : Inverts .reciprocal {0}ᶜ {0}ᶜ := by
  have h : ∀ x ∈ ({0}ᶜ : Set ℝ), ∃ y ∈ ({0}ᶜ : Set ℝ), FVal.reciprocal (.fin x) = .fin y ∧ FVal.reciprocal (.fin y) = .fin x := by
    intro x hx
    have hx0 : x ≠ 0 := hx
    refine ⟨1 / x, by simpa using hx0, reciprocal_fin hx0, ?_⟩
    rw [reciprocal_fin (by simpa using hx0)]; simp
  refine ⟨fun x hx => ?_, fun x hx => ?_⟩ <;>
  · obtain ⟨y, hy, e1, e2⟩ := h x hx
    exact ⟨y, hy, by simp [RVTransform.reciprocal, e1], by simp [RVTransform.reciprocal, e2]⟩

theorem sigmoid_mem (y : ℝ) : 1 / (1 + Real.exp (-y)) ∈ Ioo (0 : ℝ) 1 := by
  have := Real.exp_pos (-y)
  exact ⟨by positivity, (div_lt_one (by positivity)).2 (by linarith)⟩

/-- **C49**, interval with two bounds: from the open interval onto the real line. -/
theorem C49_interval {a b : ℝ} (hab : a < b) : Inverts (.interval (some (.fin a)) (some (.fin b))) (Ioo a b) univ := by
  have key : ∀ y : ℝ, 1 / (1 + Real.exp (-y)) * b + (1 - 1 / (1 + Real.exp (-y))) * a ∈ Ioo a b := by
    intro y
    obtain ⟨h0, h1⟩ := sigmoid_mem y
    constructor <;> nlinarith
  constructor
  · rintro x ⟨hxa, hxb⟩
    have h1 : 0 < x - a := by linarith
    have h2 : 0 < b - x := by linarith
    refine ⟨Real.log (x - a) - Real.log (b - x), trivial, ?_, ?_⟩
    · simp [RVTransform.interval, log_fin_pos h1, log_fin_pos h2]
    · have : Real.exp (-(Real.log (x - a) - Real.log (b - x))) = (b - x) / (x - a) := by
        rw [neg_sub, Real.exp_sub, Real.exp_log h1, Real.exp_log h2]
      simp only [RVTransform.interval, FVal.sigmoid, this, one_eq, mul_fin, sub_fin, add_fin, Except.ok.injEq, fin_inj]
      field_simp
      ring_nf
  · intro y _
    obtain ⟨h1, h2⟩ := key y
    refine ⟨_, key y, by simp [RVTransform.interval, FVal.sigmoid], ?_⟩
    have e1 := sub_pos.2 h1
    have e2 := sub_pos.2 h2
    simp only [RVTransform.interval, sub_fin, log_fin_pos e1, log_fin_pos e2, Except.ok.injEq, fin_inj]
    rw [← Real.log_div e1.ne' e2.ne']
    have hp := Real.exp_pos (-y)
    have hba : b - a ≠ 0 := by linarith
    have : (1 / (1 + Real.exp (-y)) * b + (1 - 1 / (1 + Real.exp (-y))) * a - a) /
        (b - (1 / (1 + Real.exp (-y)) * b + (1 - 1 / (1 + Real.exp (-y))) * a)) = Real.exp y := by
      have e3 : (1 / (1 + Real.exp (-y)) * b + (1 - 1 / (1 + Real.exp (-y))) * a - a) = (b - a) / (1 + Real.exp (-y)) := by
        field_simp; ring
      have e4 : (b - (1 / (1 + Real.exp (-y)) * b + (1 - 1 / (1 + Real.exp (-y))) * a)) = (b - a) * Real.exp (-y) / (1 + Real.exp (-y)) := by
        field_simp; ring
      rw [e3, e4, Real.exp_neg]
      have := Real.exp_pos y
      field_simp
    rw [this, Real.log_exp]

example : Inverts (.interval (some (.fin (-1))) (some (.fin 2))) (Ioo (-1) 2) univ := C49_interval (by norm_num)

/-- **C49**, interval bounded below. -/
theorem C49_interval_lower (a : ℝ) : Inverts (.interval (some (.fin a)) none) (Ioi a) univ :=
  ⟨fun x hx => ⟨Real.log (x - a), trivial, by simp [RVTransform.interval, log_fin_pos (sub_pos.2 hx)],
      by simp [RVTransform.interval, Real.exp_log (sub_pos.2 hx)]⟩,
    fun y _ => ⟨Real.exp y + a, by simp [Real.exp_pos], by simp [RVTransform.interval],
      by simp [RVTransform.interval, log_fin_pos (Real.exp_pos y)]⟩⟩

/-- **C49**, interval bounded above. -/
theorem C49_interval_upper (b : ℝ) : Inverts (.interval none (some (.fin b))) (Iio b) univ :=
  ⟨fun x hx => ⟨Real.log (b - x), trivial, by simp [RVTransform.interval, log_fin_pos (sub_pos.2 hx)],
      by simp [RVTransform.interval, Real.exp_log (sub_pos.2 hx)]⟩,
    fun y _ => ⟨b - Real.exp y, by simp [Real.exp_pos], by simp [RVTransform.interval],
      by simp [RVTransform.interval, log_fin_pos (Real.exp_pos y)]⟩⟩

/-- **C49**, interval without bounds: every method raises `ValueError`. -/
theorem C49_interval_none (v : FVal) : (RVTransform.interval none none).forward v = .error .valueError ∧
    (RVTransform.interval none none).backward v = .error .valueError ∧ (RVTransform.interval none none).logJacDet v = .error .valueError :=
  ⟨rfl, rfl, rfl⟩

/-- **C49**, log-odds: from `(0, 1)` onto the real line. -/
theorem C49_logodds : Inverts .logodds (Ioo 0 1) univ := by
  constructor
  · rintro x ⟨h0, h1⟩
    have h2 : 0 < 1 - x := by linarith
    have h3 : 0 < x / (1 - x) := by positivity
    refine ⟨Real.log (x / (1 - x)), trivial, by simp [RVTransform.logodds, div_fin _ h2.ne', log_fin_pos h3], ?_⟩
    simp only [RVTransform.logodds, FVal.sigmoid, Real.exp_neg, Real.exp_log h3, Except.ok.injEq, fin_inj]
    field_simp
    ring
  · intro y _
    obtain ⟨h0, h1⟩ := sigmoid_mem y
    refine ⟨_, sigmoid_mem y, rfl, ?_⟩
    have h2 := sub_pos.2 h1
    have e : 1 / (1 + Real.exp (-y)) / (1 - 1 / (1 + Real.exp (-y))) = Real.exp y := by
      have hp := Real.exp_pos (-y)
      have e4 : 1 - 1 / (1 + Real.exp (-y)) = Real.exp (-y) / (1 + Real.exp (-y)) := by field_simp; ring
      rw [e4, Real.exp_neg]
      have := Real.exp_pos y
      field_simp
    simp only [RVTransform.logodds, one_eq, sub_fin, div_fin _ h2.ne', e, log_fin_pos (Real.exp_pos y), Real.log_exp]

theorem arg_circle {y : ℝ} (hy : y ∈ Ioc (-Real.pi) Real.pi) : Complex.arg ⟨Real.cos y, Real.sin y⟩ = y := by
  have : (⟨Real.cos y, Real.sin y⟩ : ℂ) = Complex.cos y + Complex.sin y * Complex.I := by
    apply Complex.ext <;> simp [Complex.cos_ofReal_re, Complex.sin_ofReal_re, Complex.cos_ofReal_im, Complex.sin_ofReal_im]
  rw [this, Complex.arg_cos_add_sin_mul_I hy]

/-- **C49**, circular: on `(-π, π]`, where it is the identity. -/
theorem C49_circular : Inverts .circular (Ioc (-Real.pi) Real.pi) (Ioc (-Real.pi) Real.pi) := by
  have h : ∀ y ∈ Ioc (-Real.pi) Real.pi, RVTransform.circular.backward (.fin y) = .ok (.fin y) := fun y hy => by
    simp [RVTransform.circular, FVal.sin, FVal.cos, FVal.arctan2, arg_circle hy]
  exact ⟨fun x hx => ⟨x, hx, rfl, h x hx⟩, fun y hy => ⟨y, hy, h y hy, rfl⟩⟩

/-- **C49**, circular, every real number: `backward` lands in `(-π, π]`, at the same angle up to a multiple of `2π`. -/
theorem C49_circular_wraps (y : ℝ) : ∃ x ∈ Ioc (-Real.pi) Real.pi, ∃ k : ℤ,
    RVTransform.circular.backward (.fin y) = .ok (.fin x) ∧ x = y + k * (2 * Real.pi) := by
  refine ⟨_, Complex.arg_mem_Ioc ⟨Real.cos y, Real.sin y⟩, ?_⟩
  have h : (⟨Real.cos y, Real.sin y⟩ : ℂ) = Complex.cos y + Complex.sin y * Complex.I := by
    apply Complex.ext <;> simp [Complex.cos_ofReal_re, Complex.sin_ofReal_re, Complex.cos_ofReal_im, Complex.sin_ofReal_im]
  refine ⟨-toIocDiv Real.two_pi_pos (-Real.pi) y, by simp [RVTransform.circular, FVal.sin, FVal.cos, FVal.arctan2], ?_⟩
  rw [h, Complex.arg_cos_add_sin_mul_I_eq_toIocMod, ← self_sub_toIocDiv_zsmul]
  push_cast
  rw [zsmul_eq_mul]
  ring

theorem foldlM_append' {α β : Type*} (f : β → α → Except Err β) (l₁ l₂ : List α) (b : β) :
    (l₁ ++ l₂).foldlM f b = l₁.foldlM f b >>= fun b => l₂.foldlM f b := by simp

theorem chained_backward_cons (t : RVTransform) (ts : List RVTransform) (v : FVal) :
    (RVTransform.chained (t :: ts)).backward v = (RVTransform.chained ts).backward v >>= t.backward := by
  simp [RVTransform.chained]

/-- **C49**, chains of any length. -/
theorem C49_chained {ts : List RVTransform} {D R : Set ℝ} (h : Stages ts D R) : Inverts (.chained ts) D R := by
  induction h with
  | nil D => exact ⟨fun x hx => ⟨x, hx, rfl, rfl⟩, fun x hx => ⟨x, hx, rfl, rfl⟩⟩
  | @cons t ts D M R ht _ ih =>
    have hf : ∀ x y z : FVal, t.forward x = .ok y → (RVTransform.chained ts).forward y = .ok z →
        (RVTransform.chained (t :: ts)).forward x = .ok z := by
      intro x y z h1 h2
      simp only [RVTransform.chained, List.foldlM_cons, h1] at h2 ⊢
      exact h2
    have hb : ∀ x y z : FVal, (RVTransform.chained ts).backward z = .ok y → t.backward y = .ok x →
        (RVTransform.chained (t :: ts)).backward z = .ok x := by
      intro x y z h1 h2
      rw [chained_backward_cons, h1]; exact h2
    constructor
    · intro x hx
      obtain ⟨y, hy, e1, e2⟩ := ht.fwd x hx
      obtain ⟨z, hz, e3, e4⟩ := ih.fwd y hy
      exact ⟨z, hz, hf _ _ _ e1 e3, hb _ _ _ e4 e2⟩
    · intro z hz
      obtain ⟨y, hy, e1, e2⟩ := ih.bwd z hz
      obtain ⟨x, hx, e3, e4⟩ := ht.bwd y hy
      exact ⟨x, hx, hb _ _ _ e1 e3, hf _ _ _ e4 e2⟩

/-- A chain of three: `log`, then `-2 ·`, then `+ 1`. -/
example : Inverts (.chained [.log, .scale (.fin (-2)), .loc (.fin 1)]) (Ioi 0) univ :=
  C49_chained (.cons C49_log (.cons (C49_scale (by norm_num)) (.cons (C49_loc 1) (.nil _))))

/-! ## C50: `log_jac_det` -/

/-- **C50**, location. -/
theorem C50_loc (a : ℝ) : LogJac (.loc (.fin a)) univ := fun y _ =>
  ⟨1, by simpa [RVTransform.loc] using (hasDerivAt_id y).sub_const a, one_ne_zero, by simp [RVTransform.loc]⟩

/-- **C50**, scale, also negative. -/
theorem C50_scale {a : ℝ} (ha : a ≠ 0) : LogJac (.scale (.fin a)) univ := fun y _ =>
  ⟨1 / a, by simpa [RVTransform.scale, div_fin _ ha] using (hasDerivAt_id y).div_const a, by simpa using ha,
    by simp [RVTransform.scale, log_fin_pos (abs_pos.2 ha)]⟩

/-- **C50**, log. -/
theorem C50_log : LogJac .log univ := fun y _ =>
  ⟨Real.exp y, by simpa [RVTransform.log] using Real.hasDerivAt_exp y, (Real.exp_pos y).ne', by simp [RVTransform.log]⟩

theorem hasDerivAt_congr_on {f g : ℝ → ℝ} {R : Set ℝ} (hR : IsOpen R) (h : ∀ y ∈ R, f y = g y) {y d : ℝ} (hy : y ∈ R)
    (hd : HasDerivAt g d y) : HasDerivAt f d y :=
  hd.congr_of_eventuallyEq (Filter.eventually_of_mem (hR.mem_nhds hy) h)

/-- **C50**, exp: on the positive numbers, its range. -/
theorem C50_exp : LogJac .exp (Ioi 0) := fun y (hy : 0 < y) =>
  ⟨y⁻¹, hasDerivAt_congr_on (g := Real.log) isOpen_Ioi (fun z (hz : 0 < z) => by simp [RVTransform.exp, log_fin_pos hz]) hy
      (Real.hasDerivAt_log hy.ne'), (inv_pos.2 hy).ne', by simp [RVTransform.exp, log_fin_pos hy]⟩

/-- **C50**, reciprocal, for positive values.  Missing: negative values, where the formula `-2 log y` is NaN
(`C50_reciprocal_negative`). -/
theorem C50_reciprocal_partial : LogJac .reciprocal (Ioi 0) := fun y (hy : 0 < y) =>
  ⟨-(y ^ 2)⁻¹, hasDerivAt_congr_on (g := fun z => z⁻¹) isOpen_Ioi (fun z (hz : 0 < z) => by
      simp [RVTransform.reciprocal, reciprocal_fin hz.ne']) hy (hasDerivAt_inv hy.ne'),
    by simp [hy.ne'], by
      have : FVal.log (.fin y) = .fin (Real.log y) := log_fin_pos hy
      simp only [RVTransform.reciprocal, this, ofNat_eq, neg_fin, mul_fin, Except.ok.injEq, fin_inj, abs_neg, abs_inv, Real.log_inv,
        abs_pow, Real.log_pow, Real.log_abs]
      push_cast; ring⟩

/-- **C50** is false for the reciprocal transform at every negative value, although negative values are in its range: the derivative
of `backward` exists and is not zero, but `log_jac_det` is NaN. -/
theorem C50_reciprocal_negative {y : ℝ} (hy : y < 0) : RVTransform.reciprocal.logJacDet (.fin y) = .ok .nan ∧
    (∃ x, RVTransform.reciprocal.forward (.fin x) = .ok (.fin y)) ∧
    HasDerivAt (fun y => realOf (RVTransform.reciprocal.backward (.fin y))) (-(y ^ 2)⁻¹) y := by
  refine ⟨by simp [RVTransform.reciprocal, log_fin_neg hy], ⟨1 / y, ?_⟩, hasDerivAt_congr_on (g := fun z => z⁻¹) isOpen_Iio (fun z (hz : z < 0) => by
      simp [RVTransform.reciprocal, reciprocal_fin hz.ne]) hy (hasDerivAt_inv hy.ne)⟩
  have : (1 / y) ≠ 0 := by simpa using hy.ne
  show Except.ok (FVal.reciprocal (.fin (1 / y))) = _
  rw [reciprocal_fin this, one_div_one_div]

example : RVTransform.reciprocal.logJacDet (.fin (-1)) = .ok .nan := (C50_reciprocal_negative (by norm_num)).1

theorem hasDerivAt_sigmoid (y : ℝ) : HasDerivAt (fun y : ℝ => 1 / (1 + Real.exp (-y)))
    (Real.exp (-y) / (1 + Real.exp (-y)) ^ 2) y := by
  have h1 : HasDerivAt (fun y : ℝ => 1 + Real.exp (-y)) (-Real.exp (-y)) y := by
    simpa using ((hasDerivAt_neg y).exp).const_add 1
  have h2 := h1.inv (by positivity : (1 + Real.exp (-y)) ≠ 0)
  simp only [one_div]
  exact h2.congr_deriv (by ring)

/-- **C50**, interval with two bounds. -/
theorem C50_interval {a b : ℝ} (hab : a < b) : LogJac (.interval (some (.fin a)) (some (.fin b))) univ := fun y _ => by
  have hba : 0 < b - a := by linarith
  have hp := Real.exp_pos (-y)
  have h := ((hasDerivAt_sigmoid y).mul_const b).add (((hasDerivAt_sigmoid y).const_sub 1).mul_const a)
  refine ⟨(b - a) * (Real.exp (-y) / (1 + Real.exp (-y)) ^ 2), ?_, by positivity, ?_⟩
  · have e : (fun y => realOf ((RVTransform.interval (some (.fin a)) (some (.fin b))).backward (.fin y))) =
        (fun y => 1 / (1 + Real.exp (-y)) * b) + fun y => (1 - 1 / (1 + Real.exp (-y))) * a := by
      funext z; simp [RVTransform.interval, FVal.sigmoid]
    rw [e]
    exact h.congr_deriv (by ring)
  · rw [abs_of_pos (by positivity), Real.log_mul hba.ne' (by positivity), Real.log_div (by positivity) (by positivity), Real.log_exp, Real.log_pow]
    simp only [RVTransform.interval, FVal.softplus, sub_fin, log_fin_pos hba, neg_fin, exp_fin, log1p_fin_pos (by positivity : 0 < 1 + Real.exp (-y)),
      ofNat_eq, mul_fin, Except.ok.injEq, fin_inj]
    push_cast; ring

/-- **C50**, one-sided intervals. -/
theorem C50_interval_lower (a : ℝ) : LogJac (.interval (some (.fin a)) none) univ := fun y _ =>
  ⟨Real.exp y, by simpa [RVTransform.interval] using (Real.hasDerivAt_exp y).add_const a, (Real.exp_pos y).ne',
    by simp [RVTransform.interval]⟩

theorem C50_interval_upper (b : ℝ) : LogJac (.interval none (some (.fin b))) univ := fun y _ =>
  ⟨-Real.exp y, by simpa [RVTransform.interval] using (Real.hasDerivAt_exp y).const_sub b, by simp,
    by simp [RVTransform.interval]⟩

/-- **C50**, log-odds. -/
theorem C50_logodds : LogJac .logodds univ := fun y _ => by
  have hp := Real.exp_pos (-y)
  refine ⟨_, hasDerivAt_sigmoid y, by positivity, ?_⟩
  obtain ⟨h0, h1⟩ := sigmoid_mem y
  have h2 : 0 < 1 + -(1 / (1 + Real.exp (-y))) := by linarith
  have e : 1 + -(1 / (1 + Real.exp (-y))) = Real.exp (-y) / (1 + Real.exp (-y)) := by field_simp; ring
  rw [abs_of_pos (by positivity)]
  simp only [RVTransform.logodds, FVal.sigmoid, log_fin_pos h0, neg_fin, log1p_fin_pos h2, add_fin, Except.ok.injEq, fin_inj]
  rw [← Real.log_mul h0.ne' h2.ne', e]
  congr 1
  field_simp

/-- **C50**, circular, in the interior of its range. -/
theorem C50_circular : LogJac .circular (Ioo (-Real.pi) Real.pi) := fun y hy =>
  ⟨1, hasDerivAt_congr_on (g := fun z => z) isOpen_Ioo (fun z hz => by
      simp [RVTransform.circular, FVal.sin, FVal.cos, FVal.arctan2, arg_circle ⟨hz.1, hz.2.le⟩]) hy (hasDerivAt_id' y),
    one_ne_zero, by simp [RVTransform.circular]⟩

/-! ## C53: chains -/

/-- **C53**, order: a chain applies `forward` from the first transform to the last and `backward` from the last to the first. -/
theorem C53_chain_order (ts us : List RVTransform) (v : FVal) :
    (RVTransform.chained []).forward v = .ok v ∧ (RVTransform.chained []).backward v = .ok v ∧
    (RVTransform.chained (ts ++ us)).forward v = ((RVTransform.chained ts).forward v >>= (RVTransform.chained us).forward) ∧
    (RVTransform.chained (ts ++ us)).backward v = ((RVTransform.chained us).backward v >>= (RVTransform.chained ts).backward) ∧
    ∀ t : RVTransform, (RVTransform.chained [t]).forward v = t.forward v ∧ (RVTransform.chained [t]).backward v = t.backward v :=
  ⟨rfl, rfl, by simp [RVTransform.chained], by simp [RVTransform.chained], fun t => ⟨by simp [RVTransform.chained], by simp [RVTransform.chained]⟩⟩

theorem detStep_acc (ts : List RVTransform) : ∀ (acc : List FVal) (v : FVal),
    ts.foldlM RVTransform.detStep (acc, v) = (ts.foldlM RVTransform.detStep ([], v)).map fun r => (acc ++ r.1, r.2) := by
  induction ts with
  | nil => intro acc v; simp [pure, Except.pure, Except.map]
  | cons t ts ih =>
    intro acc v
    simp only [List.foldlM_cons, RVTransform.detStep]
    cases h1 : t.logJacDet v with
    | error e => rfl
    | ok d =>
      cases h2 : t.backward v with
      | error e => rfl
      | ok w =>
        show ts.foldlM RVTransform.detStep (acc ++ [d], w) = (ts.foldlM RVTransform.detStep ([] ++ [d], w)).map fun r => (acc ++ r.1, r.2)
        rw [ih (acc ++ [d]), ih ([] ++ [d])]
        cases ts.foldlM RVTransform.detStep ([], w) <;> simp [Except.map]

/-- Running the loop to the end gives the determinants and the back-transformed value. -/
theorem detLoop_snd (ts : List RVTransform) : ∀ (acc : List FVal) (v : FVal) (r : List FVal × FVal),
    ts.foldlM RVTransform.detStep (acc, v) = .ok r → ts.foldlM (fun v t => t.backward v) v = .ok r.2 := by
  induction ts with
  | nil => intro acc v r h; cases h; rfl
  | cons t ts ih =>
    intro acc v r h
    simp only [List.foldlM_cons, RVTransform.detStep] at h ⊢
    cases h1 : t.logJacDet v with
    | error e => rw [h1] at h; cases h
    | ok d =>
      cases h2 : t.backward v with
      | error e => rw [h1, h2] at h; cases h
      | ok w =>
        rw [h1, h2] at h
        exact ih (acc ++ [d]) w r h

/-- **C53**, Jacobian: for chains of any length, of any transforms with correct Jacobian terms on open ranges, the summed `log_jac_det`
is the log absolute derivative of the whole `backward` map. -/
theorem C53_chain_jacobian {ts : List RVTransform} {D R : Set ℝ} (h : SmoothStages ts D R) : LogJac (.chained ts) R := by
  suffices H : IsOpen R ∧ ∀ z ∈ R, ∃ d x, ∃ dets : List FVal, HasDerivAt (fun y => realOf ((RVTransform.chained ts).backward (.fin y))) d z ∧
      d ≠ 0 ∧ x ∈ D ∧ ts.reverse.foldlM RVTransform.detStep ([], .fin z) = .ok (dets, .fin x) ∧ dets.foldl (· + ·) 0 = .fin (Real.log |d|) by
    intro z hz
    obtain ⟨d, x, dets, hd, hd0, _, hl, hs⟩ := H.2 z hz
    exact ⟨d, hd, hd0, by simp only [RVTransform.chained, hl, bind, Except.bind, hs]; rfl⟩
  induction h with
  | nil hD => exact ⟨hD, fun z hz => ⟨1, z, [], by simpa [RVTransform.chained, pure, Except.pure] using hasDerivAt_id' z, one_ne_zero, hz, rfl, by simp⟩⟩
  | @cons t ts D M R hinv hM hjac hts ih =>
    obtain ⟨hR, ih⟩ := ih
    refine ⟨hR, fun z hz => ?_⟩
    obtain ⟨d, x, dets, hd, hd0, hx, hl, hs⟩ := ih z hz
    obtain ⟨d', hd', hd0', hj⟩ := hjac x hx
    obtain ⟨w, hw, hbw, _⟩ := hinv.bwd x hx
    have hback : ∀ y ∈ R, ∃ u, (RVTransform.chained ts).backward (.fin y) = .ok (.fin u) := by
      intro y hy
      obtain ⟨_, u, _, _, _, _, hl', _⟩ := ih y hy
      exact ⟨u, detLoop_snd _ _ _ _ hl'⟩
    have hxz : (RVTransform.chained ts).backward (.fin z) = .ok (.fin x) := detLoop_snd _ _ _ _ hl
    refine ⟨d' * d, w, dets ++ [.fin (Real.log |d'|)], ?_, mul_ne_zero hd0' hd0, hw, ?_, ?_⟩
    · have hd'' : HasDerivAt (fun y => realOf (t.backward (.fin y))) d' (realOf ((RVTransform.chained ts).backward (.fin z))) := by
        rw [hxz]; exact hd'
      refine hasDerivAt_congr_on hR (fun y hy => ?_) hz (hd''.comp z hd)
      obtain ⟨u, hu⟩ := hback y hy
      show realOf ((RVTransform.chained (t :: ts)).backward (.fin y)) = realOf (t.backward (.fin (realOf ((RVTransform.chained ts).backward (.fin y)))))
      rw [chained_backward_cons, hu]; rfl
    · rw [List.reverse_cons, List.foldlM_append, hl]
      simp only [bind, Except.bind, List.foldlM_cons, List.foldlM_nil, RVTransform.detStep, hj, hbw]; rfl
    · rw [List.foldl_append, hs]
      simp only [List.foldl_cons, List.foldl_nil, add_fin, fin_inj]
      rw [abs_mul, Real.log_mul (abs_ne_zero.2 hd0') (abs_ne_zero.2 hd0)]; ring

/-- `log`, then `-2 ·`, then `+ 1`. -/
example : LogJac (.chained [.log, .scale (.fin (-2)), .loc (.fin 1)]) univ :=
  C53_chain_jacobian (D := Ioi 0) (.cons C49_log isOpen_univ C50_log
    (.cons (C49_scale (by norm_num)) isOpen_univ (C50_scale (by norm_num)) (.cons (C49_loc 1) isOpen_univ (C50_loc 1) (.nil isOpen_univ))))

end Verif
