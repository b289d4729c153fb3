import Verif.Spec.LibraryCalls
import Verif.Props.Library

/-! # C135: calls of `logcdf` and `icdf` -/

namespace Verif.Library
open Verif FVal MeasureTheory ProbabilityTheory Set

/-- **C135** (which variables have a log-CDF) `logcdf` returns for exactly the uniform, normal, Poisson and geometric random variables.  It raises `NotImplementedError` for every other variable that is made by an operation (other
distributions, clipped, rounded and transformed variables, mixtures, and variables with a given value), and `AttributeError` for inputs and constants. -/
theorem C135_logcdf_defined (nm : ℕ → Option Text) (ev : Full.Expr Lib → FVal) (x : FVal) (e : Full.Expr Lib) :
    ((∃ r, logcdfCall nm ev x e = .ok r) ↔ ∃ id d n, ∃ args : Fin n → Full.Expr Lib, e = .rv id d n args ∧ d ∈ [Lib.uniform, .normal, .poisson, .geometric]) ∧
    ((∀ r, logcdfCall nm ev x e ≠ .ok r) → (HasOwner e → logcdfCall nm ev x e = .error .notImplemented) ∧ (¬ HasOwner e → logcdfCall nm ev x e = .error .attribute)) := by
  cases e with
  | rv id d n args =>
    have h : d.hasCdf = true ↔ d ∈ [Lib.uniform, .normal, .poisson, .geometric] := by cases d <;> simp [Lib.hasCdf]
    by_cases hd : d.hasCdf = true
    · refine ⟨⟨fun _ => ⟨id, d, n, args, rfl, h.1 hd⟩, fun _ => ⟨_, if_pos hd⟩⟩, fun hn => absurd (if_pos hd) (hn _)⟩
    · refine ⟨⟨fun ⟨r, hr⟩ => ?_, ?_⟩, fun _ => ⟨fun _ => if_neg hd, fun ho => absurd trivial ho⟩⟩
      · rw [logcdfCall, if_neg hd] at hr; cases hr
      · rintro ⟨_, _, _, _, he, hm⟩
        cases he
        exact absurd (h.2 hm) hd
  | app => exact ⟨⟨(by rintro ⟨_, h⟩; cases h), (by rintro ⟨_, _, _, _, h, _⟩; cases h)⟩, fun _ => ⟨fun _ => rfl, fun h => absurd trivial h⟩⟩
  | valued => exact ⟨⟨(by rintro ⟨_, h⟩; cases h), (by rintro ⟨_, _, _, _, h, _⟩; cases h)⟩, fun _ => ⟨fun _ => rfl, fun h => absurd trivial h⟩⟩
  | const => exact ⟨⟨(by rintro ⟨_, h⟩; cases h), (by rintro ⟨_, _, _, _, h, _⟩; cases h)⟩, fun _ => ⟨fun h => h.elim, fun _ => rfl⟩⟩
  | inp => exact ⟨⟨(by rintro ⟨_, h⟩; cases h), (by rintro ⟨_, _, _, _, h, _⟩; cases h)⟩, fun _ => ⟨fun h => h.elim, fun _ => rfl⟩⟩

/-- **C135** (which variables have quantiles) `icdf` returns for exactly the normal and geometric random variables. -/
theorem C135_icdf_defined (erfcinv : FVal → FVal) (nm : ℕ → Option Text) (ev : Full.Expr Lib → FVal) (q : FVal) (e : Full.Expr Lib) :
    ((∃ r, icdfCall erfcinv nm ev q e = .ok r) ↔ ∃ id d n, ∃ args : Fin n → Full.Expr Lib, e = .rv id d n args ∧ d ∈ [Lib.normal, .geometric]) ∧
    ((∀ r, icdfCall erfcinv nm ev q e ≠ .ok r) → (HasOwner e → icdfCall erfcinv nm ev q e = .error .notImplemented) ∧ (¬ HasOwner e → icdfCall erfcinv nm ev q e = .error .attribute)) := by
  cases e with
  | rv id d n args =>
    have h : d.hasIcdf = true ↔ d ∈ [Lib.normal, .geometric] := by cases d <;> simp [Lib.hasIcdf]
    by_cases hd : d.hasIcdf = true
    · refine ⟨⟨fun _ => ⟨id, d, n, args, rfl, h.1 hd⟩, fun _ => ⟨_, if_pos hd⟩⟩, fun hn => absurd (if_pos hd) (hn _)⟩
    · refine ⟨⟨fun ⟨r, hr⟩ => ?_, ?_⟩, fun _ => ⟨fun _ => if_neg hd, fun ho => absurd trivial ho⟩⟩
      · rw [icdfCall, if_neg hd] at hr; cases hr
      · rintro ⟨_, _, _, _, he, hm⟩
        cases he
        exact absurd (h.2 hm) hd
  | app => exact ⟨⟨(by rintro ⟨_, h⟩; cases h), (by rintro ⟨_, _, _, _, h, _⟩; cases h)⟩, fun _ => ⟨fun _ => rfl, fun h => absurd trivial h⟩⟩
  | valued => exact ⟨⟨(by rintro ⟨_, h⟩; cases h), (by rintro ⟨_, _, _, _, h, _⟩; cases h)⟩, fun _ => ⟨fun _ => rfl, fun h => absurd trivial h⟩⟩
  | const => exact ⟨⟨(by rintro ⟨_, h⟩; cases h), (by rintro ⟨_, _, _, _, h, _⟩; cases h)⟩, fun _ => ⟨fun h => h.elim, fun _ => rfl⟩⟩
  | inp => exact ⟨⟨(by rintro ⟨_, h⟩; cases h), (by rintro ⟨_, _, _, _, h, _⟩; cases h)⟩, fun _ => ⟨fun h => h.elim, fun _ => rfl⟩⟩

/-- **C135** (names) The graphs are named after the variable, `X_logcdf` and `X_icdf`; they have no name when it has none, or an empty one. -/
theorem C135_names {erfcinv : FVal → FVal} {nm : ℕ → Option Text} {ev : Full.Expr Lib → FVal} {x : FVal} {id : ℕ} {d : Lib} {n : ℕ} {args : Fin n → Full.Expr Lib} :
    (∀ {r s}, logcdfCall nm ev x (.rv id d n args) = .ok (r, s) → ∀ t, s = some t ↔ ∃ u, nm id = some u ∧ u ≠ [] ∧ t = u ++ "_logcdf".toList) ∧
    ∀ {r s}, icdfCall erfcinv nm ev x (.rv id d n args) = .ok (r, s) → ∀ t, s = some t ↔ ∃ u, nm id = some u ∧ u ≠ [] ∧ t = u ++ "_icdf".toList := by
  generalize hA : "_logcdf".toList = A
  generalize hB : "_icdf".toList = B
  have key : ∀ (o : Option Text) (A t : Text), ((Full.truthy o).map fun s => s ++ A) = some t ↔ ∃ u, o = some u ∧ u ≠ [] ∧ t = u ++ A := by
    intro o A t
    rcases o with _ | _ | ⟨c, cs⟩
    · simp [Full.truthy]
    · simp [Full.truthy]
    · simp [Full.truthy, eq_comm]
  refine ⟨fun {r s} h t => ?_, fun {r s} h t => ?_⟩
  · rw [logcdfCall, hA] at h
    split_ifs at h
    cases h
    exact key _ _ _
  · rw [icdfCall, hB] at h
    split_ifs at h
    cases h
    exact key _ _ _

theorem logsum_cdf {lp : ℤ → Except Err FVal} {lc : Except Err FVal} {q : ℤ → ℝ} (hm : IsLogMass lp q) {v : ℝ} (hc : IsLogSum lc lp v) : Clean lc ∧ dens lc = massLaw q (Iic v) := by
  classical
  refine ⟨hc.1, hc.2.trans ?_⟩
  rw [massLaw_apply _ measurableSet_Iic]
  refine tsum_congr fun j => ?_
  by_cases h : (j : ℝ) ≤ v
  · rw [if_pos h, if_pos (show (j : ℝ) ∈ Iic v from h)]; exact hm.mass j
  · rw [if_neg h, if_neg (show (j : ℝ) ∉ Iic v from h)]

/-- **C135** (log-CDFs, partial) When the parameters are in range, the graph that `logcdf` returns evaluates to the log of the probability that the variable is at most `x`.  Missing: geometric variables at values that are
no integers, see `C135_geometric_logcdf_wrong`. -/
theorem C135_logcdf_partial {nm : ℕ → Option Text} {ev : Full.Expr Lib → FVal} {x : ℝ} {id : ℕ} {d : Lib} {n : ℕ} {args : Fin n → Full.Expr Lib} (hd : d.Domain (List.ofFn fun i => ev (args i)))
    (hx : d = .geometric → ∃ k : ℤ, x = k) {r : Except Err FVal} {s : Option Text} (h : logcdfCall nm ev (fin x) (.rv id d n args) = .ok (r, s)) :
    Clean r ∧ dens r = d.law (List.ofFn fun i => ev (args i)) (Iic x) := by
  rw [logcdfCall] at h
  generalize List.ofFn (fun i => ev (args i)) = p at hd h ⊢
  split_ifs at h with hc
  cases h
  cases hd with
  | uniform hab => exact ⟨(C44_uniform_logcdf hab).1.clean x, (C44_uniform_logcdf hab).1.cdf x⟩
  | normal m hs => exact ⟨(C43_normal_logcdf m hs).1.clean x, (C43_normal_logcdf m hs).1.cdf x⟩
  | poisson hm => exact logsum_cdf (C31_poisson hm) (C45_poisson_logcdf hm x)
  | geometric h0 h1 =>
    obtain ⟨k, rfl⟩ := hx rfl
    exact logsum_cdf (C33_geometric h0 h1) (C46_geometric_logcdf h0 h1 k)
  | _ => cases hc

/-- `X ~ Poisson(2)`: the log-CDF at `7/2` is the log of the probability of at most three. -/
example : ∃ r, logcdfCall (fun _ => some "X".toList) (fun _ => fin 2) (fin (7 / 2)) (.rv 0 .poisson 1 ![.inp 1]) = .ok (r, some ("X".toList ++ "_logcdf".toList)) ∧ Clean r ∧
    dens r = massLaw (onNat (poissonMass 2)) (Iic (7 / 2)) := by
  obtain ⟨⟨r, s⟩, h⟩ := (C135_logcdf_defined (fun _ => some "X".toList) (fun _ => fin 2) (fin (7 / 2)) (.rv 0 .poisson 1 ![.inp 1])).1.2 ⟨0, .poisson, 1, _, rfl, by simp⟩
  have hs : s = some ("X".toList ++ "_logcdf".toList) := ((C135_names (erfcinv := id)).1 h _).2 ⟨_, rfl, by decide, rfl⟩
  subst hs
  exact ⟨r, h, C135_logcdf_partial (Lib.Domain.poisson (m := 2) (by norm_num)) (by rintro ⟨⟩) h⟩

theorem geometric_iic {p : ℝ} (h0 : 0 < p) (h1 : p ≤ 1) (y : ℝ) : Lib.law .geometric [fin p] (Iic y) = ENNReal.ofReal (cdfOfMass (onNat (geometricMass p)) ⌊y⌋) := by
  classical
  have hnn : ∀ k, 0 ≤ geometricMass p k := fun k => by
    cases k with
    | zero => simp [geometricMass]
    | succ k => have : 0 ≤ 1 - p := by linarith
                simp only [geometricMass]; positivity
  have hnn' : ∀ j : ℤ, 0 ≤ onNat (geometricMass p) j := fun j => by
    rw [onNat]; split_ifs
    exacts [hnn _, le_rfl]
  show massLaw _ _ = _
  rw [massLaw_apply _ measurableSet_Iic, cdfOfMass, ENNReal.ofReal_tsum_of_nonneg]
  · refine tsum_congr fun j => ?_
    by_cases h : j ≤ ⌊y⌋
    · rw [if_pos h, if_pos (show (j : ℝ) ∈ Iic y from Int.le_floor.1 h)]
    · rw [if_neg h, if_neg (show (j : ℝ) ∉ Iic y from fun h' => h (Int.le_floor.2 h')), ENNReal.ofReal_zero]
  · intro j
    split_ifs
    exacts [hnn' j, le_rfl]
  · refine summable_of_finite_support ((Set.finite_Icc (0 : ℤ) ⌊y⌋).subset fun j hj => ?_)
    rw [Function.mem_support] at hj
    by_contra hn
    refine hj ?_
    split_ifs with h
    · rw [onNat, if_neg]
      intro h'
      exact hn ⟨h', h⟩
    · rfl

/-- **C135** fails for geometric variables at values that are no integers: `logcdf` at `3/2` is not the log of the probability of at most `3/2`, unless `p = 1`. -/
theorem C135_geometric_logcdf_wrong {p : ℝ} (h0 : 0 < p) (h1 : p < 1) (nm : ℕ → Option Text) (id : ℕ) :
    ∃ r s, logcdfCall nm (fun _ => fin p) (fin (3 / 2)) (.rv id .geometric 1 ![.inp 0]) = .ok (r, s) ∧ dens r ≠ Lib.law .geometric [fin p] (Iic (3 / 2)) := by
  refine ⟨_, _, rfl, ?_⟩
  have hlaw : Lib.law .geometric [fin p] (Iic (3 / 2)) = ENNReal.ofReal p := by
    rw [geometric_iic h0 h1.le, show ⌊(3 / 2 : ℝ)⌋ = ((1 : ℕ) : ℤ) by norm_num [Int.floor_eq_iff], cdfOfMass_geometric_nat]
    congr 1; ring
  have hq : 0 < 1 - p := by linarith
  have hval : geometricLogcdf (fin (3 / 2)) (fin p) = .ok (fin (Real.log (1 - Real.exp (Real.log (1 - p) * (3 / 2))))) := by
    have hlt : Real.exp (Real.log (1 - p) * (3 / 2)) < 1 := by
      rw [Real.exp_lt_one_iff]
      have := Real.log_neg hq (by linarith)
      linarith
    rw [geometricLogcdf]
    beta_reduce
    rw [switch_neg (by simp), checkParam_ok (by simp [h0.le, h1.le])]
    fv [log1p_fin_pos (show 0 < 1 + -p by linarith), log1mexp, FVal.exp]
    rw [show 1 + -p = 1 - p by ring, log_fin_pos (by linarith)]
  show dens (geometricLogcdf (fin (3 / 2)) (fin p)) ≠ _
  have hlt : Real.exp (Real.log (1 - p) * (3 / 2)) < 1 - p := by
    conv_rhs => rw [← Real.exp_log hq]
    rw [Real.exp_lt_exp]
    have := Real.log_neg hq (by linarith)
    linarith
  rw [hlaw, hval, dens_log (by linarith)]
  intro h
  rw [ENNReal.ofReal_eq_ofReal_iff (by linarith) h0.le] at h
  linarith

example := C135_geometric_logcdf_wrong (p := 1 / 2) (by norm_num) (by norm_num) (fun _ => none) 0

/-- **C135** (quantiles, partial) With parameters in range and `0 < q < 1`, the graph that `icdf` returns evaluates to the `q`-quantile of the variable's distribution.  Missing: geometric variables with `p = 1`, see
`C135_geometric_icdf_wrong`. -/
theorem C135_icdf_partial {erfcinv : FVal → FVal} (he : IsErfcInv erfcinv) {nm : ℕ → Option Text} {ev : Full.Expr Lib → FVal} {q : ℝ} (h0 : 0 < q) (h1 : q < 1) {id : ℕ} {d : Lib} {n : ℕ} {args : Fin n → Full.Expr Lib}
    (hd : d.Domain (List.ofFn fun i => ev (args i))) (hp : d = .geometric → (List.ofFn fun i => ev (args i)) ≠ [fin 1]) {r : Except Err FVal} {s : Option Text}
    (h : icdfCall erfcinv nm ev (fin q) (.rv id d n args) = .ok (r, s)) :
    ∃ x : ℝ, r = .ok (fin x) ∧ IsQuantile (d.law (List.ofFn fun i => ev (args i))) q x := by
  rw [icdfCall] at h
  generalize List.ofFn (fun i => ev (args i)) = p at hd hp h ⊢
  split_ifs at h with hc
  cases h
  cases hd with
  | @normal m s hs =>
    obtain ⟨x, hx, hq⟩ := (C47_normal_icdf he m hs).1 q h0 h1
    refine ⟨x, congrArg Except.ok hx, hq.ge, fun y hy => ?_⟩
    replace hy : ENNReal.ofReal q ≤ gaussianReal m (s ^ 2).toNNReal (Iic y) := hy
    rw [← hq, gaussianReal_Iic m hs, gaussianReal_Iic m hs, ENNReal.ofReal_le_ofReal_iff (Phi_pos _).le, Phi_strictMono.le_iff_le, div_le_div_iff_of_pos_right hs] at hy
    linarith
  | @geometric t ht0 ht1 =>
    have ht : t < 1 := lt_of_le_of_ne ht1 fun h => hp rfl (by rw [h])
    obtain ⟨k, hk, hl, hu⟩ := C48_geometric_icdf ht0 ht h0 h1
    refine ⟨k, congrArg Except.ok hk, ?_, fun y hy => ?_⟩
    · show ENNReal.ofReal q ≤ Lib.law .geometric [fin t] (Iic (k : ℝ))
      rw [geometric_iic ht0 ht1, Int.floor_intCast]
      exact ENNReal.ofReal_le_ofReal hl
    · replace hy : ENNReal.ofReal q ≤ Lib.law .geometric [fin t] (Iic y) := hy
      rw [geometric_iic ht0 ht1, ENNReal.ofReal_le_ofReal_iff'] at hy
      rcases hy with hy | hy
      · exact Int.le_floor.1 (hu hy)
      · linarith
  | _ => cases hc

/-- `X ~ Normal(2, 2)` has a first quartile, and `icdf` gives it. -/
example : ∃ e x r, IsErfcInv e ∧ icdfCall e (fun _ => none) (fun _ => fin 2) (fin (1 / 4)) (.rv 0 .normal 2 ![.inp 1, .inp 1]) = .ok (r, none) ∧ r = .ok (fin x) ∧ IsQuantile (gaussianReal 2 ((2 : ℝ) ^ 2).toNNReal) (1 / 4) x := by
  obtain ⟨e, he⟩ := exists_isErfcInv
  obtain ⟨⟨r, s⟩, h⟩ := (C135_icdf_defined e (fun _ => none) (fun _ => fin 2) (fin (1 / 4)) (.rv 0 .normal 2 ![.inp 1, .inp 1])).1.2 ⟨0, .normal, 2, _, rfl, by simp⟩
  obtain ⟨x, h1, h2⟩ := C135_icdf_partial he (q := 1 / 4) (by norm_num) (by norm_num) (Lib.Domain.normal 2 (s := 2) two_pos) (by rintro ⟨⟩) h
  have hs : s = none := by
    rcases hs : s with _ | t
    · rfl
    · obtain ⟨_, h', _⟩ := ((C135_names (erfcinv := e)).2 h t).1 hs
      cases h'
  exact ⟨e, x, r, he, hs ▸ h, h1, h2⟩

/-- **C135** fails for geometric variables with `p = 1`, which are always `1`: `icdf` gives `0`. -/
theorem C135_geometric_icdf_wrong (erfcinv : FVal → FVal) (nm : ℕ → Option Text) (id : ℕ) {q : ℝ} (h0 : 0 < q) (h1 : q < 1) :
    ∃ s, icdfCall erfcinv nm (fun _ => fin 1) (fin q) (.rv id .geometric 1 ![.inp 0]) = .ok (.ok (fin 0), s) ∧ Lib.Domain .geometric [fin 1] ∧ IsQuantile (Lib.law .geometric [fin 1]) q 1 := by
  have hv : geometricIcdf (fin q) (fin 1) = fin 0 := by
    rw [geometricIcdf]
    fv [log1p_fin_pos (show 0 < 1 + -q by linarith)]
    simp [log1p]
  refine ⟨_, congrArg (fun y => Except.ok (Except.ok y, _)) hv, .geometric one_pos le_rfl, ?_, fun y hy => ?_⟩
  · show ENNReal.ofReal q ≤ Lib.law .geometric [fin 1] (Iic 1)
    rw [geometric_iic one_pos le_rfl, show ⌊(1 : ℝ)⌋ = ((1 : ℕ) : ℤ) by simp, cdfOfMass_geometric_nat]
    exact ENNReal.ofReal_le_ofReal (by norm_num; exact h1.le)
  · replace hy : ENNReal.ofReal q ≤ Lib.law .geometric [fin 1] (Iic y) := hy
    by_contra hn
    have hf : ⌊y⌋ ≤ 0 := Int.lt_add_one_iff.1 (Int.floor_lt.2 (by push_cast; linarith [not_le.1 hn]))
    have hz : cdfOfMass (onNat (geometricMass 1)) ⌊y⌋ = 0 := by
      rcases hf.lt_or_eq with h | h
      · exact cdfOfMass_geometric_neg 1 h
      · rw [h]
        exact (cdfOfMass_geometric_nat 1 0).trans (by simp)
    rw [geometric_iic one_pos le_rfl, hz, ENNReal.ofReal_zero, nonpos_iff_eq_zero, ENNReal.ofReal_eq_zero] at hy
    linarith

example := C135_geometric_icdf_wrong (fun x => x) (fun _ => none) 0 (q := 1 / 2) (by norm_num) (by norm_num)

/-- **C135** (no check) `icdf` does not check the scale of normal variables, where `logcdf` raises: with a negative scale it returns the `1 - q`-quantile of the normal distribution with the opposite scale, a number that
decreases with `q`. -/
theorem C135_normal_icdf_unchecked {erfcinv : FVal → FVal} (he : IsErfcInv erfcinv) (nm : ℕ → Option Text) (id : ℕ) (m : ℝ) {s : ℝ} (hs : s < 0) {ev : Full.Expr Lib → FVal} (hev : ∀ x, ev (.const x) = x) :
    (∀ x : ℝ, ∃ t, logcdfCall nm ev (fin x) (.rv id .normal 2 ![.const (fin m), .const (fin s)]) = .ok (.error .parameterValue, t)) ∧
    ∀ q : ℝ, 0 < q → q < 1 → ∃ x t, icdfCall erfcinv nm ev (fin q) (.rv id .normal 2 ![.const (fin m), .const (fin s)]) = .ok (.ok (fin x), t) ∧ IsQuantile (gaussianReal m (s ^ 2).toNNReal) (1 - q) x := by
  have hargs : (List.ofFn fun i => ev ((![.const (fin m), .const (fin s)] : Fin 2 → Full.Expr Lib) i)) = [fin m, fin s] := by simp [List.ofFn_succ, hev]
  refine ⟨fun x => ⟨(Full.truthy (nm id)).map fun s => s ++ "_logcdf".toList, ?_⟩, fun q h0 h1 => ?_⟩
  · rw [logcdfCall, if_pos (show Lib.hasCdf .normal = true from rfl), hargs]
    refine congrArg (fun y => Except.ok (y, _)) ?_
    show normalLogcdf (fin x) (fin m) (fin s) = _
    rw [normalLogcdf]
    exact checkParam_err (by simp [hs.le])
  · have h2 : (0 : ℝ) < Real.sqrt 2 := by positivity
    have hs' : 0 < -s := neg_pos.2 hs
    obtain ⟨x, hx, hex⟩ := he (2 * q) (by linarith) (by linarith)
    refine ⟨m + s * -Real.sqrt 2 * x, (Full.truthy (nm id)).map fun s => s ++ "_icdf".toList, ?_, ?_⟩
    · rw [icdfCall, if_pos (show Lib.hasIcdf .normal = true from rfl), hargs]
      refine congrArg (fun y => Except.ok (Except.ok y, _)) ?_
      rw [normalIcdf]
      fv [sqrt_fin (show (0 : ℝ) ≤ 2 by norm_num), hx]
    · have hP : Phi ((m + s * -Real.sqrt 2 * x - m) / -s) = 1 - q := by
        have := erfcReal_half (Real.sqrt 2 * x)
        rw [mul_div_cancel_left₀ _ h2.ne', hex] at this
        rw [show (m + s * -Real.sqrt 2 * x - m) / -s = Real.sqrt 2 * x by rw [show m + s * -Real.sqrt 2 * x - m = -s * (Real.sqrt 2 * x) by ring, mul_div_cancel_left₀ _ hs'.ne']]
        linarith
      have hc : ∀ y, gaussianReal m (s ^ 2).toNNReal (Iic y) = ENNReal.ofReal (Phi ((y - m) / -s)) := fun y => by
        rw [← gaussianReal_Iic m hs', neg_sq]
      refine ⟨?_, fun y hy => ?_⟩
      · show ENNReal.ofReal (1 - q) ≤ _
        rw [hc, hP]
      · replace hy : ENNReal.ofReal (1 - q) ≤ gaussianReal m (s ^ 2).toNNReal (Iic y) := hy
        rw [hc, ← hP, ENNReal.ofReal_le_ofReal_iff (Phi_pos _).le, Phi_strictMono.le_iff_le, div_le_div_iff_of_pos_right hs'] at hy
        linarith

example := (exists_isErfcInv.imp fun _ he => C135_normal_icdf_unchecked he (fun _ => none) 0 1 (s := -1) (by norm_num) (ev := fun | .const x => x | _ => .nan) fun _ => rfl)

end Verif.Library
