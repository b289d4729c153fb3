import Verif.Props.Censoring

/-! # C111: an integer variable clipped at bounds that are not integers -/

namespace Verif
open ENNReal FVal

open Classical in
/-- **C111, false of the code for an upper bound that is not an integer.**  Let `X` be an integer variable whose log-CDF is right at
every real.  Clipped above at a real `b`, it takes the value `b` with probability `P(X ≥ b)`; at a `b` that is not an integer the code
adds to it what the formula of the mass function gives at `b`. -/
theorem C111_noninteger_upper_bound {lp lc : FVal → Except Err FVal} {q : ℤ → ℝ} (hq : ∀ k, 0 ≤ q k)
    (hlp : IsLogMass (fun k => lp (fin k)) q) (hlc : ∀ v : ℝ, IsLogSum (lc (fin v)) (fun j => lp (fin j)) v) {b : ℝ}
    (hb : ∀ k : ℤ, (k : ℝ) ≠ b) (hpb : Clean (lp (fin b))) :
    dens (measurableClip true lp lc .base (.const (fin b)) (fin b)) =
      (∑' j : ℤ, if clipTo none (some b) j = b then ENNReal.ofReal (q j) else 0) + dens (lp (fin b)) := by
  obtain ⟨p, hp, hpn⟩ := hpb
  obtain ⟨⟨c, hc, hcn⟩, hd⟩ := hlc b
  simp only [hlp.mass] at hd
  rw [measurableClip_eval (l := .base) (u := .const (fin b)) (lo := none) (hi := some b) rfl rfl trivial hp hc]
  rw [hc] at hd
  have htot : ∑' j : ℤ, ENNReal.ofReal (q j) = 1 := by
    rw [← ENNReal.ofReal_tsum_of_nonneg hq hlp.total.summable, hlp.total.tsum_eq, ENNReal.ofReal_one]
  have hsplit : (∑' j : ℤ, if (j : ℝ) ≤ b then ENNReal.ofReal (q j) else 0) +
      (∑' j : ℤ, if clipTo none (some b) j = b then ENNReal.ofReal (q j) else 0) = 1 := by
    rw [← ENNReal.tsum_add, ← htot]
    congr 1; funext j
    simp only [clipTo, inf_eq_left]
    rcases lt_or_gt_of_ne (hb j) with h | h
    · simp [h.le, not_le.2 h]
    · simp [h.le, not_le.2 h]
  have hle : (∑' j : ℤ, if (j : ℝ) ≤ b then ENNReal.ofReal (q j) else 0) ≤ 1 := hsplit ▸ le_self_add
  have hd' : c.toDens = ∑' j : ℤ, if (j : ℝ) ≤ b then ENNReal.ofReal (q j) else 0 := hd
  obtain ⟨h1, h2⟩ := log1mexp_prob hcn hd' hle
  obtain ⟨h3, h4⟩ := logaddexp_dens h1 hpn
  simp only [reduceCtorEq, false_and, exists_false, if_false, if_true, hp, dens]
  rw [h4, h2]
  congr 1
  rw [← hsplit, ENNReal.add_sub_cancel_left (ne_top_of_le_ne_top one_ne_top hle)]

/-- The formula of the Poisson mass is positive at every positive real. -/
theorem poissonLogprob_pos {μ b : ℝ} (hμ : 0 < μ) (hb : 0 < b) : Clean (poissonLogprob (fin b) (fin μ)) ∧
    0 < dens (poissonLogprob (fin b) (fin μ)) := by
  have : ∃ r : ℝ, poissonLogprob (fin b) (fin μ) = .ok (fin r) := by
    rw [poissonLogprob]; beta_reduce
    rw [checkParam_ok (by simp [hμ.le]), switch_pos (by simp [hb.le])]
    have h1 : xlogy0 (fin b) (fin μ) = fin (b * Real.log μ) := by
      simp [xlogy0, switch, FVal.log_fin_pos hμ, hb.ne', hμ.ne']
    rw [h1]
    show ∃ r, Except.ok (switch _ _ _) = _
    rw [switch_neg (by simp [hμ.ne'])]
    fv []
    have : ∃ g, gammaln (fin (b + 1)) = fin g := by
      simp only [gammaln]
      split_ifs <;> simp_all
      have := Real.Gamma_pos_of_pos (show 0 < b + 1 by linarith)
      linarith
    obtain ⟨g, hg⟩ := this
    refine ⟨b * Real.log μ - g - μ, ?_⟩
    rw [hg]; fv []
  obtain ⟨r, hr⟩ := this
  rw [hr]
  exact ⟨⟨_, rfl, by simp⟩, by simp [dens, Real.exp_pos]⟩

open Classical in
/-- **C111, false of the code**: a Poisson variable clipped above at a positive real that is not an integer is given, at the bound, more
than the probability of being clipped. -/
theorem C111_noninteger_upper_bound_wrong {μ b : ℝ} (hμ : 0 < μ) (h0 : 0 < b) (hb : ∀ k : ℤ, (k : ℝ) ≠ b) :
    (∑' j : ℤ, if clipTo none (some b) j = b then ENNReal.ofReal (onNat (poissonMass μ) j) else 0) <
      dens (measurableClip true (fun v => poissonLogprob v (fin μ)) (fun v => poissonLogcdf v (fin μ)) .base (.const (fin b)) (fin b)) := by
  have hq : ∀ k, 0 ≤ onNat (poissonMass μ) k := fun k => by
    simp only [onNat]; split_ifs
    · unfold poissonMass; positivity
    · exact le_rfl
  have hm := C31_poisson hμ.le
  rw [C111_noninteger_upper_bound hq hm (fun v => C45_poisson_logcdf hμ.le v) hb (poissonLogprob_pos hμ h0).1]
  refine ENNReal.lt_add_right (ne_top_of_le_ne_top one_ne_top ?_) (poissonLogprob_pos hμ h0).2.ne'
  have htot : ∑' j : ℤ, ENNReal.ofReal (onNat (poissonMass μ) j) = 1 := by
    rw [← ENNReal.ofReal_tsum_of_nonneg hq hm.total.summable, hm.total.tsum_eq, ENNReal.ofReal_one]
  rw [← htot]
  exact ENNReal.tsum_le_tsum fun j => by split_ifs <;> simp

theorem half_not_int (k : ℤ) : (k : ℝ) ≠ 5 / 2 := fun h => by
  have : (2 * k : ℤ) = 5 := by
    have : (2 * k : ℝ) = 5 := by linarith
    exact_mod_cast this
  omega

example := C111_noninteger_upper_bound_wrong (μ := 3) (b := 5 / 2) (by norm_num) (by norm_num) half_not_int

/-- **C111, false of the code**: strictly between the bounds, at a value that is not an integer and so is never taken, the code gives the
(positive) formula of the mass function. -/
theorem C111_noninteger_value_wrong {μ a b x : ℝ} (hμ : 0 < μ) (ha : 0 < a) (hax : a < x) (hxb : x < b) (hx : ∀ k : ℤ, (k : ℝ) ≠ x) :
    (∀ j : ℤ, clipTo (some a) (some b) j ≠ x) ∧
    0 < dens (measurableClip true (fun v => poissonLogprob v (fin μ)) (fun v => poissonLogcdf v (fin μ)) (.const (fin a))
      (.const (fin b)) (fin x)) := by
  constructor
  · intro j h
    simp only [clipTo] at h
    rcases min_choice b (max a (j : ℝ)) with h1 | h1
    · rw [h1] at h; linarith
    · rw [h1] at h
      rcases max_choice a (j : ℝ) with h2 | h2
      · rw [h2] at h; linarith
      · rw [h2] at h; exact hx j h
  · obtain ⟨⟨p, hp, hpn⟩, hpos⟩ := poissonLogprob_pos hμ (ha.trans hax)
    obtain ⟨⟨c, hc, hcn⟩, -⟩ := C45_poisson_logcdf hμ.le x
    rw [measurableClip_eval (lp := fun v => poissonLogprob v (fin μ)) (lc := fun v => poissonLogcdf v (fin μ)) (l := .const (fin a)) (u := .const (fin b)) (lo := some a) (hi := some b) rfl rfl (hax.trans hxb) hp hc]
    rw [hp] at hpos
    simpa [hax.ne, hxb.ne', not_lt.2 hax.le, not_lt.2 hxb.le] using hpos

example := C111_noninteger_value_wrong (μ := 3) (a := 1) (b := 4) (x := 5 / 2) (by norm_num) (by norm_num) (by norm_num) (by norm_num)
  half_not_int

open Classical in
/-- **C111, false of the code**: a geometric variable clipped below at a real `1 < a < 2` takes the value `a` with probability
`P(X ≤ a) = P(X = 1) = p`; the code gives `1 - (1 - p) ^ a`, which is larger. -/
theorem C111_noninteger_lower_bound_wrong {p a : ℝ} (h0 : 0 < p) (h1 : p < 1) (ha : 1 < a) (ha2 : a < 2) :
    (∑' j : ℤ, if clipTo (some a) none j = a then ENNReal.ofReal (onNat (geometricMass p) j) else 0) = ENNReal.ofReal p ∧
    dens (measurableClip true (fun v => geometricLogprob v (fin p)) (fun v => geometricLogcdf v (fin p)) (.const (fin a)) .base (fin a)) =
      ENNReal.ofReal (1 - (1 - p) ^ a) ∧ p < 1 - (1 - p) ^ a := by
  refine ⟨?_, ?_, ?_⟩
  · rw [tsum_eq_single 1]
    · simp [clipTo, ha.le, onNat, geometricMass]
    · intro j hj
      rw [ite_eq_right_iff]
      intro h
      simp only [clipTo, sup_eq_left] at h
      have hj2 : j < 2 := by
        have : (j : ℝ) < 2 := h.trans_lt ha2
        exact_mod_cast this
      have : j < 1 := by omega
      simp only [onNat]
      split_ifs with h3
      · have : j = 0 := by omega
        subst this; simp [geometricMass]
      · simp
  · have hck : [le 0 (fin p), ge 1 (fin p)].foldr And True := by simp [h0.le, h1.le]
    have hc : geometricLogcdf (fin a) (fin p) = .ok (log (fin (1 - (1 - p) ^ a))) := by
      rw [geometricLogcdf]; beta_reduce
      rw [checkParam_ok hck, switch_neg (by simp; linarith), log1mexp]
      congr 1
      rw [neg_fin, log1p_fin_pos (by linarith)]
      fv []
      rw [← sub_eq_add_neg, Real.rpow_def_of_pos (by linarith)]
    have hp : ∃ r, geometricLogprob (fin a) (fin p) = .ok r := by
      rw [geometricLogprob]; beta_reduce
      rw [checkParam_ok hck]
      exact ⟨_, rfl⟩
    obtain ⟨r, hp⟩ := hp
    rw [measurableClip_eval (lp := fun v => geometricLogprob v (fin p)) (lc := fun v => geometricLogcdf v (fin p)) (l := .const (fin a)) (u := .base) (lo := some a) (hi := none) rfl rfl trivial hp hc]
    have hpos : 0 ≤ 1 - (1 - p) ^ a := by
      have := Real.rpow_le_one (x := 1 - p) (by linarith) (by linarith) (by linarith : 0 ≤ a)
      linarith
    simp only [if_true]
    exact dens_log_nonneg hpos
  · have : (1 - p) ^ a < (1 - p) ^ (1 : ℝ) := Real.rpow_lt_rpow_of_exponent_gt (by linarith) (by linarith) ha
    rw [Real.rpow_one] at this
    linarith

example := C111_noninteger_lower_bound_wrong (p := 1 / 2) (a := 3 / 2) (by norm_num) (by norm_num) (by norm_num) (by norm_num)

open Classical in
/-- **C111** (partial) Let `X` be an integer variable with log-CDF right at every real.  Clipped to real bounds with `a < b`, its derived
log-probability at a real `x` is never NaN and is the log of `P(clip(X, a, b) = x)`, provided `x` is an integer, or the lower bound, or
lies outside the bounds.  Missing: a non-integer upper bound and non-integers between the bounds, where the code is wrong
(`C111_noninteger_upper_bound_wrong`, `C111_noninteger_value_wrong`); equal bounds (C60). -/
theorem C111_clip_real_bounds_partial {lp lc : FVal → Except Err FVal} {q : ℤ → ℝ} (hq : ∀ k, 0 ≤ q k)
    (hlp : IsLogMass (fun k => lp (fin k)) q) (hlc : ∀ v : ℝ, IsLogSum (lc (fin v)) (fun j => lp (fin j)) v)
    {l u : ClipArg} {lo hi : Option ℝ} (hl : LowerIs l lo) (hu : UpperIs u hi) (hb : BoundsLt lo hi) {x : ℝ} (hpx : ∃ p, lp (fin x) = .ok p)
    (hx : (∃ k : ℤ, x = k) ∨ lo = some x ∨ (∃ a, lo = some a ∧ x < a) ∨ ∃ b, hi = some b ∧ b < x) :
    Clean (measurableClip true lp lc l u (fin x)) ∧
    dens (measurableClip true lp lc l u (fin x)) = ∑' j : ℤ, if clipTo lo hi j = x then ENNReal.ofReal (q j) else 0 := by
  obtain ⟨p, hp⟩ := hpx
  obtain ⟨⟨c, hc, hcn⟩, hd⟩ := hlc x
  simp only [hlp.mass] at hd
  rw [hc] at hd
  replace hd : c.toDens = ∑' j : ℤ, if (j : ℝ) ≤ x then ENNReal.ofReal (q j) else 0 := hd
  rw [measurableClip_eval hl hu hb hp hc]
  -- the range of the clipped variable
  have hge : ∀ a, lo = some a → ∀ j : ℤ, a ≤ clipTo lo hi j := by
    rintro a rfl j
    cases hi with
    | none => exact le_max_left _ _
    | some b => exact le_min (le_of_lt hb) (le_max_left _ _)
  have hle : ∀ b, hi = some b → ∀ j : ℤ, clipTo lo hi j ≤ b := by
    rintro b rfl j
    exact min_le_left _ _
  have hout : ∀ e : ℝ → Prop, (∀ j : ℤ, ¬ e (clipTo lo hi j)) → e x →
      (∑' j : ℤ, if clipTo lo hi j = x then ENNReal.ofReal (q j) else 0) = 0 := by
    intro e he hex
    rw [ENNReal.tsum_eq_zero]
    intro j
    rw [if_neg]
    rintro h
    exact he j (h ▸ hex)
  simp only [if_true]
  split_ifs with h1 h2 h3 h4
  · refine ⟨⟨c, rfl, hcn⟩, ?_⟩
    show c.toDens = _
    rw [hd]
    congr 1; funext j
    congr 1
    subst h1
    cases hi with
    | none => simp [clipTo]
    | some b =>
      have hxb : x < b := hb
      simp only [clipTo, eq_iff_iff]
      constructor
      · intro h; rw [max_eq_left h, min_eq_right hxb.le]
      · intro h
        by_contra hj
        push Not at hj
        rw [max_eq_right hj.le] at h
        rcases min_choice b (j : ℝ) with h' | h' <;> rw [h'] at h <;> linarith
  · obtain ⟨a, ha, hxa⟩ := h2
    refine ⟨clean_ninf, ?_⟩
    rw [hout (fun y => y < a) (fun j => not_lt.2 (hge a ha j)) hxa]; rfl
  · obtain ⟨k, rfl⟩ : ∃ k : ℤ, x = k := by
      rcases hx with h | h | h | ⟨b, hb', hlt⟩
      · exact h
      · exact absurd h h1
      · exact absurd h h2
      · rw [h3, Option.some.injEq] at hb'; linarith
    obtain ⟨p', hp', hpn⟩ := hlp.clean k
    have hpe : p' = p := by
      have : Except.ok (ε := Err) p' = Except.ok p := hp'.symm.trans hp
      exact Except.ok.inj this
    subst hpe
    have hpm : p'.toDens = ENNReal.ofReal (q k) := by rw [← hlp.mass k, hp']; rfl
    have htot : ∑' j : ℤ, ENNReal.ofReal (q j) = 1 := by
      rw [← ENNReal.ofReal_tsum_of_nonneg hq hlp.total.summable, hlp.total.tsum_eq, ENNReal.ofReal_one]
    have hle1 : (∑' j : ℤ, if (j : ℝ) ≤ k then ENNReal.ofReal (q j) else 0) ≤ 1 := by
      rw [← htot]; exact ENNReal.tsum_le_tsum fun j => by split_ifs <;> simp
    obtain ⟨g1, g2⟩ := log1mexp_prob hcn hd hle1
    obtain ⟨g3, g4⟩ := logaddexp_dens g1 hpn
    refine ⟨⟨_, rfl, g3⟩, ?_⟩
    show FVal.toDens _ = _
    rw [g4, g2, hpm]
    have hone : ENNReal.ofReal (q k) = ∑' j : ℤ, if j = k then ENNReal.ofReal (q j) else 0 := by rw [tsum_ite_eq]
    have hgt : 1 - (∑' j : ℤ, if (j : ℝ) ≤ k then ENNReal.ofReal (q j) else 0) =
        ∑' j : ℤ, if k < j then ENNReal.ofReal (q j) else 0 := by
      rw [← htot]
      have : ∑' j : ℤ, ENNReal.ofReal (q j) = (∑' j : ℤ, if (j : ℝ) ≤ k then ENNReal.ofReal (q j) else 0) +
          ∑' j : ℤ, if k < j then ENNReal.ofReal (q j) else 0 := by
        rw [← ENNReal.tsum_add]
        congr 1; funext j
        rcases le_or_gt j k with h | h
        · simp [h, not_lt.2 h]
        · simp [h, not_le.2 h]
      rw [this, ENNReal.add_sub_cancel_left (ne_top_of_le_ne_top one_ne_top hle1)]
    rw [hgt, hone, ← ENNReal.tsum_add]
    congr 1; funext j
    have hcl : clipTo lo hi (j : ℝ) = k ↔ k ≤ j := by
      subst h3
      have hy : ∀ y : ℝ, min (k : ℝ) y = k ↔ (k : ℝ) ≤ y := fun y => min_eq_left_iff
      cases lo with
      | none => simp [clipTo]
      | some a =>
        have hak : a < (k : ℝ) := hb
        simp only [clipTo, hy, le_max_iff, Int.cast_le]
        constructor
        · rintro (h | h)
          · linarith
          · exact h
        · exact .inr
    simp only [hcl]
    rcases lt_trichotomy k j with h | h | h
    · simp [h, h.le, h.ne']
    · simp [h]
    · simp [not_lt.2 h.le, h.ne, not_le.2 h]
  · obtain ⟨b, hb', hbx⟩ := h4
    refine ⟨clean_ninf, ?_⟩
    rw [hout (fun y => b < y) (fun j => not_lt.2 (hle b hb' j)) hbx]; rfl
  · obtain ⟨k, rfl⟩ : ∃ k : ℤ, x = k := by
      rcases hx with h | h | h | h
      · exact h
      · exact absurd h h1
      · exact absurd h h2
      · exact absurd h h4
    obtain ⟨p', hp', hpn⟩ := hlp.clean k
    have hpe : p' = p := by
      have : Except.ok (ε := Err) p' = Except.ok p := hp'.symm.trans hp
      exact Except.ok.inj this
    subst hpe
    have hpm : p'.toDens = ENNReal.ofReal (q k) := by rw [← hlp.mass k, hp']; rfl
    refine ⟨⟨_, rfl, hpn⟩, ?_⟩
    show FVal.toDens _ = _
    rw [hpm]
    have hone : ENNReal.ofReal (q k) = ∑' j : ℤ, if j = k then ENNReal.ofReal (q j) else 0 := by rw [tsum_ite_eq]
    rw [hone]
    congr 1; funext j
    congr 1
    have hla : ∀ a, lo = some a → a < (k : ℝ) := fun a ha => by
      rcases lt_trichotomy a (k : ℝ) with h | h | h
      · exact h
      · exact absurd (h ▸ ha) h1
      · exact absurd ⟨a, ha, h⟩ h2
    have hlb : ∀ b, hi = some b → (k : ℝ) < b := fun b hb' => by
      rcases lt_trichotomy (k : ℝ) b with h | h | h
      · exact h
      · exact absurd (h ▸ hb') h3
      · exact absurd ⟨b, hb', h⟩ h4
    have e0 : ∀ a : ℝ, a < (k : ℝ) → (max a (j : ℝ) = k ↔ j = k) := fun a h => by
      constructor
      · intro h2
        rcases max_choice a (j : ℝ) with h' | h' <;> rw [h'] at h2
        · linarith
        · exact_mod_cast h2
      · rintro rfl; exact max_eq_right h.le
    have e2 : ∀ b y : ℝ, (k : ℝ) < b → (min b y = k ↔ y = k) := fun b y h => by
      constructor
      · intro h2
        rcases min_choice b y with h' | h' <;> rw [h'] at h2
        · linarith
        · exact h2
      · rintro rfl; exact min_eq_right h.le
    refine propext (Iff.symm ?_)
    cases lo with
    | none =>
      cases hi with
      | none => exact Int.cast_inj
      | some b => exact (e2 b j (hlb b rfl)).trans Int.cast_inj
    | some a =>
      cases hi with
      | none => exact e0 a (hla a rfl)
      | some b => exact (e2 b _ (hlb b rfl)).trans (e0 a (hla a rfl))

example := C111_clip_real_bounds_partial (lp := fun v => poissonLogprob v (fin 2)) (lc := fun v => poissonLogcdf v (fin 2))
  (fun k => by simp only [onNat]; split_ifs; · unfold poissonMass; positivity
               · exact le_rfl) (C31_poisson (μ := 2) (by norm_num))
  (fun v => C45_poisson_logcdf (μ := 2) (by norm_num) v) (l := .const (fin (1 / 2))) (u := .sym (fin (5 / 2))) (lo := some (1 / 2))
  (hi := some (5 / 2)) (x := 1 / 2) rfl rfl (show (1 / 2 : ℝ) < 5 / 2 by norm_num)
  (let ⟨p, hp, _⟩ := (poissonLogprob_pos (μ := 2) (b := 1 / 2) (by norm_num) (by norm_num)).1; ⟨p, hp⟩) (.inr (.inl rfl))

end Verif
