import Verif.Model.ClipDtype
import Verif.Spec.Walk
import Verif.Props.Censoring

/-! # C118: data types and infinite bounds in clipping -/

namespace Verif
open MeasureTheory ENNReal Set FVal

theorem startsWithInt_iff (d : Walk.DType) : startsWithInt d = true ↔ Walk.SignedInt d := by
  cases d <;> simp [startsWithInt, Walk.DType.name, Walk.SignedInt, List.isPrefixOf]

open scoped Classical in
/-- **C118** A clipped discrete variable with draws of any data type: never an error or NaN, and the log-probability is the log of `P(clip(X, a, b) = k)` except that, unless the type is a signed integer type, the
mass of the upper bound itself is left out at the upper bound.  Missing: that it is right for the other types, which is false (`C118_clip_iff`). -/
theorem C118_clip_partial (d : Walk.DType) {lp lc : FVal → Except Err FVal} {q : ℤ → ℝ} (hq : ∀ k, 0 ≤ q k)
    (hlp : IsLogMass (fun k => lp (fin k)) q) (hlc : ∀ k : ℤ, IsLogSum (lc (fin k)) (fun j => lp (fin j)) k)
    {l u : ClipArg} {lo hi : Option ℤ} (hl : LowerIs l (lo.map (↑))) (hu : UpperIs u (hi.map (↑)))
    (hb : BoundsLt (lo.map (↑)) (hi.map (↑))) (k : ℤ) :
    Clean (clipOfType d lp lc l u (fin k)) ∧
    dens (clipOfType d lp lc l u (fin k)) + (if Walk.SignedInt d ∨ hi ≠ some k then 0 else ENNReal.ofReal (q k)) = clipMass lo hi (fun j => ENNReal.ofReal (q j)) k := by
  have h60 := C60_clip_discrete_partial hq hlp hlc hl hu hb k
  by_cases hd : Walk.SignedInt d
  · rw [if_pos (.inl hd), clipOfType, (startsWithInt_iff d).2 hd, add_zero]
    exact h60
  have hs : startsWithInt d = false := by rw [← Bool.not_eq_true, startsWithInt_iff]; exact hd
  obtain ⟨p, hp, hpn⟩ := hlp.clean k
  obtain ⟨⟨c, hc, hcn⟩, hsum⟩ := hlc k
  have hpd := hlp.mass k
  rw [hp, dens_ok] at hpd
  have hle : c.toDens ≤ 1 := by
    rw [hc, dens_ok] at hsum
    simp only [hlp.mass] at hsum
    rw [hsum, ← ENNReal.ofReal_one, ← hlp.total.tsum_eq, ENNReal.ofReal_tsum_of_nonneg hq hlp.total.summable]
    refine ENNReal.tsum_le_tsum fun j => ?_
    split_ifs <;> simp
  obtain ⟨hm1, hm2⟩ := log1mexp_prob hcn rfl hle
  obtain ⟨ha1, ha2⟩ := logaddexp_dens hm1 hpn
  rw [clipOfType, hs, measurableClip_eval hl hu hb hp hc]
  rw [measurableClip_eval hl hu hb hp hc] at h60
  refine ⟨⟨_, rfl, by simp only [Bool.false_eq_true, if_false]; split_ifs <;> first | assumption | simp⟩, ?_⟩
  rw [← h60.2, dens_ok, dens_ok]
  by_cases hk : hi = some k
  · have h1 : ¬ lo.map ((↑) : ℤ → ℝ) = some (k : ℝ) := by
      subst hk
      cases lo with
      | none => simp
      | some a =>
        have : (a : ℝ) < k := hb
        simp only [Option.map_some, Option.some.injEq]
        exact this.ne
    have h2 : ¬ ∃ a, lo.map ((↑) : ℤ → ℝ) = some a ∧ (k : ℝ) < a := by
      subst hk
      cases lo with
      | none => simp
      | some a =>
        have : (a : ℝ) < k := hb
        simp only [Option.map_some, Option.some.injEq, exists_eq_left']
        exact this.le.not_gt
    have h3 : hi.map ((↑) : ℤ → ℝ) = some (k : ℝ) := by rw [hk]; rfl
    rw [if_neg h1, if_neg h2, if_pos h3, if_neg h1, if_neg h2, if_pos h3, if_neg Bool.false_ne_true, if_pos rfl, ha2, hpd, if_neg (by simp [hd, hk])]
  · have h3 : ¬ hi.map ((↑) : ℤ → ℝ) = some (k : ℝ) := by
      cases hi with
      | none => simp
      | some b =>
        simp only [Option.map_some, Option.some.injEq, Int.cast_inj]
        exact fun h => hk (by rw [h])
    simp only [h3, if_false, ne_eq, hk, not_false_eq_true, or_true, if_true, add_zero]

/-- A Poisson variable of type `uint8`. -/
example := C118_clip_partial .uint8 (lp := fun v => poissonLogprob v (fin 2)) (lc := fun v => poissonLogcdf v (fin 2))
  (fun k => by simp only [onNat]; split_ifs; · unfold poissonMass; positivity
               · exact le_rfl) (C31_poisson (μ := 2) (by norm_num))
  (fun k => C45_poisson_logcdf (μ := 2) (by norm_num) k) (l := .const (fin 1)) (u := .sym (fin 4)) (lo := some 1) (hi := some 4)
  (by simp [LowerIs]) (by simp [UpperIs]) (by simp [BoundsLt]) 4

/-- **C118** (when it is right) The log-probability is that of the clipped variable at every integer exactly when the draws are signed integers, there is no upper bound, or the variable never takes the upper bound. -/
theorem C118_clip_iff (d : Walk.DType) {lp lc : FVal → Except Err FVal} {q : ℤ → ℝ} (hq : ∀ k, 0 ≤ q k)
    (hlp : IsLogMass (fun k => lp (fin k)) q) (hlc : ∀ k : ℤ, IsLogSum (lc (fin k)) (fun j => lp (fin j)) k)
    {l u : ClipArg} {lo hi : Option ℤ} (hl : LowerIs l (lo.map (↑))) (hu : UpperIs u (hi.map (↑)))
    (hb : BoundsLt (lo.map (↑)) (hi.map (↑))) :
    (∀ k : ℤ, dens (clipOfType d lp lc l u (fin k)) = clipMass lo hi (fun j => ENNReal.ofReal (q j)) k) ↔ Walk.SignedInt d ∨ ∀ b, hi = some b → q b = 0 := by
  have key := fun k => (C118_clip_partial d hq hlp hlc hl hu hb k).2
  constructor
  · intro h
    by_cases hd : Walk.SignedInt d
    · exact .inl hd
    · refine .inr fun b hbk => ?_
      have e := key b
      rw [if_neg (by simp [hd, hbk]), h b] at e
      have hfin : clipMass lo hi (fun j => ENNReal.ofReal (q j)) b ≠ ⊤ := by
        refine ne_top_of_le_ne_top one_ne_top ?_
        rw [← ENNReal.ofReal_one, ← hlp.total.tsum_eq, ENNReal.ofReal_tsum_of_nonneg hq hlp.total.summable, clipMass]
        exact ENNReal.tsum_le_tsum fun j => by split_ifs <;> simp
      have hz : ENNReal.ofReal (q b) = 0 := by
        have e' : clipMass lo hi (fun j => ENNReal.ofReal (q j)) b + ENNReal.ofReal (q b) = clipMass lo hi (fun j => ENNReal.ofReal (q j)) b + 0 := by rw [e, add_zero]
        exact (ENNReal.add_right_inj hfin).1 e'
      exact le_antisymm (ENNReal.ofReal_eq_zero.1 hz) (hq b)
  · rintro h k
    rw [← key k]
    split_ifs with h1
    · rw [add_zero]
    · push Not at h1
      rcases h with h | h
      · exact absurd h h1.1
      · rw [h k h1.2, ENNReal.ofReal_zero, add_zero]

/-- For unsigned Poisson variables clipped above it is wrong. -/
example : ¬ ∀ k : ℤ, dens (clipOfType .uint8 (fun v => poissonLogprob v (fin 2)) (fun v => poissonLogcdf v (fin 2)) .base (.const (fin 4)) (fin k)) =
    clipMass none (some 4) (fun j => ENNReal.ofReal (onNat (poissonMass 2) j)) k := by
  rw [C118_clip_iff .uint8 (fun k => by simp only [onNat]; split_ifs; · unfold poissonMass; positivity
                                        · exact le_rfl) (C31_poisson (μ := 2) (by norm_num))
    (fun k => C45_poisson_logcdf (μ := 2) (by norm_num) k) (lo := none) (hi := some 4) (by simp [LowerIs]) (by simp [UpperIs]) (by simp [BoundsLt])]
  push Not
  refine ⟨by simp [Walk.SignedInt], 4, rfl, ?_⟩
  simp only [onNat]
  rw [if_pos (by norm_num)]
  unfold poissonMass
  positivity

/-- **C118** (refuted part) Bounds in the wrong order are refused, but not if the upper bound is a constant minus infinity: then the variable counts as clipped only below, although every value of the clipped variable
is minus infinity.  The same bound in an expression is refused. -/
theorem C118_minus_inf_wrong (d : Walk.DType) {lp lc : FVal → Except Err FVal} (a : ℝ) {v : FVal} (hp : Clean (lp v)) (hc : Clean (lc v)) :
    clipOfType d lp lc (.const (fin a)) (.const ninf) v = clipOfType d lp lc (.const (fin a)) .base v ∧ Clean (clipOfType d lp lc (.const (fin a)) (.const ninf) v) ∧
    clipOfType d lp lc (.const (fin a)) (.sym ninf) v = .error .parameterValue := by
  obtain ⟨p, hp, hpn⟩ := hp
  obtain ⟨c, hc, hcn⟩ := hc
  simp only [clipOfType, measurableClip, clipLogprob, hp, hc, bind, Except.bind, ClipArg.bound, FVal.isInf]
  refine ⟨by simp [switch], ?_, ?_⟩
  · simp only [switch]
    refine ⟨_, by simp; rfl, ?_⟩
    split_ifs <;> simp_all
  · simp [switch, checkParam, FVal.le]

example := C118_minus_inf_wrong .float64 (lp := fun v => normalLogprob v (fin 1) (fin 2)) (lc := fun v => normalLogcdf v (fin 1) (fin 2)) 1 (v := fin 5)
  ((C09_normal 1 (σ := 2) (by norm_num)).1.clean 5) ((C43_normal_logcdf 1 (σ := 2) (by norm_num)).1.clean 5)

end Verif
