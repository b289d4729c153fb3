import Verif.Props.Censoring
import Verif.Props.Mixture
import Verif.Props.MixtureArray
import Verif.Lemmas.SameLibrary

/-! # Lemmas for C142: the same censored variable or mixture, written in different ways -/

namespace Verif
open FVal

/-! ## Bounds -/

theorem clip_normal_form {isInt : Bool} {lp lc : FVal → Except Err FVal} {l u : ClipArg} {lo hi : Option ℝ} (hl : LowerIs l lo) (hu : UpperIs u hi) (x : ℝ) :
    measurableClip isInt lp lc l u (fin x) = (do
      let p ← lp (fin x)
      let c ← lc (fin x)
      let p' := match hi with
        | none => p
        | some b => switch (x = b) (if isInt then logaddexp (log1mexp c) p else log1mexp c) (switch (b < x) ninf p)
      let p'' := match lo with
        | none => p'
        | some a => switch (x = a) c (switch (x < a) ninf p')
      match lo, hi with
      | some a, some b => checkParam p'' [a ≤ b]
      | _, _ => .ok p'') := by
  rcases hp : lp (fin x) with e | p
  · simp [measurableClip, clipLogprob, hp, bind, Except.bind]
  rcases hc : lc (fin x) with e | c
  · simp [measurableClip, clipLogprob, hp, hc, bind, Except.bind]
  have n1 : ¬ eq (fin x) ninf := id
  have n2 : ¬ lt (fin x) ninf := id
  have n3 : ¬ eq (fin x) pinf := id
  have n4 : ¬ gt (fin x) pinf := id
  have n5 : ∀ b : ℝ, le ninf (fin b) := fun _ => trivial
  have n6 : ∀ b : ℝ, le (fin b) pinf := fun _ => trivial
  have n7 : le ninf pinf := trivial
  have i1 : ∀ b : ℝ, ¬ (fin b).isInf := fun b h => by rcases h with h | h <;> cases h
  have i2 : pinf.isInf := .inl rfl
  rcases l with _ | v | v <;> rcases lo with _ | a <;> simp only [LowerIs, reduceCtorEq] at hl <;> (try subst hl) <;>
    rcases u with _ | w | w <;> rcases hi with _ | b <;> simp only [UpperIs, reduceCtorEq] at hu <;> (try subst hu) <;>
    simp [measurableClip, clipLogprob, ClipArg.bound, hp, hc, bind, Except.bind, switch, checkParam, n1, n2, n3, n4, n5, n6, n7, i1, i2]

/-! ## Rounding -/

theorem normalLogcdf_shift (x m d : ℝ) (s : FVal) : normalLogcdf (fin (x + d)) (fin (m + d)) s = normalLogcdf (fin x) (fin m) s := by
  simp only [normalLogcdf, sub_fin, add_sub_add_right_eq_sub]

theorem uniformLogcdf_shift (x a b d : ℝ) : uniformLogcdf (fin (x + d)) (fin (a + d)) (fin (b + d)) = uniformLogcdf (fin x) (fin a) (fin b) := by
  simp only [uniformLogcdf, sub_fin, add_sub_add_right_eq_sub, lt_fin, le_fin, add_lt_add_iff_right, add_le_add_iff_right]

theorem round_at (op : RoundOp) (lc : FVal → Except Err FVal) (k : ℤ) :
    roundLogprob op lc (fin (k : ℝ)) = (do
      let u ← lc (fin (k + match op with | .halfToEven => 1 / 2 | .floor => 1 | .ceil => 0))
      let l ← lc (fin (k - match op with | .halfToEven => 1 / 2 | .floor => 0 | .ceil => 1))
      return logdiffexp u l) := by
  rcases op <;> simp [roundLogprob, roundEdges, rint_int]

end Verif
