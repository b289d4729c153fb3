import Verif.Spec.Keywords

/-!
# Lemmas for keyword arguments
-/

namespace Verif.Kwargs
open Verif

variable {Di O A : Type}

theorem get?_pop {name n : String} (kw : Kw O) (h : n ≠ name) : Dict.get? (pop name kw) n = Dict.get? kw n := by
  induction kw with
  | nil => rfl
  | cons p l ih =>
    obtain ⟨a, b⟩ := p
    simp only [pop, List.filter_cons] at ih ⊢
    by_cases ha : a = name
    · subst ha
      simpa [Dict.get?, h.symm] using ih
    · by_cases hn : a = n
      · simp [ha, Dict.get?, hn, hn ▸ ha]
      · simpa [ha, Dict.get?, hn] using ih

theorem Apart.pop {F : Funs Di O A} (hF : F.Apart) {name : String} (hn : name ∈ own) (d : Di) (kw : Kw O) :
    F.logprob d (pop name kw) = F.logprob d kw ∧ F.logcdf d (Kwargs.pop name kw) = F.logcdf d kw :=
  hF d _ _ fun _ h => get?_pop kw fun h' => h (h' ▸ hn)

theorem mapM_congr {α β : Type} {f g : α → Except Err β} (h : ∀ a, f a = g a) (l : List α) : l.mapM f = l.mapM g := by
  rw [funext h]

theorem logprobOf_entrywise (F : Funs Di O A) (truthy : O → Bool) (jac : Bool) (m : MVar Di A) (hm : Entrywise m) (kw : Kw O) (v : A) :
    logprobOf F truthy m kw v = density (fun d => F.logprob d kw) (fun d => F.logcdf d kw) jac m v := by
  induction m generalizing v with
  | dist d => simp [logprobOf, density]
  | node kind n parts queries combine ih =>
    obtain ⟨hk, hp⟩ := hm
    have hh : handed kind kw = kw := by
      revert hk
      cases kind <;> simp [handed]
    simp only [logprobOf, density, hh]
    congr 1
    refine mapM_congr (fun q => ?_) _
    by_cases hq : q.cdf
    · simp only [hq, if_true]
      cases parts q.part <;> rfl
    · simp only [hq]
      exact ih q.part (hp q.part) q.value
  | transformed base back addJac => exact hm.elim

theorem density_congr {lp lp' cdf cdf' : Di → A → Except Err A} (h : lp = lp') (h' : cdf = cdf') (jac : Bool) (m : MVar Di A) (v : A) : density lp cdf jac m v = density lp' cdf' jac m v := by
  rw [h, h']

/-- A variable without transforms does not depend on the Jacobian switch. -/
theorem density_entrywise (lp cdf : Di → A → Except Err A) (jac jac' : Bool) (m : MVar Di A) (hm : Entrywise m) (v : A) : density lp cdf jac m v = density lp cdf jac' m v := by
  induction m generalizing v with
  | dist d => simp [density]
  | node kind n parts queries combine ih =>
    simp only [density]
    congr 1
    refine mapM_congr (fun q => ?_) _
    by_cases hq : q.cdf
    · simp only [hq, if_true]
    · simp only [hq]
      exact ih q.part (hm.2 q.part) q.value
  | transformed base back addJac => exact hm.elim

/-- A call without arguments. -/
theorem logprobOf_nil (F : Funs Di O A) (truthy : O → Bool) (m : MVar Di A) (v : A) :
    logprobOf F truthy m [] v = density (fun d => F.logprob d []) (fun d => F.logcdf d []) true m v := by
  induction m generalizing v with
  | dist d => simp [logprobOf, density]
  | node kind n parts queries combine ih =>
    have h : handed kind ([] : Kw O) = [] := by cases kind <;> rfl
    simp only [logprobOf, density, h]
    congr 1
    refine mapM_congr (fun q => ?_) _
    by_cases hq : q.cdf
    · simp only [hq, if_true]
      cases parts q.part <;> rfl
    · simp only [hq]
      exact ih q.part q.value
  | transformed base back addJac ih =>
    have h : pop "use_jacobian" ([] : Kw O) = [] := rfl
    simp only [logprobOf, density, h, ih]
    rfl

/-- Every variable: which distributions get the arguments. -/
theorem logprobOf_mark (F : Funs Di O A) (truthy : O → Bool) (jac : Bool) (m : MVar Di A) (hm : Untransformed m) (kw : Kw O) (b : Bool) (v : A) :
    logprobOf F truthy m (if b then kw else []) v =
      density (fun p => F.logprob p.2 (if p.1 then kw else [])) (fun p => F.logcdf p.2 (if p.1 then kw else [])) jac (mark b m) v := by
  induction m generalizing v b with
  | dist d => simp [logprobOf, density, mark]
  | node kind n parts queries combine ih =>
    have hh : handed kind (if b then kw else []) = if (b && decide (kind ∈ [Kind.valued, .clip, .round, .elemwise])) then kw else [] := by
      cases kind <;> cases b <;> simp [handed]
    simp only [logprobOf, density, mark, hh]
    congr 1
    refine mapM_congr (fun q => ?_) _
    by_cases hq : q.cdf
    · simp only [hq, if_true]
      cases parts q.part <;> rfl
    · simp only [hq]
      exact ih q.part (hm q.part) _ q.value
  | transformed base back addJac => exact hm.elim

theorem wantsJacobian_eq (truthy : O → Bool) (kw : Kw O) : ((Dict.get? kw "use_jacobian").map truthy).getD true = wantsJacobian truthy kw := by
  unfold wantsJacobian
  cases Dict.get? kw "use_jacobian" <;> rfl

theorem wantsJacobian_pop (truthy : O → Bool) (kw : Kw O) : wantsJacobian truthy (pop "warn_missing_rvs" kw) = wantsJacobian truthy kw := by
  unfold wantsJacobian
  rw [get?_pop kw (by decide)]

end Verif.Kwargs
