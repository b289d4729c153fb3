import Verif.Lemmas.Keywords
import Mathlib.Tactic.NormNum
import Mathlib.Tactic.FinCases
import Mathlib.Data.Fin.VecNotation

/-!
# C148: keyword arguments and the distributions they are for
-/

namespace Verif.Kwargs
open Verif

variable {Di O A : Type}

/-- **C148** (partial: no cumulative sums, stacks, concatenations, changes of axes, mixtures and scans.) Clipped, rounded and elementwise transformed variables, with or without a transform of the value,
hand the caller's arguments to the functions of their distribution, and the Jacobian term of the value's transform is there iff the caller wants it. -/
theorem C148_reach_partial (F : Funs Di O A) (truthy : O → Bool) (hF : F.Apart) (m : MVar Di A) (hm : Outer m) : Reach F truthy m := by
  intro kw v
  cases m with
  | dist d => exact logprobOf_entrywise F truthy _ _ hm kw v
  | node kind n parts queries combine => exact logprobOf_entrywise F truthy _ _ hm kw v
  | transformed base back addJac =>
    simp only [logprobOf, density, wantsJacobian_eq]
    rw [logprobOf_entrywise F truthy (wantsJacobian truthy kw) base hm,
      density_congr (funext fun d => (Apart.pop hF (by simp [own]) d kw).1) (funext fun d => (Apart.pop hF (by simp [own]) d kw).2)]

/-- **C148** (partial, as above) The same for `conditional_logprob`: every variable gets the arguments. -/
theorem C148_conditional_partial (F : Funs Di O A) (truthy : O → Bool) (hF : F.Apart) (vars : List (MVar Di A × A)) (hm : ∀ p ∈ vars, Outer p.1) (kw : Kw O) :
    conditionalKw F truthy vars kw = vars.mapM fun p => density (fun d => F.logprob d kw) (fun d => F.logcdf d kw) (wantsJacobian truthy kw) p.1 p.2 := by
  simp only [conditionalKw]
  induction vars with
  | nil => rfl
  | cons p l ih =>
    rw [List.mapM_cons, List.mapM_cons, ih fun q hq => hm q (List.mem_cons_of_mem _ hq), C148_reach_partial F truthy hF p.1 (hm p List.mem_cons_self), wantsJacobian_pop,
      density_congr (funext fun d => (Apart.pop hF (by simp [own]) d kw).1) (funext fun d => (Apart.pop hF (by simp [own]) d kw).2)]

/-- **C148** What is put together from pieces ignores the arguments: the result is that of the call without any. -/
theorem C148_dropped (F : Funs Di O A) (truthy : O → Bool) (m : MVar Di A) (hm : Assembled m) (kw kw' : Kw O) (v : A) : logprobOf F truthy m kw v = logprobOf F truthy m kw' v := by
  cases m with
  | dist d => exact hm.elim
  | transformed base back addJac => exact hm.elim
  | node kind n parts queries combine =>
    have h : handed kind kw = [] ∧ handed kind kw' = [] := by
      revert hm
      cases kind <;> simp [handed, Assembled]
    simp only [logprobOf, h.1, h.2]

/-- **C148** With the distributions as they are when no arguments are given, whatever the caller gives, and however the pieces are made. -/
theorem C148_dropped_default (F : Funs Di O A) (truthy : O → Bool) (m : MVar Di A) (hm : Assembled m) (kw : Kw O) (v : A) :
    logprobOf F truthy m kw v = density (fun d => F.logprob d []) (fun d => F.logcdf d []) true m v := by
  rw [C148_dropped F truthy m hm kw [], logprobOf_nil]

/-- **C148** A call without arguments is what it should be for every variable. -/
theorem C148_none (F : Funs Di O A) (truthy : O → Bool) (vars : List (MVar Di A × A)) :
    conditionalKw F truthy vars [] = vars.mapM fun p => density (fun d => F.logprob d []) (fun d => F.logcdf d []) true p.1 p.2 := by
  show (vars.mapM fun p => logprobOf F truthy p.1 [] p.2) = _
  exact mapM_congr (fun p : MVar Di A × A => logprobOf_nil F truthy p.1 p.2) vars

/-- **C148** Exactly which distributions get the arguments, for every variable: those with nothing but clipping, rounding, elementwise functions and a transform of the value between them and the outside.
All other ones are called without arguments. -/
theorem C148_exact (F : Funs Di O A) (truthy : O → Bool) (hF : F.Apart) (m : MVar Di A) (hm : OuterOnly m) (kw : Kw O) (v : A) :
    logprobOf F truthy m kw v =
      density (fun p => F.logprob p.2 (if p.1 then kw else [])) (fun p => F.logcdf p.2 (if p.1 then kw else [])) (wantsJacobian truthy kw) (mark true m) v := by
  cases m with
  | dist d => simpa using logprobOf_mark F truthy (wantsJacobian truthy kw) _ hm kw true v
  | node kind n parts queries combine => simpa using logprobOf_mark F truthy (wantsJacobian truthy kw) _ hm kw true v
  | transformed base back addJac =>
    have h := logprobOf_mark F truthy (wantsJacobian truthy kw) base hm (pop "use_jacobian" kw) true (back v)
    simp only [if_true] at h
    simp only [logprobOf, density, mark, wantsJacobian_eq, h]
    have e : ∀ p : Bool × Di, F.logprob p.2 (if p.1 then pop "use_jacobian" kw else []) = F.logprob p.2 (if p.1 then kw else []) ∧
        F.logcdf p.2 (if p.1 then pop "use_jacobian" kw else []) = F.logcdf p.2 (if p.1 then kw else []) := by
      rintro ⟨b, d⟩
      cases b
      · exact ⟨rfl, rfl⟩
      · exact Apart.pop hF (by simp [own]) d kw
    rw [density_congr (funext fun p => (e p).1) (funext fun p => (e p).2)]

/-- A distribution with an argument `beta` by which its log-probability is multiplied (a tempered log-likelihood); 1 if it is not given. -/
def tempered : Funs Unit ℤ ℤ where
  logprob _ kw v := .ok (-((Dict.get? kw "beta").getD 1) * v)
  logcdf _ _ _ := .error .notImplemented

theorem tempered_apart : tempered.Apart := by
  intro d kw kw' h
  have : Dict.get? kw "beta" = Dict.get? kw' "beta" := h "beta" (by decide)
  simp [tempered, this]

/-- A variable made from one draw, with its log-probability at the same value. -/
def single (kind : Kind) : MVar Unit ℤ := .node kind 1 (fun _ => .dist ()) (fun v => [⟨0, false, v⟩]) fun _ rs => .ok rs.sum

/-- **C148** The claim is false for every way of putting a variable together: a cumulative sum, a stack, a concatenation, a change of axes, a mixture or a scan made from one tempered distribution. -/
theorem C148_dropped_wrong (truthy : ℤ → Bool) (kind : Kind) (hk : kind ∈ [Kind.cumsum, .makeVector, .join, .dimshuffle, .mixture, .scan]) :
    tempered.Apart ∧ ¬ Reach tempered truthy (single kind) := by
  refine ⟨tempered_apart, fun h => ?_⟩
  have h := h [("beta", 2)] 1
  rw [C148_dropped tempered truthy (single kind) hk _ []] at h
  have hn : handed kind ([] : Kw ℤ) = [] := by cases kind <;> rfl
  simp [single, logprobOf, density, hn, tempered, Dict.get?] at h
  exact absurd h (by decide)

/-- **C148** So two ways of writing the same model disagree: the argument counts for the variable itself and not for the stack of it alone. -/
theorem C148_spelling_wrong (truthy : ℤ → Bool) : logprobOf tempered truthy (.dist ()) [("beta", 2)] 1 = .ok (-2) ∧ logprobOf tempered truthy (single .makeVector) [("beta", 2)] 1 = .ok (-1) := by
  constructor <;> rfl

/-- **C148** `use_jacobian`: without it and with a true value the term is added, with a false one it is not, for every variable with a transformed value (assembled or not). -/
theorem C148_jacobian (F : Funs Di O A) (truthy : O → Bool) (base : MVar Di A) (back : A → A) (addJac : A → A → Except Err A) (kw : Kw O) (v r : A)
    (h : logprobOf F truthy base (pop "use_jacobian" kw) (back v) = .ok r) :
    logprobOf F truthy (.transformed base back addJac) kw v = if wantsJacobian truthy kw then addJac v r else .ok r := by
  simp only [logprobOf, h, wantsJacobian_eq]
  rfl

/-- **C148** `warn_missing_rvs` changes nothing. -/
theorem C148_deprecated (F : Funs Di O A) (truthy : O → Bool) (vars : List (MVar Di A × A)) (kw : Kw O) (o : O) : conditionalKw F truthy vars (("warn_missing_rvs", o) :: kw) = conditionalKw F truthy vars kw := by
  simp [conditionalKw, pop]

/-- **C148** A name given to `logcdf` is an error, for every variable and every value. -/
theorem C148_logcdf_name_raises (F : Funs Di O A) (name o : O) (m : MVar Di A) (kw : Kw O) (v : A) : logcdfApi F name m (("name", o) :: kw) v = .error .typeError := by
  simp [logcdfApi, Dict.get?]

/-- **C148** `logcdf` of a distribution that takes no argument `name` has the caller's arguments. -/
theorem C148_logcdf (F : Funs Di O A) (hF : ∀ d (kw : Kw O) o, F.logcdf d (("name", o) :: kw) = F.logcdf d kw) (name : O) (d : Di) (kw : Kw O) (hn : Dict.get? kw "name" = none) (v : A) :
    logcdfApi F name (.dist d) kw v = F.logcdf d kw v := by
  simp [logcdfApi, hn, logcdfOf, hF]

/-- A tempered variable, doubled, on a log scale. -/
def doubledTrans : MVar Unit ℤ := .transformed (.node .elemwise 1 (fun _ => .dist ()) (fun v => [⟨0, false, v / 2⟩]) fun _ rs => .ok (rs.sum - 1)) (fun z => 2 * z) fun z r => .ok (r + z)

example : Reach tempered (fun o => o ≠ 0) doubledTrans := C148_reach_partial _ _ tempered_apart _ ⟨by simp, fun _ => trivial⟩

example : logprobOf tempered (fun o => o ≠ 0) doubledTrans [("beta", 2), ("use_jacobian", 0)] 3 = .ok (-7) := by rfl

example : logprobOf tempered (fun o => o ≠ 0) doubledTrans [("beta", 2)] 3 = .ok (-4) := by rfl

example := C148_conditional_partial tempered (fun o => o ≠ 0) tempered_apart [(doubledTrans, 3), (.dist (), 1)] (by
  intro p hp
  simp only [List.mem_cons, List.not_mem_nil, or_false] at hp
  obtain rfl | rfl := hp
  · exact ⟨by simp, fun _ => trivial⟩
  · exact trivial) [("beta", 2), ("warn_missing_rvs", 1)]

example := C148_dropped_default tempered (fun _ => true) (.node .cumsum 1 (fun _ => single .makeVector) (fun v => [⟨0, false, v⟩]) fun _ rs => .ok rs.sum) (by simp [Assembled]) [("beta", 2)] 1

/-- The sum of a variable and a stack of it, both clipped. -/
def mixed : MVar Unit ℤ := .node .clip 2 ![.dist (), single .makeVector] (fun v => [⟨0, false, v⟩, ⟨1, false, v⟩]) fun _ rs => .ok rs.sum

example := C148_exact tempered (fun o => o ≠ 0) tempered_apart mixed (by
  intro i
  fin_cases i
  · exact trivial
  · exact fun _ => trivial) [("beta", 2)] 1

example : logprobOf tempered (fun o => o ≠ 0) mixed [("beta", 2)] 1 = .ok (-3) := by rfl

example := C148_dropped_wrong (fun _ => true) .mixture (by simp)

example := C148_jacobian tempered (fun o => o ≠ 0) (.dist ()) (fun z => 2 * z) (fun z r => .ok (r + z)) [("use_jacobian", 0)] 3 (-6) rfl

example := C148_logcdf (O := ℤ) (A := ℤ) ⟨fun _ _ _ => .ok 0, fun (_ : Unit) kw v => .ok ((Dict.get? kw "beta").getD 1 * v)⟩ (by
  intro d kw o
  simp [Dict.get?]) 7 () [("beta", 2)] rfl 1

end Verif.Kwargs
