import Verif.Model.Abstract
import Verif.Lemmas.Dict

/-! # C76: marking variables as unmeasurable -/

set_option linter.unusedSectionVars false

namespace Verif.Abstract
open Verif

variable {B P F H : Type} [DecidableEq B] [DecidableEq F] [DecidableEq H]

/-- Hashes do not confuse two measurable-outputs functions. -/
def NoClash (E : Env B P F H) : Prop := ∀ op fn op' fn', E.hash op fn = E.hash op' fn' → fn = fn'

/-- Every entry belongs to a class made with that function. -/
def Good (E : Env B P F H) (reg : Registry B F H) : Prop := ∀ h g, Dict.get? reg (.made h) = some g → ∃ op, E.hash op g = h

theorem Good.set {E : Env B P F H} {reg : Registry B F H} (h : Good E reg) (op : AOp B P F) (fn : F) : Good E (Dict.set reg (.made (E.hash op fn)) fn) := by
  intro k g hg
  rw [Dict.get?_set] at hg
  split_ifs at hg with hk
  · cases hg; exact ⟨op, by simpa using hk⟩
  · exact h k g hg

/-- What one call does to the registry. -/
theorem assign_reg {E : Env B P F H} {reg reg' : Registry B F H} {op op' : AOp B P F} {fn : F} (h : E.assign reg op fn = .ok (op', reg')) :
    reg' = reg ∨ ∃ o, reg' = Dict.set reg (.made (E.hash o fn)) fn := by
  unfold Env.assign at h
  cases op with
  | plain b p => simp only [Except.ok.injEq, Prod.mk.injEq] at h; exact .inr ⟨_, h.2.symm⟩
  | unmeasurable o g =>
    simp only at h
    split at h
    · split_ifs at h
      simp only [Except.ok.injEq, Prod.mk.injEq] at h
      exact .inl h.2.symm
    · simp only [Except.ok.injEq, Prod.mk.injEq] at h; exact .inr ⟨_, h.2.symm⟩

theorem run_inv {E : Env B P F H} (hn : NoClash E) (calls : List (AOp B P F × F)) {reg : Registry B F H} (hg : Good E reg) :
    Good E (E.run calls reg) ∧ (∀ h g, Dict.get? reg (.made h) = some g → Dict.get? (E.run calls reg) (.made h) = some g) := by
  induction calls generalizing reg with
  | nil => exact ⟨hg, fun _ _ h => h⟩
  | cons c calls ih =>
    obtain ⟨op, fn⟩ := c
    simp only [Env.run]
    cases h : E.assign reg op fn with
    | error e => exact ih hg
    | ok r =>
      obtain ⟨op', reg'⟩ := r
      rcases assign_reg h with rfl | ⟨o, rfl⟩
      · exact ih hg
      · obtain ⟨h1, h2⟩ := ih (hg.set o fn)
        refine ⟨h1, fun k g hk => h2 k g ?_⟩
        rw [Dict.get?_set]
        split_ifs with hkk
        · obtain ⟨o', ho'⟩ := hg k g hk
          have hkk' : E.hash o fn = E.hash o' g := by simpa [← ho'] using hkk
          rw [hn o fn o' g hkk']
        · exact hk

theorem run_cls (E : Env B P F H) (calls : List (AOp B P F × F)) (reg : Registry B F H) (b : B) :
    Dict.get? (E.run calls reg) (.cls b) = Dict.get? reg (.cls b) := by
  induction calls generalizing reg with
  | nil => rfl
  | cons c calls ih =>
    obtain ⟨op, fn⟩ := c
    simp only [Env.run]
    cases h : E.assign reg op fn with
    | error e => exact ih reg
    | ok r =>
      obtain ⟨op', reg'⟩ := r
      rcases assign_reg h with rfl | ⟨o, rfl⟩
      · exact ih _
      · rw [ih, Dict.get?_set, if_neg (by simp)]

/-- The registry at import time has no made classes. -/
def Initial (reg : Registry B F H) : Prop := ∀ h, Dict.get? reg (.made h) = none

theorem Initial.good {E : Env B P F H} {reg : Registry B F H} (h : Initial reg) : Good E reg := fun k _ hk => by rw [h k] at hk; cases hk

/-- **C76**: after any history of calls, marking a measurable op that is not already marked succeeds; the returned op reports the custom
function, at once and after any further calls; marking it again with the same function returns the same op and changes nothing; marking
it with any other function raises `ValueError`. -/
theorem C76_marking {E : Env B P F H} (hn : NoClash E) {reg0 : Registry B F H} (h0 : Initial reg0) (before after : List (AOp B P F × F)) (b : B) (p : P) (fn : F)
    (hm : E.isMeasurable b = true) :
    ∃ op' reg', E.assign (E.run before reg0) (.plain b p) fn = .ok (op', reg') ∧
      E.getMeasurableOutputs (E.run after reg') op' = some fn ∧
      E.assign (E.run after reg') op' fn = .ok (op', E.run after reg') ∧
      ∀ fn', fn' ≠ fn → E.assign (E.run after reg') op' fn' = .error .valueError := by
  obtain ⟨hg, _⟩ := run_inv hn before h0.good
  refine ⟨.unmeasurable (.plain b p) fn, Dict.set (E.run before reg0) (.made (E.hash (.plain b p) fn)) fn, rfl, ?_⟩
  obtain ⟨_, h2⟩ := run_inv hn after (hg.set (.plain b p) fn)
  have hk := h2 (E.hash (.plain b p) fn) fn (by rw [Dict.get?_set, if_pos rfl])
  refine ⟨?_, ?_, fun fn' hne => ?_⟩
  · simp only [Env.getMeasurableOutputs, Env.measurable, hm, if_true, Env.dispatch, hk]
  · simp only [Env.assign, hk, ne_eq, not_true_eq_false, if_false]
  · simp only [Env.assign, hk, ne_eq, hne.symm, not_false_eq_true, if_true]

/-- **C76**, isolation: whatever calls are made, an op that is not a result of marking keeps its measurable outputs. -/
theorem C76_isolated (E : Env B P F H) (calls : List (AOp B P F × F)) (reg : Registry B F H) (b : B) (p : P) :
    E.getMeasurableOutputs (E.run calls reg) (.plain b p) = E.getMeasurableOutputs reg (.plain b p) := by
  simp only [Env.getMeasurableOutputs, Env.dispatch, run_cls]

/-- **C76**, isolation between marked ops: an op marked with `fn` keeps reporting `fn` while any ops, equal ones included, are marked with any
functions. -/
theorem C76_marked_keep {E : Env B P F H} (hn : NoClash E) {reg0 : Registry B F H} (h0 : Initial reg0) (before after : List (AOp B P F × F)) (op : AOp B P F) (fn : F)
    (h : Dict.get? (E.run before reg0) (.made (E.hash op fn)) = some fn) (hm : E.measurable op = true) :
    E.getMeasurableOutputs (E.run after (E.run before reg0)) (.unmeasurable op fn) = some fn := by
  obtain ⟨hg, _⟩ := run_inv hn before h0.good
  obtain ⟨_, h2⟩ := run_inv hn after hg
  simp only [Env.getMeasurableOutputs, Env.measurable, hm, if_true, Env.dispatch, h2 _ _ h]

/-- **C76**, ordinary ops: an op of a class that is not measurable reports no outputs, whatever has been marked, and marking it with a function does not
make it (or the marked op) report any. -/
theorem C76_not_measurable (E : Env B P F H) (before after : List (AOp B P F × F)) (reg : Registry B F H) (b : B) (p : P) (fn : F)
    (hm : E.isMeasurable b = false) :
    ∃ op' reg', E.assign (E.run before reg) (.plain b p) fn = .ok (op', reg') ∧
      E.getMeasurableOutputs (E.run after reg') (.plain b p) = none ∧ E.getMeasurableOutputs (E.run after reg') op' = none := by
  refine ⟨.unmeasurable (.plain b p) fn, Dict.set (E.run before reg) (.made (E.hash (.plain b p) fn)) fn, rfl, ?_, ?_⟩ <;>
    simp [Env.getMeasurableOutputs, Env.measurable, hm]

/-- One class, attributes that are forgotten by the hash, functions that are not. -/
def sampleEnv : Env Unit ℕ ℕ ℕ := ⟨fun _ fn => fn, fun _ => true, fun _ => [()], 0⟩

example := C76_marking (E := sampleEnv) (fun _ _ _ _ h => h) (reg0 := [(.cls (), 3)]) (fun _ => rfl) [(.plain () 1, 5), (.plain () 2, 6)]
  [(.plain () 2, 5), (.unmeasurable (.plain () 2) 5, 7)] () 3 6 rfl

example := C76_marked_keep (E := sampleEnv) (fun _ _ _ _ h => h) (reg0 := [(.cls (), 3)]) (fun _ => rfl) [(.plain () 1, 5)] [(.plain () 2, 6)] (.plain () 1) 5 rfl rfl

example := C76_not_measurable (⟨fun _ fn => fn, fun b => b, fun b => [b], 0⟩ : Env Bool ℕ ℕ ℕ) [(.plain true 1, 5)] [(.plain false 2, 5)] [(.cls true, 3)]
  false 3 6 rfl

end Verif.Abstract
