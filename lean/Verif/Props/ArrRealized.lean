import Verif.Model.ArrRealized
import Verif.Spec.ArrRealized
import Verif.Props.ArrLocal
import Verif.Props.RealizedExpr

/-! # C147 for models with array variables -/

namespace Verif.ArrGraph
open Verif Cond

variable {Di : Type} {defs : ℕ → Option (RVDef Di)} {graphs : ℕ → Option (Expr Di)} {ρ ρ' : ℕ → Arr FVal} {ω : ℕ → Di → List (Arr FVal) → Arr FVal}

/-- Putting graphs in is evaluating them first. -/
theorem eval_putBack (h : ∀ x, graphs x = none → ρ' x = ρ x) (hg : ∀ x e, graphs x = some e → ρ' x = eval ρ ω e) (e : Expr Di) : eval ρ ω (putBack graphs e) = eval ρ' ω e := by
  induction e with
  | const => rfl
  | inp i =>
    simp only [putBack, eval]
    cases hi : graphs i with
    | none => exact (h i hi).symm
    | some e => exact (hg i e hi).symm
  | app n f args ih =>
    simp only [putBack, eval]
    congr 1
    exact funext fun i => ih i
  | rv id dist n args ih =>
    simp only [putBack, eval]
    congr 2
    exact funext fun i => ih i
  | valued r v ih _ => exact ih

theorem term_putBack (kernel : Di → Arr FVal → List (Arr FVal) → Except Err (Arr FVal)) (h : ∀ x, graphs x = none → ρ' x = ρ x) (hg : ∀ x e, graphs x = some e → ρ' x = eval ρ ω e) (t : Term Di) :
    (t.putBack graphs).eval kernel ρ ω = t.eval kernel ρ' ω := by
  simp only [Term.putBack, Term.eval, eval_putBack h hg]

/-- Drawing all random variables of a graph is having no values for them. -/
theorem eval_all_drawn (e : Expr Di) : eval ρ ω e = evalGiven (fun _ => none) ρ ω e := by
  induction e with
  | const => rfl
  | inp i => rfl
  | app n f args ih =>
    simp only [eval, evalGiven]
    congr 1
    exact funext fun i => ih i
  | rv id dist n args ih =>
    simp only [eval, evalGiven]
    congr 2
    exact funext fun i => ih i
  | valued r v ih _ => exact ih

theorem evalGiven_unrelated {valueVar : ℕ → Option ℕ} {e : Expr Di} (he : Unrelated valueVar e) : evalGiven (fun v => (valueVar v).map ρ') ρ ω e = eval ρ ω e := by
  induction e with
  | const => rfl
  | inp i => rfl
  | app n f args ih =>
    simp only [eval, evalGiven]
    congr 1
    exact funext fun i => ih i (he i)
  | rv id dist n args ih =>
    simp only [eval, evalGiven, he.1, Option.map_none]
    congr 2
    exact funext fun i => ih i (he.2 i)
  | valued r v ih _ => exact ih he

theorem joint_putBack (kernel : Di → Arr FVal → List (Arr FVal) → Except Err (Arr FVal)) {rvs clones : List ℕ} {realized : Dict ℕ ℕ} {j : JointExpr (Term Di)} {vvs : List ℕ}
    (hj : joint defs rvs clones realized = .ok (some (j, vvs))) :
    ∃ j', jointGraphs graphs defs rvs clones realized = .ok (some (j', vvs)) ∧
      ∀ ρ ρ' ω, (∀ x, graphs x = none → ρ' x = ρ x) → (∀ x e, graphs x = some e → ρ' x = eval ρ ω e) → evalJoint kernel ρ ω j' = evalJoint kernel ρ' ω j := by
  simp only [joint, jointLogprob] at hj
  simp only [jointGraphs, conditionalGraphs]
  cases hc : conditionalLogprob (backend defs (rvValues rvs clones realized)) rvs clones realized with
  | error e => rw [hc] at hj; cases hj
  | ok r =>
    obtain ⟨terms, vvs'⟩ := r
    rw [hc] at hj
    match terms, hj with
    | [(v, t)], hj =>
      cases hj
      refine ⟨_, rfl, fun ρ ρ' ω h hg => ?_⟩
      simp only [evalJoint, term_putBack kernel h hg]
    | a :: b :: l, hj =>
      cases hj
      refine ⟨_, rfl, fun ρ ρ' ω h hg => ?_⟩
      simp only [evalJoint, Dict.values, List.map_map, List.map_cons, term_putBack kernel h hg]
      congr 3
      refine List.map_congr_left fun p _ => ?_
      simp only [Function.comp, term_putBack kernel h hg]

/-- **C147** (arrays, what is computed) For every model, request and graphs given as values: the result is the joint log-probability at the arrays that the graphs have when all their random variables are drawn, whatever
their values. -/
theorem C147_arrays_drawn (kernel : Di → Arr FVal → List (Arr FVal) → Except Err (Arr FVal)) {rvs clones : List ℕ} {realized : Dict ℕ ℕ} {j : JointExpr (Term Di)} {vvs : List ℕ}
    (hj : joint defs rvs clones realized = .ok (some (j, vvs))) (graphs : ℕ → Option (Expr Di)) :
    ∃ j', jointGraphs graphs defs rvs clones realized = .ok (some (j', vvs)) ∧
      ∀ ρ ρ' ω, Computed (fun _ => none) graphs ρ ω ρ' → evalJoint kernel ρ ω j' = evalJoint kernel ρ' ω j := by
  obtain ⟨j', hj', h⟩ := joint_putBack (graphs := graphs) kernel hj
  refine ⟨j', hj', fun ρ ρ' ω hc => h ρ ρ' ω hc.1 fun x e he => ?_⟩
  rw [hc.2 x e he, eval_all_drawn]
  rfl

/-- **C147** (arrays) If the graphs given as values mention no variable that has a value, the result is the joint log-probability at the arrays that they compute.
Missing: graphs that mention variables with values, for which the claim is false (`C147_copy_wrong`). -/
theorem C147_arrays_partial (kernel : Di → Arr FVal → List (Arr FVal) → Except Err (Arr FVal)) {rvs clones : List ℕ} {realized : Dict ℕ ℕ} {j : JointExpr (Term Di)} {vvs : List ℕ}
    (hj : joint defs rvs clones realized = .ok (some (j, vvs))) {graphs : ℕ → Option (Expr Di)}
    (hu : ∀ x e, graphs x = some e → Unrelated (Dict.get? (rvValues rvs clones realized)) e) :
    ∃ j', jointGraphs graphs defs rvs clones realized = .ok (some (j', vvs)) ∧
      ∀ ρ ρ' ω, Computed (Dict.get? (rvValues rvs clones realized)) graphs ρ ω ρ' → evalJoint kernel ρ ω j' = evalJoint kernel ρ' ω j := by
  obtain ⟨j', hj', h⟩ := joint_putBack (graphs := graphs) kernel hj
  refine ⟨j', hj', fun ρ ρ' ω hc => h ρ ρ' ω hc.1 fun x e he => ?_⟩
  rw [hc.2 x e he, evalGiven_unrelated (hu x e he)]

/-- **C147** (arrays, wrong) For every model: if the value of a realized variable is a copy of the variable, as in the documentation (joint_logprob.py:88-89), its term is the log-probability of a draw of the variable, made
from draws of the variables it depends on, under the parameters at the values `ρ'` of these. -/
theorem C147_arrays_copy_wrong (kernel : Di → Arr FVal → List (Arr FVal) → Except Err (Arr FVal)) (huser : ∀ v r, defs v = some r → ∀ i, User (r.args i)) {rvs clones : List ℕ} {realized : Dict ℕ ℕ}
    (q : Request defs rvs clones realized) {v x : ℕ} {r : RVDef Di} (hr : defs v = some r) (hv : (v, x) ∈ realized) {graphs : ℕ → Option (Expr Di)} (hg : graphs x = some (.rv v r.dist r.n r.args)) :
    ∃ terms vvs t, conditionalGraphs graphs defs rvs clones realized = .ok (terms, vvs) ∧ Dict.get? terms v = some t ∧
      ∀ ρ ρ' ω, Computed (fun _ => none) graphs ρ ω ρ' → t.eval kernel ρ ω = kernel r.dist (ω v r.dist (List.ofFn fun i => evalGiven (fun _ => none) ρ ω (r.args i)))
        (List.ofFn fun i => evalGiven (fun w => (Dict.get? (rvValues rvs clones realized) w).map ρ') ρ' ω (r.args i)) := by
  obtain ⟨terms, vvs, a1, ⟨a2, a3⟩, a4⟩ := C106_terms kernel huser q.len q.defined
  have hk : v ∈ Dict.keys realized := List.mem_map.2 ⟨_, hv, rfl⟩
  obtain ⟨x', t, x1, g1, e1⟩ := a4 v r (.inr hk) hr
  have hx : x' = x := Option.some.inj (x1.symm.trans ((Full.given_iff q.nodup q.keys v x).2 (.inl hv)))
  subst hx
  refine ⟨terms.map fun p => (p.1, p.2.putBack graphs), vvs, t.putBack graphs, by simp only [conditionalGraphs, a1], ?_, fun ρ ρ' ω hc => ?_⟩
  · have : ∀ l : Dict ℕ (Term Di), Dict.get? (l.map fun p => (p.1, p.2.putBack graphs)) v = (Dict.get? l v).map fun t => t.putBack graphs := by
      intro l
      induction l with
      | nil => rfl
      | cons p l ih =>
        obtain ⟨a, b⟩ := p
        simp only [List.map_cons, Dict.get?]
        split_ifs
        · rfl
        · exact ih
    rw [this, g1, Option.map_some]
  · have hd : ∀ y e, graphs y = some e → ρ' y = eval ρ ω e := fun y e he => by
      rw [hc.2 y e he, eval_all_drawn]
      rfl
    rw [term_putBack kernel hc.1 hd, e1, hc.2 x' _ hg]
    rfl

namespace Schools

/-- The value of `y` is a graph. -/
def given (e : Expr Dist) : ℕ → Option (Expr Dist) := fun i => if i = 13 then some e else none

theorem returns (J : ℕ) (sd : ℕ → ℝ) : ∃ j vvs, joint (Dict.get? (model J sd)) [2, 0, 1] [12, 10, 11] [(3, 13)] = .ok (some (j, vvs)) := ⟨_, _, rfl⟩

/-- A function of an input as value of `y`: `C147_arrays_partial` applies. -/
example (J : ℕ) (sd : ℕ → ℝ) (f : Arr FVal → Arr FVal) : ∃ j vvs j', joint (Dict.get? (model J sd)) [2, 0, 1] [12, 10, 11] [(3, 13)] = .ok (some (j, vvs)) ∧
    jointGraphs (given (.app 1 (fun a => f (a 0)) ![.inp 20])) (Dict.get? (model J sd)) [2, 0, 1] [12, 10, 11] [(3, 13)] = .ok (some (j', vvs)) ∧
    ∀ ρ ω, evalJoint kernel ρ ω j' = evalJoint kernel (fun i => if i = 13 then f (ρ 20) else ρ i) ω j := by
  obtain ⟨j, vvs, hj⟩ := returns J sd
  obtain ⟨j', hj', h⟩ := C147_arrays_partial kernel hj (graphs := given (.app 1 (fun a => f (a 0)) ![.inp 20])) fun x e he => by
    simp only [given] at he
    split_ifs at he
    cases he
    intro i
    match i with
    | 0 => trivial
  refine ⟨j, vvs, j', hj, hj', fun ρ ω => h ρ _ ω ⟨fun x hx => ?_, fun x e he => ?_⟩⟩
  · simp only [given] at hx
    split_ifs at hx with h
    simp [h]
  · simp only [given] at he
    split_ifs at he with h
    cases he
    simp [h, evalGiven]

/-- The value of `μ` as value of `y`: what is used is a draw of `μ`. -/
example (J : ℕ) (sd : ℕ → ℝ) : ∃ j vvs j', joint (Dict.get? (model J sd)) [2, 0, 1] [12, 10, 11] [(3, 13)] = .ok (some (j, vvs)) ∧
    jointGraphs (given (.rv 0 .normal 2 ![.const (scalar 0), .const (scalar 5)])) (Dict.get? (model J sd)) [2, 0, 1] [12, 10, 11] [(3, 13)] = .ok (some (j', vvs)) ∧
    ∀ ρ ω, evalJoint kernel ρ ω j' = evalJoint kernel (fun i => if i = 13 then ω 0 .normal [scalar 0, scalar 5] else ρ i) ω j := by
  obtain ⟨j, vvs, hj⟩ := returns J sd
  obtain ⟨j', hj', h⟩ := C147_arrays_drawn kernel hj (given (.rv 0 .normal 2 ![.const (scalar 0), .const (scalar 5)]))
  refine ⟨j, vvs, j', hj, hj', fun ρ ω => h ρ _ ω ⟨fun x hx => ?_, fun x e he => ?_⟩⟩
  · simp only [given] at hx
    split_ifs at hx with h
    simp [h]
  · simp only [given] at he
    split_ifs at he with h
    cases he
    simp [h, evalGiven, List.ofFn_succ]

/-- A copy of `y` as value of `y`, with `θ` at its value. -/
example (J : ℕ) (sd : ℕ → ℝ) : ∃ terms vvs t, conditionalGraphs (given (.rv 3 (y J sd).dist (y J sd).n (y J sd).args)) (Dict.get? (model J sd)) [2, 0, 1] [12, 10, 11] [(3, 13)] = .ok (terms, vvs) ∧
    Dict.get? terms 3 = some t ∧ ∀ ρ ω, t.eval kernel ρ ω =
      kernel .normal (ω 3 .normal (List.ofFn fun i => evalGiven (fun _ => none) ρ ω ((y J sd).args i))) [ρ 12, vector J sd] := by
  obtain ⟨terms, vvs, t, h1, h2, h3⟩ := C147_arrays_copy_wrong kernel (defs := Dict.get? (model J sd)) (rvs := [2, 0, 1]) (clones := [12, 10, 11]) (realized := [(3, 13)]) (v := 3) (x := 13) (r := y J sd)
    (graphs := given (.rv 3 (y J sd).dist (y J sd).n (y J sd).args))
    (fun v r h => by
      have := Dict.mem_of_get? h
      simp only [model, List.mem_cons, List.not_mem_nil, or_false, Prod.mk.injEq] at this
      rcases this with ⟨-, rfl⟩ | ⟨-, rfl⟩ | ⟨-, rfl⟩ | ⟨-, rfl⟩ <;> simp [mu, tau, theta, y, User, Fin.forall_fin_two])
    ⟨rfl, by decide, by decide, by intro v hv; simp [Dict.keys] at hv; rcases hv with (rfl | rfl | rfl) | rfl <;> simp [model, Dict.get?]⟩ (by simp [model, Dict.get?]) (by simp) rfl
  refine ⟨terms, vvs, t, h1, h2, fun ρ ω => (h3 ρ (fun i => if i = 13 then eval ρ ω (.rv 3 (y J sd).dist (y J sd).n (y J sd).args) else ρ i) ω ⟨fun x hx => ?_, fun x e he => ?_⟩).trans ?_⟩
  · simp only [given] at hx
    split_ifs at hx with h
    simp [h]
  · simp only [given] at he
    split_ifs at he with h
    cases he
    simp only [h, if_true]
    rw [eval_all_drawn]
    rfl
  · have hd : rvValues [2, 0, 1] [12, 10, 11] [(3, 13)] = [(2, 12), (0, 10), (1, 11), (3, 13)] := by decide
    rw [hd]
    simp [y, theta, mu, tau, List.ofFn_succ, evalGiven, Dict.get?]

end Schools

end Verif.ArrGraph
