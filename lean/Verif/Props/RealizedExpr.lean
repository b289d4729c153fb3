import Verif.Model.RealizedExpr
import Verif.Spec.RealizedExpr
import Verif.Props.SameValues
import Verif.Lemmas.Dist1
import Verif.Lemmas.Dist2
import Verif.Lemmas.FVal
import Verif.Model.Library
import Mathlib.Data.Fin.VecNotation

/-! # C147: realized values that are computed from other variables -/

namespace Verif.Full
open Verif Cond

variable {Di : Type}

theorem worth_unrelated {valueVar : ℕ → Option ℕ} {graphs : ℕ → Option (Expr Di)} {ρ ρ' : ℕ → FVal} {ω : ℕ → Di → List FVal → FVal} (h : ∀ x, graphs x = none → ρ' x = ρ x) {e : Expr Di} (he : Unrelated valueVar graphs e) :
    worth valueVar ρ' ω e = eval ρ ω e := by
  induction e with
  | const => rfl
  | inp i => exact h i he
  | app id k op n args ih =>
    simp only [worth, eval, he.1, Option.map_none, Option.getD_none]
    congr 2
    exact funext fun i => ih i (he.2 i)
  | rv id dist n args ih =>
    simp only [worth, eval, he.1, Option.map_none, Option.getD_none]
    congr 2
    exact funext fun i => ih i (he.2 i)
  | valued r v ih => exact ih he

/-- **C147** If the graphs given as values mention no variable that has a value, the result is the joint log-probability at the numbers that they compute.
Missing: graphs that mention variables with values, for which the claim is false (`C147_computed_wrong`, `C147_copy_wrong`). -/
theorem C147_computed_partial (reg : Registry Di) (kd : Di → Kind) {valueVar : ℕ → Option ℕ} {graphs : ℕ → Option (Expr Di)} {ρ ρ' : ℕ → FVal} {ω : ℕ → Di → List FVal → FVal}
    (hu : ∀ x e, graphs x = some e → Unrelated valueVar graphs e) (hc : Computed valueVar graphs ρ ω ρ') (j : JointExpr (Term Di)) :
    evalJointGraphs reg kd graphs ρ ω j = evalJoint reg kd ρ' ω j := by
  rw [evalJointGraphs]
  congr 1
  funext x
  rw [putBack]
  split
  · rename_i e he
    rw [hc.2 x e he, worth_unrelated hc.1 (hu x e he)]
  · rename_i he
    exact (hc.1 x he).symm

/-- **C147** (realized) With the value of `v` given by a graph that mentions no variable that has a value, the result is the one in which `v` is passed and has the number that the graph computes. -/
theorem C147_passed_partial [IR.Normals Di] {kd : Di → Kind} {hasCdf : Di → Bool} {defs : ℕ → Option (Expr Di)} (reg : Registry Di) (ω : ℕ → Di → List FVal → FVal)
    (hN : ∀ dist, IR.Normals.isNormal dist = true → hasCdf dist = true) (hwf : WellFormed defs)
    {v x y : ℕ} {rvs clones : List ℕ} {realized : Dict ℕ ℕ} (hlen : clones.length = rvs.length) (hn : (v :: rvs).Nodup) (hr : (Dict.keys ((v, y) :: realized)).Nodup)
    (hdef : ∀ w, w = v ∨ w ∈ rvs ∨ w ∈ Dict.keys realized → (defs w).isSome) {S S' : ℕ → Bool}
    (h₁ : Run kd (outputs defs (rvValues (v :: rvs) (x :: clones) realized)) S) (h₂ : Run kd (outputs defs (rvValues rvs clones ((v, y) :: realized))) S') {j : JointExpr (Term Di)} {vvs : List ℕ}
    (hj : joint hasCdf S defs (v :: rvs) (x :: clones) realized = .ok (some (j, vvs)))
    {valueVar : ℕ → Option ℕ} {graphs : ℕ → Option (Expr Di)} {e : Expr Di} (hg : graphs y = some e) (hx : graphs x = none) (hu : Unrelated valueVar graphs e)
    {ρ : ℕ → FVal} (hρ : ρ x = worth valueVar ρ ω e) :
    ∃ j' vvs', joint hasCdf S' defs rvs clones ((v, y) :: realized) = .ok (some (j', vvs')) ∧ ∀ z, evalJointGraphs reg kd graphs ρ ω j = .ok z ↔ evalJointGraphs reg kd graphs ρ ω j' = .ok z := by
  refine C128_realized_partial reg ω hN hwf hlen hn hr hdef h₁ h₂ hj (ρ := putBack graphs ρ ω) ?_
  simp only [putBack, hg, hx]
  rw [hρ, worth_unrelated (fun _ _ => rfl) hu]

/-- **C147** (no value is used) A graph given as a value is computed without the values of the variables it mentions: other numbers for the inputs that it does not mention change nothing. -/
theorem C147_values_unused (graphs : ℕ → Option (Expr Di)) {ρ₁ ρ₂ : ℕ → FVal} (ω : ℕ → Di → List FVal → FVal) {defs : ℕ → Option (Expr Di)} {x : ℕ} {e : Expr Di} (hg : graphs x = some e)
    (he : Closed defs e) (h : SameInputs ρ₁ ρ₂ e) :
    putBack graphs ρ₁ ω x = putBack graphs ρ₂ ω x := by
  simp only [putBack, hg]
  clear hg
  induction e with
  | const => rfl
  | inp i => exact h
  | app id k op n args ih =>
    simp only [eval]
    congr 2
    exact funext fun i => ih i (he.2 i) (h i)
  | rv id dist n args ih =>
    simp only [eval]
    congr 2
    exact funext fun i => ih i (he.2 i) (h i)
  | valued r v => exact he.elim

namespace RealizedDemo

/-- `X` of some distribution, with two numbers as parameters. -/
def X (d₀ : Di) (p q : FVal) : Expr Di := .rv 0 d₀ 2 ![.const p, .const q]

/-- The second parameter of `Y`. -/
def Scale (d₀ : Di) (p q : FVal) (f : List FVal → FVal) : Expr Di := .app 2 .float (.elem (.other f)) 1 ![X d₀ p q]

/-- `Y` of another distribution, with the parameters 0 and `f(X)`. -/
def Y (d₀ d₁ : Di) (p q : FVal) (f : List FVal → FVal) : Expr Di := .rv 1 d₁ 2 ![.const (.fin 0), Scale d₀ p q f]

/-- The model. -/
def defs (d₀ d₁ : Di) (p q : FVal) (f : List FVal → FVal) : ℕ → Option (Expr Di)
  | 0 => some (X d₀ p q)
  | 1 => some (Y d₀ d₁ p q f)
  | 2 => some (Scale d₀ p q f)
  | _ => none

/-- `X` has the value variable 10 and `Y` the value variable 11. -/
def valueVar : ℕ → Option ℕ
  | 0 => some 10
  | 1 => some 11
  | _ => none

/-- The only value that is a graph is that of `Y`. -/
def graphs (e : Expr Di) : ℕ → Option (Expr Di)
  | 11 => some e
  | _ => none

/-- The two terms, for all graphs given as the value of `Y`. -/
theorem value (hasCdf : Di → Bool) (S : ℕ → Bool) (reg : Registry Di) (kd : Di → Kind) (d₀ d₁ : Di) (p q : FVal) (f : List FVal → FVal) :
    ∃ j vvs, joint hasCdf S (defs d₀ d₁ p q f) [0] [10] [(1, 11)] = .ok (some (j, vvs)) ∧
      (∀ e ρ ω, evalJointGraphs reg kd (graphs e) ρ ω j = IR.sumE [reg.kernel d₀ (ρ 10) [p, q], reg.kernel d₁ (eval ρ ω e) [.fin 0, f [ρ 10]]]) ∧
      ∀ ρ ω, evalJoint reg kd ρ ω j = IR.sumE [reg.kernel d₀ (ρ 10) [p, q], reg.kernel d₁ (ρ 11) [.fin 0, f [ρ 10]]] :=
  ⟨_, _, rfl, fun _ _ _ => rfl, fun _ _ => rfl⟩

end RealizedDemo

open RealizedDemo Library FVal ProbabilityTheory

/-- The square root, as a function of the list of inputs. -/
noncomputable def sqrtOf : List FVal → FVal
  | [x] => FVal.sqrt x
  | _ => .nan

/-- The model of the documentation: `sigma2_rv = srng.invgamma(0.5, 0.5)` and `Y_rv = srng.normal(0, at.sqrt(sigma2_rv))`. -/
noncomputable def docDefs : ℕ → Option (Expr Lib) := defs .invgamma .normal (.fin (1 / 2)) (.fin (1 / 2)) sqrtOf

/-- **C147** (wrong) The example of the documentation, `y_obs = Y_rv.copy()` and `joint_logprob(sigma2_rv, realized={Y_rv: y_obs})` (joint_logprob.py:279-280): for every value `s` of the variance, the result is the joint
log-density at `s` and a draw `y` of `Y`, made with a draw of the variance. -/
theorem C147_copy_wrong (S : ℕ → Bool) : ∃ j vvs, joint Lib.hasCdf S docDefs [0] [10] [(1, 11)] = .ok (some (j, vvs)) ∧
    ∀ (ρ : ℕ → FVal) (ω : ℕ → Lib → List FVal → FVal) (s y : ℝ), 0 < s → ρ 10 = .fin s →
      ω 1 .normal [.fin 0, FVal.sqrt (ω 0 .invgamma [.fin (1 / 2), .fin (1 / 2)])] = .fin y →
      evalJointGraphs registry Lib.kind (fun x => if x = 11 then docDefs 1 else none) ρ ω j =
        .ok (.fin (Real.log ((s ^ 2)⁻¹ * gammaPDFReal (1 / 2) (1 / 2) s⁻¹) + Real.log (gaussianPDFReal 0 s.toNNReal y))) := by
  obtain ⟨j, vvs, hj, h, -⟩ := value Lib.hasCdf S registry Lib.kind .invgamma .normal (.fin (1 / 2)) (.fin (1 / 2)) sqrtOf
  refine ⟨j, vvs, hj, fun ρ ω s y hs hρ hω => ?_⟩
  have hg : (fun x => if x = 11 then docDefs 1 else none) = graphs (Y .invgamma .normal (.fin (1 / 2)) (.fin (1 / 2)) sqrtOf) := by
    funext x
    split
    · rename_i hx; subst hx; rfl
    · rename_i hx
      rw [graphs]
      intro h; exact hx h
  have he : eval ρ ω (Y .invgamma .normal (.fin (1 / 2)) (.fin (1 / 2)) sqrtOf) = .fin y := hω
  rw [hg, h, he, hρ]
  have hq : sqrtOf [.fin s] = .fin (Real.sqrt s) := by
    simp [sqrtOf, FVal.sqrt, hs.le]
  rw [hq]
  have h1 := invgamma_eval_pos (x := s) (α := 1 / 2) (β := 1 / 2) (by norm_num) (by norm_num) hs
  have h2 := normal_eval y 0 (Real.sqrt_pos.2 hs)
  rw [Real.sq_sqrt hs.le] at h2
  simp only [registry, Lib.logprob, h1, h2]
  simp [IR.sumE]

/-- Two points of equal density of a normal variable with mean 0 have equal squares. -/
theorem sq_of_gaussian {v : NNReal} (hv : v ≠ 0) {x y : ℝ} (h : Real.log (gaussianPDFReal 0 v x) = Real.log (gaussianPDFReal 0 v y)) : x ^ 2 = y ^ 2 := by
  have h' := Real.log_injOn_pos (gaussianPDFReal_pos 0 v x hv) (gaussianPDFReal_pos 0 v y hv) h
  have hv' : (0 : ℝ) < v := by positivity
  have hpos : (√(2 * Real.pi * v))⁻¹ ≠ 0 := by positivity
  simp only [gaussianPDFReal, sub_zero] at h'
  have h2 := Real.exp_injective (mul_left_cancel₀ hpos h')
  have hv2 : (2 * (v : ℝ)) ≠ 0 := by positivity
  have h3 := (div_left_inj' hv2).1 h2
  linarith

/-- **C147** (random) With the example of the documentation no number is the result: whatever the value of the variance, every number is missed by some draw. -/
theorem C147_random (S : ℕ → Bool) {s : ℝ} (hs : 0 < s) : ∃ j vvs, joint Lib.hasCdf S docDefs [0] [10] [(1, 11)] = .ok (some (j, vvs)) ∧
    ∀ r : Except Err FVal, ∃ ω, evalJointGraphs registry Lib.kind (fun x => if x = 11 then docDefs 1 else none) (fun _ => .fin s) ω j ≠ r := by
  obtain ⟨j, vvs, hj, h⟩ := C147_copy_wrong S
  refine ⟨j, vvs, hj, fun r => ?_⟩
  by_contra hn
  push Not at hn
  have h0 := h (fun _ => .fin s) (fun _ _ _ => .fin 0) s 0 hs rfl rfl
  have h1 := h (fun _ => .fin s) (fun _ _ _ => .fin 1) s 1 hs rfl rfl
  rw [hn] at h0 h1
  rw [h0, Except.ok.injEq, FVal.fin.injEq] at h1
  have := sq_of_gaussian (toNNReal_ne hs) (add_left_cancel h1)
  norm_num at this

/-- **C147** (wrong) `X` and `Y` standard normal variables, and `joint_logprob(X, realized={Y: X})`: with the value `x` for `X`, the value of `Y` should be `x` too, but the result is another one whenever `X` is drawn as
any number other than `x` and `-x`. -/
theorem C147_computed_wrong (S : ℕ → Bool) {x x' : ℝ} (hx : x ^ 2 ≠ x' ^ 2) {ρ : ℕ → FVal} {ω : ℕ → Lib → List FVal → FVal} (hρ : ρ 10 = .fin x) (hω : ω 0 .normal [.fin 0, .fin 1] = .fin x') :
    ∃ j vvs, joint Lib.hasCdf S (defs .normal .normal (.fin 0) (.fin 1) fun _ => .fin 1) [0] [10] [(1, 11)] = .ok (some (j, vvs)) ∧
      (∃ ρ', Computed valueVar (graphs (X .normal (.fin 0) (.fin 1))) ρ ω ρ') ∧
      ∀ ρ', Computed valueVar (graphs (X .normal (.fin 0) (.fin 1))) ρ ω ρ' →
        evalJointGraphs registry Lib.kind (graphs (X .normal (.fin 0) (.fin 1))) ρ ω j ≠ evalJoint registry Lib.kind ρ' ω j := by
  obtain ⟨j, vvs, hj, h, h'⟩ := value Lib.hasCdf S registry Lib.kind .normal .normal (.fin 0) (.fin 1) fun _ => .fin 1
  refine ⟨j, vvs, hj, ⟨fun i => if i = 11 then .fin x else ρ i, fun i hi => ?_, fun i e hi => ?_⟩, fun ρ' hc he => ?_⟩
  · have : i ≠ 11 := by
      rintro rfl
      cases hi
    simp [this]
  · have : i = 11 := by
      by_contra hn
      rw [graphs] at hi
      · cases hi
      · exact hn
    subst this
    cases hi
    simp [worth, X, valueVar, hρ]
  · have h10 : ρ' 10 = .fin x := (hc.1 10 rfl).trans hρ
    have h11 : ρ' 11 = .fin x := (hc.2 11 _ rfl).trans (by simp [worth, X, valueVar, h10])
    have hX : eval ρ ω (X .normal (.fin 0) (.fin 1)) = .fin x' := hω
    rw [h, h', h10, h11, hX, hρ] at he
    simp only [registry, Lib.logprob, normal_eval _ _ one_pos] at he
    simp only [IR.sumE, Except.ok.injEq] at he
    have h0 : ∀ a : ℝ, (FVal.fin a + 0 : FVal) = .fin a := fun a => by
      show FVal.fin a + FVal.fin 0 = _
      simp
    have ha : ∀ a b : ℝ, (FVal.fin a + FVal.fin b : FVal) = .fin (a + b) := fun a b => by simp
    simp only [h0, ha, FVal.fin.injEq] at he
    exact hx (sq_of_gaussian (toNNReal_sq_ne one_pos) (add_left_cancel he)).symm

/-- `joint_logprob(X, realized={Y: 2 * y})`, where `y` is a variable without owner (tests/test_joint_logprob.py:242-246): `C147_computed_partial` applies. -/
example (S : ℕ → Bool) (ρ : ℕ → FVal) (ω : ℕ → Lib → List FVal → FVal) (y : ℝ) (hy : ρ 20 = .fin y) :
    ∃ j vvs, joint Lib.hasCdf S docDefs [0] [10] [(1, 11)] = .ok (some (j, vvs)) ∧
      evalJointGraphs registry Lib.kind (graphs (.app 5 .float (.elem .mul) 2 ![.const (.fin 2), .inp 20])) ρ ω j =
        evalJoint registry Lib.kind (fun i => if i = 11 then .fin (2 * y) else ρ i) ω j := by
  obtain ⟨j, vvs, hj, -⟩ := value Lib.hasCdf S registry Lib.kind .invgamma .normal (.fin (1 / 2)) (.fin (1 / 2)) sqrtOf
  refine ⟨j, vvs, hj, C147_computed_partial registry Lib.kind (valueVar := valueVar) (fun i e hi => ?_) ⟨fun i hi => ?_, fun i e hi => ?_⟩ j⟩
  · have : i = 11 := by
      by_contra hn
      rw [graphs] at hi
      · cases hi
      · exact hn
    subst this
    cases hi
    refine ⟨rfl, fun i => ?_⟩
    match i with
    | 0 => trivial
    | 1 => exact rfl
  · have : i ≠ 11 := by
      rintro rfl
      cases hi
    simp [this]
  · have : i = 11 := by
      by_contra hn
      rw [graphs] at hi
      · cases hi
      · exact hn
    subst this
    cases hi
    have h1 : ∀ a : ℝ, (FVal.fin a * 1 : FVal) = .fin a := fun a => by
      show FVal.fin a * FVal.fin 1 = _
      simp
    simp [worth, valueVar, Op.eval, IR.Op.eval, hy, h1]

theorem docDefs_wf : WellFormed docDefs := by
  have hX : Closed docDefs (X Lib.invgamma (.fin (1 / 2)) (.fin (1 / 2))) := ⟨rfl, fun i => by match i with | 0 => trivial | 1 => trivial⟩
  have hS : Closed docDefs (Scale Lib.invgamma (.fin (1 / 2)) (.fin (1 / 2)) sqrtOf) := ⟨rfl, fun i => by match i with | 0 => exact hX⟩
  intro v e he
  match v, he with
  | 0, he => cases he; exact ⟨rfl, hX⟩
  | 1, he => cases he; exact ⟨rfl, rfl, fun i => by match i with | 0 => trivial | 1 => exact hS⟩
  | 2, he => cases he; exact ⟨rfl, hS⟩

/-- `joint_logprob(sigma2_rv, realized={Y_rv: y})` against `joint_logprob(Y_rv, sigma2_rv)` at the value of `y`: `C147_passed_partial` applies. -/
example (ω : ℕ → Lib → List FVal → FVal) (ρ : ℕ → FVal) (hρ : ρ 12 = ρ 20) : ∃ S S' j vvs j' vvs', joint Lib.hasCdf S docDefs [1, 0] [12, 10] [] = .ok (some (j, vvs)) ∧
    joint Lib.hasCdf S' docDefs [0] [10] [(1, 11)] = .ok (some (j', vvs')) ∧
    ∀ z, evalJointGraphs registry Lib.kind (graphs (.inp 20)) ρ ω j = .ok z ↔ evalJointGraphs registry Lib.kind (graphs (.inp 20)) ρ ω j' = .ok z := by
  obtain ⟨S, h₁⟩ := exists_run Lib.kind (outputs docDefs (rvValues [1, 0] [12, 10] []))
  obtain ⟨S', h₂⟩ := exists_run Lib.kind (outputs docDefs (rvValues [0] [10] [(1, 11)]))
  obtain ⟨j, vvs, hj⟩ : ∃ j vvs, joint Lib.hasCdf S docDefs [1, 0] [12, 10] [] = .ok (some (j, vvs)) := ⟨_, _, rfl⟩
  obtain ⟨j', vvs', hj', hz⟩ := C147_passed_partial (v := 1) (x := 12) (y := 11) (rvs := [0]) (clones := [10]) (realized := []) (hasCdf := Lib.hasCdf) registry ω
    (fun d hd => by rw [of_decide_eq_true hd]; rfl) docDefs_wf rfl (by decide) (by simp [Dict.keys])
    (fun w hw => by
      rcases hw with rfl | hw | hw
      · rfl
      · rw [List.mem_singleton.1 hw]; rfl
      · simp [Dict.keys] at hw) h₁ h₂ hj (valueVar := fun _ => none) (graphs := graphs (.inp 20)) rfl rfl rfl (ρ := ρ) hρ
  exact ⟨S, S', j, vvs, j', vvs', hj, hj', hz⟩

/-- The variance drawn as 4, `Y` as -3. -/
example (S : ℕ → Bool) : ∃ j vvs, joint Lib.hasCdf S docDefs [0] [10] [(1, 11)] = .ok (some (j, vvs)) ∧
    evalJointGraphs registry Lib.kind (fun x => if x = 11 then docDefs 1 else none) (fun _ => .fin 1) (fun i _ _ => if i = 0 then .fin 4 else .fin (-3)) j =
      .ok (.fin (Real.log ((1 ^ 2)⁻¹ * gammaPDFReal (1 / 2) (1 / 2) 1⁻¹) + Real.log (gaussianPDFReal 0 (1 : ℝ).toNNReal (-3)))) :=
  (C147_copy_wrong S).imp fun _ h => h.imp fun _ h => ⟨h.1, h.2 _ _ 1 (-3) one_pos rfl (by simp)⟩

example (S : ℕ → Bool) := C147_random S (s := 2) (by norm_num)

example (S : ℕ → Bool) := C147_computed_wrong S (x := 1) (x' := 2) (by norm_num) (ρ := fun _ => .fin 1) (ω := fun _ _ _ => .fin 2) rfl rfl

/-- The value of `X`, which is the number of the variable 10, does not matter for the value `X` of `Y`. -/
example (ω : ℕ → Lib → List FVal → FVal) : putBack (graphs (X .normal (.fin 0) (.fin 1))) (fun _ => .fin 1) ω 11 = putBack (graphs (X .normal (.fin 0) (.fin 1))) (fun _ => .fin 2) ω 11 :=
  C147_values_unused (defs := defs .normal .normal (.fin 0) (.fin 1) fun _ => .fin 1) _ ω rfl ⟨rfl, fun i => by match i with | 0 => trivial | 1 => trivial⟩
    fun i => by match i with | 0 => trivial | 1 => trivial

end Verif.Full
