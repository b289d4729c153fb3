import Verif.Props.LibraryDefaultsArr
import Verif.Props.LibraryDemo

/-! # C136 for arrays: an example

The model of `Library.ArrDemo`: `λ ~ Gamma(2, 1)`, `n ~ Poisson(λ)` (`J` numbers), `s ~ HalfCauchy(0, 1)`, `y ~ StudentT(4, n, s)` (`J` numbers).  The default transform is asked for `λ`, `n`, `s`.
-/

namespace Verif.Library.ArrDemo
open Verif Cond FVal MeasureTheory ArrGraph

def reqs : Dict ℕ (Option (TransVals.Req ATransform)) := [(2, some .default), (1, some .default), (0, some .default)]

noncomputable def tr (v : ℕ) : Option ATransform := if v = 0 then Lib.gamma.defaultArr else if v = 2 then Lib.halfcauchy.defaultArr else none

variable (J : ℕ)

theorem values_eq : rvValues [2, 0, 1] [12, 10, 11] [(3, 13)] = [(2, 12), (0, 10), (1, 11), (3, 13)] := by decide

theorem mem_model (v : ℕ) : v ∈ model.map Prod.fst ↔ v = 0 ∨ v = 1 ∨ v = 2 ∨ v = 3 := by simp [model]

theorem setting : Setting model [2, 0, 1] [12, 10, 11] [(3, 13)] reqs Lib.defaultArr tr (fun v => v + 20) [3, 0, 2, 1] where
  ne := by simp [model]
  ordered := by simp [DependencyOrder, model, lam, n, s, y, Mentions, Fin.forall_fin_succ]
  user := by simp [model, lam, n, s, y, User, Fin.forall_fin_succ]
  closed := by simp [model, lam, n, s, y, Mentions, Fin.forall_fin_succ]
  length := rfl
  mem v := by rw [mem_model]; simp [Dict.keys]; tauto
  requested v t := by
    by_cases h0 : v = 0
    · subst h0; simp [tr, reqs, Dict.get?, model, lam]
    by_cases h1 : v = 1
    · subst h1
      simp [tr, reqs, Dict.get?, model, n, Lib.defaultArr, Lib.default, Lib.transDist]
    by_cases h2 : v = 2
    · subst h2; simp [tr, reqs, Dict.get?, model, s]
    simp [tr, reqs, Dict.get?, h0, h2, Ne.symm h0, Ne.symm h1, Ne.symm h2]
  keys v hv := by rw [mem_model]; simp [reqs, Dict.keys] at hv; tauto
  inj v w y h1 h2 := by
    rw [values_eq] at h1 h2
    simp only [Dict.get?] at h1 h2
    split_ifs at h1 h2 <;> simp only [Option.some.injEq] at h1 h2 <;> omega
  fresh v w y hv h := by
    rw [values_eq] at h
    simp only [Dict.get?] at h
    split_ifs at h <;> (cases h; omega)
  order := by
    show [3, 0, 2, 1].Perm [0, 1, 2, 3]
    decide

theorem first_ok (v : ℕ) (hv : (tr v).isSome) : ¬ ChildFirst model (Dict.keys (rvValues [2, 0, 1] [12, 10, 11] [(3, 13)])) v := by
  have : v = 0 ∨ v = 2 := by
    by_contra h
    push Not at h
    simp [tr, h.1, h.2] at hv
  rcases this with rfl | rfl <;>
  · rintro ⟨⟨u, r, hr, i, hi⟩, -⟩
    simp [model, Dict.get?] at hr
    subst hr
    revert hi; revert i; simp [lam, s, Mentions, Fin.forall_fin_succ]

/-- Value variables `11`, `13` and, on the logarithmic scale, `20`, `22`. -/
noncomputable def envT (σ : ∀ i, Fin (entries (shape J i)) → ℝ) (i : ℕ) : Arr FVal :=
  if i = 20 then numbers (shape J 0) (σ 0) else if i = 22 then numbers (shape J 2) (σ 2) else if 10 ≤ i then numbers (shape J (i - 10)) (σ (i - 10)) else ⟨[], fun _ => .nan⟩

theorem env_ok (ρ : ℕ → Arr FVal) (σ : ∀ i, Fin (entries (shape J i)) → ℝ) :
    ArrGraph.Env model (rvValues [2, 0, 1] [12, 10, 11] [(3, 13)]) tr (fun v => v + 20) (fun i => numbers (shape J i)) ρ σ (envT J σ) := by
  refine ⟨fun v y h hn => ?_, fun v hv hn => ?_, fun p hp i k hk => ?_⟩
  · rw [values_eq] at h
    simp only [Dict.get?] at h
    split_ifs at h with h1 h2 h3 h4
    · subst h1; simp [tr, Lib.defaultArr, Lib.default, Lib.transDist] at hn
    · subst h2; simp [tr, Lib.defaultArr, Lib.default, Lib.transDist] at hn
    · cases h; subst h3; rfl
    · cases h; subst h4; rfl
  · have : v = 0 ∨ v = 2 := by
      by_contra h
      push Not at h
      simp [tr, h.1, h.2] at hn
    rcases this with rfl | rfl <;> rfl
  · exfalso
    simp only [model, List.mem_cons, List.not_mem_nil, or_false] at hp
    rcases hp with rfl | rfl | rfl | rfl
    · revert hk; revert i; simp [lam, UsesInput, Fin.forall_fin_succ]
    · revert hk; revert i; simp [n, UsesInput, Fin.forall_fin_succ]
    · revert hk; revert i; simp [s, UsesInput, Fin.forall_fin_succ]
    · revert hk; revert i; simp [y, UsesInput, Fin.forall_fin_succ]

theorem valid_defaults (ρ : ℕ → Arr FVal) (σ : ∀ i, Fin (entries (shape J i)) → ℝ) : ValidArrayDefaults (fun v => Dict.get? reqs v = some (some .default)) (shape J) ρ model σ := by
  obtain ⟨a1, a2, a3⟩ := valid J ρ σ
  refine ⟨a1, a2, fun _ _ => trivial, fun x0 h0 => ?_⟩
  obtain ⟨b1, b2, b3⟩ := a3 x0 h0
  refine ⟨b1, b2, fun _ _ => trivial, fun x1 h1 => ?_⟩
  obtain ⟨c1, c2, c3⟩ := b3 x1 h1
  refine ⟨c1, c2, fun _ k => ?_, fun x2 h2 => ?_⟩
  · have p2 : ∀ σ ρ, params σ ρ s = [scalar 0, scalar 1] := fun σ ρ => by simp [params, s, List.ofFn_succ, evalAt]
    rw [p2]
    exact (rfl : (0 : ℝ) = 0)
  obtain ⟨d1, d2, d3⟩ := c3 x2 h2
  exact ⟨d1, d2, fun _ _ => trivial, fun _ _ => trivial⟩

/-- All the hypotheses hold, for any number of observations: `λ` and `s` are returned on the logarithmic scale, and range over all real numbers; `n` keeps its value variable, `y` is realized. -/
example (ρ : ℕ → Arr FVal) (ω : ℕ → Lib → List (Arr FVal) → Arr FVal) :
    ∃ j, jointT (Dict.get? model) reqs Lib.defaultArr (fun v => v + 20) [3, 0, 2, 1] [2, 0, 1] [12, 10, 11] [(3, 13)] = .ok (some (j, [22, 20, 11])) ∧
      ∀ (σ₀ τ₀ : ∀ i, Fin (entries (shape J i)) → ℝ), ∀ ψ : (∀ i, Fin (entries (shape J i)) → ℝ) → ENNReal,
        refE (arrayRef (shape J) kinds) model τ₀ (fun τ => dens (evalJointT (fun d : Lib => elemwiseLogprob d.logprob) true (envT J τ) ω j) * ψ τ) =
          sampleE (fun i => numbers (shape J i)) (arrayLaw (shape J)) ρ model σ₀ fun σ =>
            ψ (scaled (fun i => numbers (shape J i)) (lineDraw (fun v => Dict.get? reqs v = some (some .default)) Lib.default (shape J)) ρ model τ₀ σ) := by
  obtain ⟨j, h1, h2⟩ := C136_arrays_joint_density_partial (shape J) (kinds := kinds) ρ ω (l := model) (by simp [model, kinds, lam, n, s, y, Lib.kind]) setting first_ok (fun v r h => by
      have := Dict.mem_of_get? h
      simp only [reqs, List.mem_cons, Prod.mk.injEq, Option.some.injEq, List.not_mem_nil, or_false] at this
      rcases this with ⟨-, h⟩ | ⟨-, h⟩ | ⟨-, h⟩ <;> exact h) (envT J) (env_ok J ρ)
  refine ⟨j, ?_, fun σ₀ τ₀ => h2 σ₀ τ₀ (valid_defaults J ρ σ₀)⟩
  rw [h1, values_eq]
  simp [tr, firstOcc, Dict.keys, Dict.get?, Lib.defaultArr, Lib.default, Lib.transDist]

/-- Three exponential variables with different scales, on the logarithmic scale. -/
example := C136_array_partial (d := .exponential) (s := [3]) (p := [numbers [3] fun k => k + 1]) (fit_of (by simp [numbers]))
  (fun k => by
    have : paramsAt [numbers [3] fun k => (k : ℝ) + 1] (coord k) = [.fin ((k : ℝ) + 1)] := by
      simp only [paramsAt, List.map_cons, List.map_nil]
      rw [show (numbers [3] fun k => (k : ℝ) + 1).shape = [3] from rfl, project_self (coord_inRange k), numbers_get]
    rw [this]
    exact .exponential (by positivity)) (fun _ => trivial) rfl

end Verif.Library.ArrDemo
