import Verif.Props.VecLibraryDefaults
import Verif.Props.LibraryDemo
import Mathlib.Data.Fin.VecNotation
import Mathlib.Tactic.FinCases

/-! # C134, C136 with vectors and categories: a mixture model

`θ ~ Dirichlet(1, 1, 1)`, `z ~ Categorical(θ)` (`J` categories), `m ~ Normal(0, 10)` (three numbers), `s ~ HalfNormal(0, 1)`, `y ~ Normal(m[z], s)` (`J` numbers)
-/

namespace Verif.Library.VecDemo
open Verif Cond FVal MeasureTheory ArrGraph Set

variable (J : ℕ)

def lay : ℕ → Layout
  | 0 => .vecs [] 3
  | 1 => .cats [J] 3
  | 2 => .nums [3]
  | 4 => .nums [J]
  | _ => .nums []

def dist : ℕ → VLib
  | 0 => .dirichlet
  | 1 => .categorical
  | 2 => .num .normal
  | 3 => .num .halfnormal
  | _ => .num .normal

def scalar (x : ℝ) : Arr FVal := ⟨[], fun _ => .fin x⟩

/-- `m[z]` -/
noncomputable def pick (m z : Arr FVal) : Arr FVal := ⟨z.shape, fun c => m.get [(toIndex (z.get c)).toNat]⟩

noncomputable def theta : RVDef VLib := ⟨.dirichlet, 1, ![.const ⟨[3], fun _ => .fin 1⟩]⟩
noncomputable def z : RVDef VLib := ⟨.categorical, 1, ![.rv 0 .dirichlet 1 theta.args]⟩
noncomputable def m : RVDef VLib := ⟨.num .normal, 2, ![.const (scalar 0), .const (scalar 10)]⟩
noncomputable def s : RVDef VLib := ⟨.num .halfnormal, 2, ![.const (scalar 0), .const (scalar 1)]⟩
noncomputable def y : RVDef VLib := ⟨.num .normal, 2, ![.app 2 (fun a => pick (a 0) (a 1)) ![.rv 2 (.num .normal) 2 m.args, .rv 1 .categorical 1 z.args], .rv 3 (.num .halfnormal) 2 s.args]⟩
noncomputable def model : List (ℕ × RVDef VLib) := [(0, theta), (1, z), (2, m), (3, s), (4, y)]

theorem theta_row (x : Fin (entries []) → Fin 3 → ℝ) (i : Fin 3) : (rows [] 3 x).get ([] ++ [(i : ℕ)]) = .fin (x ⟨0, by decide⟩ i) := rows_get (s := []) x ⟨0, by decide⟩ i

theorem theta_domain : VLib.dirichlet.Domain (.vecs [] 3) [⟨[3], fun _ => .fin 1⟩] :=
  ⟨by norm_num, by unfold Fit; decide, rfl, fun _ _ => rfl, fun _ _ => one_pos⟩

theorem z_domain {x : Fin (entries []) → Fin 3 → ℝ} (hx : ∀ k, (∀ i, 0 < x k i) ∧ ∑ i, x k i = 1) : VLib.categorical.Domain (.cats [J] 3) [rows [] 3 x] := by
  refine ⟨[], rfl, fitsIn_iff.1 (fitsIn_suffix [J] []), fun c hc => ?_⟩
  have : c = [] := by cases hc; rfl
  subst this
  have hv : ∀ i : Fin 3, vecAt 3 (rows [] 3 x) [] i = x ⟨0, by decide⟩ i := fun i => by
    have hp : project ([] ++ [(i : ℕ)]) (rows [] 3 x).shape = [] ++ [(i : ℕ)] := project_self (sh := [3]) (.cons i.2 .nil)
    rw [vecAt, hp, theta_row]
    rfl
  refine ⟨fun i => ⟨by rw [hv, theta_row], by rw [hv]; exact ((hx _).1 i).le⟩, ?_⟩
  simp_rw [hv]
  rw [(hx _).2]
  exact one_pos

theorem pick_entry (x2 : Fin (entries [3]) → ℝ) (x1 : Fin (entries [J]) → Fin 3) (k : Fin (entries [J])) : ∃ r, (pick (numbers [3] x2) (classes [J] x1)).get (coord k) = .fin r := by
  simp only [pick]
  rw [classes_index, Int.toNat_natCast]
  have hc : [(x1 k : ℕ)] ∈ allCoords [3] := mem_allCoords.2 (.cons (x1 k).2 .nil)
  obtain ⟨i, hi, he⟩ := List.getElem_of_mem hc
  rw [← he]
  exact ⟨_, numbers_get x2 ⟨i, hi⟩⟩

theorem y_domain (x2 : Fin (entries [3]) → ℝ) (x1 : Fin (entries [J]) → Fin 3) (x3 : Fin (entries []) → ℝ) (h : 0 < x3 ⟨0, by decide⟩) :
    (VLib.num .normal).Domain (.nums [J]) [pick (numbers [3] x2) (classes [J] x1), numbers [] x3] := by
  refine ⟨ArrDemo.fit_of (by simp [pick, classes, numbers]), fun k => ?_⟩
  simp only [paramsAt, List.map_cons, List.map_nil, Schools.scalar_entry]
  rw [show (pick (numbers [3] x2) (classes [J] x1)).shape = [J] from rfl, project_self (coord_inRange k)]
  obtain ⟨r, hr⟩ := pick_entry J x2 x1 k
  rw [hr]
  exact .normal r h

/-- All the parameters that can be reached are in range, and default transforms fit. -/
theorem valid_defaults (asked : ℕ → Bool) (ρ : ℕ → Arr FVal) (σ : ∀ i, (lay J i).Space) : ValidVecDefaults asked (lay J) ρ model σ := by
  have p0 : ∀ σ ρ, params σ ρ theta = [⟨[3], fun _ => .fin 1⟩] := fun σ ρ => by simp [params, theta, List.ofFn_succ, evalAt]
  have p2 : ∀ σ ρ, params σ ρ m = [scalar 0, scalar 10] := fun σ ρ => by simp [params, m, List.ofFn_succ, evalAt]
  have p3 : ∀ σ ρ, params σ ρ s = [scalar 0, scalar 1] := fun σ ρ => by simp [params, s, List.ofFn_succ, evalAt]
  refine ⟨?_, fun _ => trivial, fun x0 h0 => ⟨?_, fun _ => trivial, fun x1 _ => ⟨?_, fun _ => ?_, fun x2 _ => ⟨?_, fun _ => ?_, fun x3 h3 => ⟨?_, fun _ => ?_, fun _ _ => trivial⟩⟩⟩⟩⟩
  · rw [p0]; exact theta_domain
  · have : params (asg (fun i => (lay J i).arr) (Function.update σ 0 x0)) ρ z = [rows [] 3 x0] := by
      simp only [params, z, List.ofFn_succ, evalAt, asg]
      rfl
    rw [this]
    exact z_domain J h0
  · rw [p2]
    exact ⟨ArrDemo.fit_of (by simp [scalar]), fun k => .normal 0 (by norm_num)⟩
  · exact fun _ => trivial
  · rw [p3]
    exact ⟨ArrDemo.fit_of (by simp [scalar]), fun k => .halfnormal 0 one_pos⟩
  · exact fun _ => trivial
  · have h3' : 0 < x3 (⟨0, one_pos⟩ : Fin 1) := by
      have := h3 ⟨0, one_pos⟩
      rw [p3] at this
      exact this
    have : params (asg (fun i => (lay J i).arr) (Function.update (Function.update (Function.update (Function.update σ 0 x0) 1 x1) 2 x2) 3 x3)) ρ y = [pick (numbers [3] x2) (classes [J] x1), numbers [] x3] := by
      simp only [params, y, List.ofFn_succ, evalAt, asg]
      rfl
    rw [this]
    exact y_domain J x2 x1 x3 h3'
  · exact fun _ => trivial

theorem valid (ρ : ℕ → Arr FVal) : ∀ (l : List (ℕ × RVDef VLib)) (σ : ∀ i, (lay J i).Space), ValidVecDefaults (fun _ => false) (lay J) ρ l σ → ValidVec (lay J) ρ l σ
  | [], _, _ => trivial
  | _ :: l, _, ⟨h1, _, h3⟩ => ⟨h1, fun x hx => valid ρ l _ (h3 x hx)⟩

theorem values_eq : rvValues [3, 0, 1, 2] [13, 10, 11, 12] [(4, 14)] = [(3, 13), (0, 10), (1, 11), (2, 12), (4, 14)] := by decide

/-- Value variables `10`, …, `14`. -/
noncomputable def env (σ : ∀ i, (lay J i).Space) (i : ℕ) : Arr FVal := if 10 ≤ i then (lay J (i - 10)).arr (σ (i - 10)) else ⟨[], fun _ => .nan⟩

/-- Without transforms; all the hypotheses hold, for any number of observations; `y` is realized. -/
example (ρ : ℕ → Arr FVal) (ω : ℕ → VLib → List (Arr FVal) → Arr FVal) : ∃ chol : (n : ℕ) → Matrix (Fin n) (Fin n) ℝ → Option (Matrix (Fin n) (Fin n) ℝ),
    ∃ j vvs, joint (Dict.get? model) [3, 0, 1, 2] [13, 10, 11, 12] [(4, 14)] = .ok (some (j, vvs)) ∧ ∀ σ₀, ∀ φ,
      refE (fun i => (dist i).ref (lay J i)) model σ₀ (fun σ => dens (evalJoint (VLib.kernel chol) (env J σ) ω j) * φ σ) = sampleE (fun i => (lay J i).arr) (fun i d => d.law (lay J i)) ρ model σ₀ φ := by
  choose chol hchol using fun n => exists_cholContract (n := n)
  obtain ⟨j, vvs, h1, h2⟩ := C134_vectors_joint_density hchol (lay J) (dist := dist) ρ ω (l := model) (rvs := [3, 0, 1, 2]) (clones := [13, 10, 11, 12]) (realized := [(4, 14)]) (by simp [model])
    (by simp [DependencyOrder, model, theta, z, m, s, y, Mentions, Fin.forall_fin_succ]) (by simp [model, dist, theta, z, m, s, y]) (by simp [model, theta, z, m, s, y, User, Fin.forall_fin_succ]) rfl
    (by intro v; simp [model, Dict.keys]; tauto) (by simp [model, theta, z, m, s, y, Mentions, Fin.forall_fin_succ]; omega) (env J)
    (by
      intro σ v x h
      rw [values_eq] at h
      simp only [Dict.get?] at h
      split_ifs at h with h1 h2 h3 h4 h5 <;> cases h <;> (subst_vars; rfl))
    (by
      intro σ p hp
      simp only [model, List.mem_cons, List.not_mem_nil, or_false] at hp
      rcases hp with rfl | rfl | rfl | rfl | rfl <;> simp [params, theta, z, m, s, y, List.ofFn_succ, evalAt])
  exact ⟨chol, j, vvs, h1, fun σ₀ φ => h2 σ₀ (valid J ρ _ _ (valid_defaults J _ ρ σ₀)) φ⟩

/-! The default transform is asked for `θ`, `m` and `s`. -/

def reqs : Dict ℕ (Option (TransVals.Req ATransform)) := [(2, some .default), (0, some .default), (3, some .default)]

def asked (v : ℕ) : Bool := v == 0 || v == 2 || v == 3

noncomputable def tr (v : ℕ) : Option ATransform := if v = 0 then some simplexArr else if v = 3 then Lib.halfnormal.defaultArr else none

theorem mem_model (v : ℕ) : v ∈ model.map Prod.fst ↔ v = 0 ∨ v = 1 ∨ v = 2 ∨ v = 3 ∨ v = 4 := by simp [model]

theorem setting : Setting model [3, 0, 1, 2] [13, 10, 11, 12] [(4, 14)] reqs VLib.default tr (fun v => v + 20) [4, 1, 3, 0, 2] where
  ne := by simp [model]
  ordered := by simp [DependencyOrder, model, theta, z, m, s, y, Mentions, Fin.forall_fin_succ]
  user := by simp [model, theta, z, m, s, y, User, Fin.forall_fin_succ]
  closed := by simp [model, theta, z, m, s, y, Mentions, Fin.forall_fin_succ]; omega
  length := rfl
  mem v := by rw [mem_model]; simp [Dict.keys]; tauto
  requested v t := by
    by_cases h0 : v = 0
    · subst h0; simp [tr, reqs, Dict.get?, model, theta, VLib.default]
    by_cases h2 : v = 2
    · subst h2; simp [tr, reqs, Dict.get?, model, m, VLib.default, Lib.defaultArr, Lib.default, Lib.transDist]
    by_cases h3 : v = 3
    · subst h3; simp [tr, reqs, Dict.get?, model, s, VLib.default]
    simp [tr, reqs, Dict.get?, h0, h3, Ne.symm h0, Ne.symm h2, Ne.symm h3]
  keys v hv := by rw [mem_model]; simp [reqs, Dict.keys] at hv; tauto
  inj v w y h1 h2 := by
    rw [values_eq] at h1 h2
    simp only [Dict.get?] at h1 h2
    split_ifs at h1 h2 <;> simp only [Option.some.injEq] at h1 h2 <;> omega
  fresh v w y hv h := by
    rw [values_eq] at h
    simp only [Dict.get?] at h
    split_ifs at h <;> (cases h; omega)
  order := by
    show [4, 1, 3, 0, 2].Perm [0, 1, 2, 3, 4]
    decide

theorem first_ok (v : ℕ) (hv : (tr v).isSome) : ¬ ChildFirst model (Dict.keys (rvValues [3, 0, 1, 2] [13, 10, 11, 12] [(4, 14)])) v := by
  have : v = 0 ∨ v = 3 := by
    by_contra h
    push Not at h
    simp [tr, h.1, h.2] at hv
  rcases this with rfl | rfl <;>
  · rintro ⟨⟨u, r, hr, i, hi⟩, -⟩
    simp [model, Dict.get?] at hr
    subst hr
    revert hi; revert i; simp [theta, s, Mentions, Fin.forall_fin_succ]

/-- Value variables `11`, `12`, `14` and, on the scales of the transforms, `20`, `23`. -/
noncomputable def envT (τ : ∀ i, ((dist i).scale (asked i) (lay J i)).Space) (i : ℕ) : Arr FVal :=
  if 20 ≤ i then ((dist (i - 20)).scale (asked (i - 20)) (lay J (i - 20))).arr (τ (i - 20))
  else if 10 ≤ i then ((dist (i - 10)).scale (asked (i - 10)) (lay J (i - 10))).arr (τ (i - 10)) else ⟨[], fun _ => .nan⟩

theorem env_ok (ρ : ℕ → Arr FVal) (τ : ∀ i, ((dist i).scale (asked i) (lay J i)).Space) :
    ArrGraph.Env model (rvValues [3, 0, 1, 2] [13, 10, 11, 12] [(4, 14)]) tr (fun v => v + 20) (fun i => ((dist i).scale (asked i) (lay J i)).arr) ρ τ (envT J τ) := by
  refine ⟨fun v y h hn => ?_, fun v hv hn => ?_, fun p hp i k hk => ?_⟩
  · rw [values_eq] at h
    simp only [Dict.get?] at h
    split_ifs at h with h1 h2 h3 h4 h5 <;> (cases h; subst_vars; rfl)
  · have : v = 0 ∨ v = 3 := by
      by_contra h
      push Not at h
      simp [tr, h.1, h.2] at hn
    rcases this with rfl | rfl <;> rfl
  · exfalso
    simp only [model, List.mem_cons, List.not_mem_nil, or_false] at hp
    rcases hp with rfl | rfl | rfl | rfl | rfl
    · revert hk; revert i; simp [theta, UsesInput, Fin.forall_fin_succ]
    · revert hk; revert i; simp [z, UsesInput, Fin.forall_fin_succ]
    · revert hk; revert i; simp [m, UsesInput, Fin.forall_fin_succ]
    · revert hk; revert i; simp [s, UsesInput, Fin.forall_fin_succ]
    · revert hk; revert i; simp [y, UsesInput, Fin.forall_fin_succ, Fin.exists_fin_succ]

/-- All the hypotheses hold: `θ` is returned as two real numbers, `s` on the logarithmic scale; `m` has no default transform. -/
example (ρ : ℕ → Arr FVal) (ω : ℕ → VLib → List (Arr FVal) → Arr FVal) : ∃ chol : (n : ℕ) → Matrix (Fin n) (Fin n) ℝ → Option (Matrix (Fin n) (Fin n) ℝ),
    ∃ j, jointT (Dict.get? model) reqs VLib.default (fun v => v + 20) [4, 1, 3, 0, 2] [3, 0, 1, 2] [13, 10, 11, 12] [(4, 14)] = .ok (some (j, [23, 20, 11, 12])) ∧
      ∀ (σ₀ : ∀ i, (lay J i).Space) (τ₀ : ∀ i, ((dist i).scale (asked i) (lay J i)).Space), ∀ ψ : (∀ i, ((dist i).scale (asked i) (lay J i)).Space) → ENNReal,
        refE (fun i => (dist i).scaleRef (asked i) (lay J i)) model τ₀ (fun τ => dens (evalJointT (VLib.kernel chol) true (envT J τ) ω j) * ψ τ) =
          sampleE (fun i => (lay J i).arr) (fun i d => d.law (lay J i)) ρ model σ₀ fun σ => ψ (scaled (fun i => (lay J i).arr) (fun i _ p => (dist i).draw (asked i) (lay J i) p) ρ model τ₀ σ) := by
  choose chol hchol using fun n => exists_cholContract (n := n)
  obtain ⟨j, h1, h2⟩ := C136_vectors_joint_density_partial hchol (lay J) (dist := dist) (asked := asked) ρ ω (l := model) (by simp [model, dist, theta, z, m, s, y]) setting first_ok
    (fun v r h => by
      have := Dict.mem_of_get? h
      simp only [reqs, List.mem_cons, Prod.mk.injEq, Option.some.injEq, List.not_mem_nil, or_false] at this
      rcases this with ⟨-, h⟩ | ⟨-, h⟩ | ⟨-, h⟩ <;> exact h)
    (fun v => by
      by_cases h0 : v = 0
      · subst h0; simp [asked, reqs, Dict.get?]
      by_cases h2 : v = 2
      · subst h2; simp [asked, reqs, Dict.get?]
      by_cases h3 : v = 3
      · subst h3; simp [asked, reqs, Dict.get?]
      simp [asked, reqs, Dict.get?, h0, h2, h3, Ne.symm h0, Ne.symm h2, Ne.symm h3]) (envT J) (env_ok J ρ)
  refine ⟨chol, j, ?_, fun σ₀ τ₀ => h2 σ₀ τ₀ (valid_defaults J _ ρ σ₀)⟩
  rw [h1, values_eq]
  simp [tr, firstOcc, Dict.keys, Dict.get?, Lib.defaultArr, Lib.default, Lib.transDist]

/-- Two parameters in range: a Dirichlet vector, and its categories. -/
example {chol : (n : ℕ) → Matrix (Fin n) (Fin n) ℝ → Option (Matrix (Fin n) (Fin n) ℝ)} (hchol : ∀ n, CholContract (chol n)) := C134_vectors hchol theta_domain
example {chol : (n : ℕ) → Matrix (Fin n) (Fin n) ℝ → Option (Matrix (Fin n) (Fin n) ℝ)} (hchol : ∀ n, CholContract (chol n)) := C136_vectors_partial hchol theta_domain true fun _ => trivial

end Verif.Library.VecDemo
