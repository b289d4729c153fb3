import Verif.Props.Library

/-! # C134: examples -/

namespace Verif.Library.ArrDemo
open Verif Cond FVal MeasureTheory ArrGraph


/-! `λ ~ Gamma(2, 1)`, `n ~ Poisson(λ)` (`J` numbers), `s ~ HalfCauchy(0, 1)`, `y ~ StudentT(4, n, s)` (`J` numbers) -/

variable (J : ℕ)

def shape (i : ℕ) : List ℕ := if i = 1 ∨ i = 3 then [J] else []

def kinds (i : ℕ) : Full.Kind := if i = 1 then .int else .float

def scalar (x : ℝ) : Arr FVal := ⟨[], fun _ => .fin x⟩

noncomputable def lam : RVDef Lib := ⟨.gamma, 2, ![.const (scalar 2), .const (scalar 1)]⟩
noncomputable def n : RVDef Lib := ⟨.poisson, 1, ![.rv 0 .gamma 2 lam.args]⟩
noncomputable def s : RVDef Lib := ⟨.halfcauchy, 2, ![.const (scalar 0), .const (scalar 1)]⟩
noncomputable def y : RVDef Lib := ⟨.studentt, 3, ![.const (scalar 4), .rv 1 .poisson 1 n.args, .rv 2 .halfcauchy 2 s.args]⟩
noncomputable def model : List (ℕ × RVDef Lib) := [(0, lam), (1, n), (2, s), (3, y)]

theorem fit_of {s : List ℕ} {p : List (Arr FVal)} (h : ∀ a ∈ p, a.shape = [] ∨ a.shape = s) : Fit s p := by
  rw [Fit, bshape_some]
  have hmax : maxDims (s :: p.map Arr.shape) = s.length := by
    have : ∀ l : List (List ℕ), (∀ t ∈ l, t.length ≤ s.length) → maxDims (s :: l) = s.length := by
      intro l hl
      refine le_antisymm ?_ ?_
      · exact maxDims_le (by simpa using hl)
      · exact le_maxDims (by simp)
    refine this _ fun t ht => ?_
    obtain ⟨a, ha, rfl⟩ := List.mem_map.1 ht
    rcases h a ha with h | h <;> simp [h]
  rw [hmax]
  refine ⟨rfl, fun d hd => ⟨fun t ht => ?_, fun _ => ⟨s, by simp, ?_⟩⟩⟩
  · rcases List.mem_cons.1 ht with rfl | ht
    · exact .inr (by simp [padded, hd])
    obtain ⟨a, ha, rfl⟩ := List.mem_map.1 ht
    rcases h a ha with h | h
    · exact .inl (by simp [padded, h, hd])
    · exact .inr (by simp [padded, h, hd])
  · simp [padded, hd]

theorem poisson_domain (x : Fin (entries []) → ℝ) (h : 0 < x ⟨0, by decide⟩) (c : List ℕ) : Lib.Domain .poisson (paramsAt [numbers [] x] c) := by
  simp only [paramsAt, List.map_cons, List.map_nil, Verif.ArrGraph.Schools.scalar_entry]
  exact .poisson h.le

theorem studentt_domain (x : Fin (entries [J]) → ℝ) (z : Fin (entries []) → ℝ) (h : 0 < z ⟨0, by decide⟩) (k : Fin (entries [J])) : Lib.Domain .studentt (paramsAt [scalar 4, numbers [J] x, numbers [] z] (coord k)) := by
  simp only [paramsAt, List.map_cons, List.map_nil, Verif.ArrGraph.Schools.scalar_entry]
  rw [show (numbers [J] x).shape = [J] from rfl, project_self (coord_inRange k), numbers_get]
  exact .studentt _ four_pos h

theorem valid (ρ : ℕ → Arr FVal) (σ : ∀ i, Fin (entries (shape J i)) → ℝ) : ValidArrays (shape J) ρ model σ := by
  have p0 : ∀ σ ρ, params σ ρ lam = [scalar 2, scalar 1] := fun σ ρ => by simp [params, lam, List.ofFn_succ, evalAt]
  have p2 : ∀ σ ρ, params σ ρ s = [scalar 0, scalar 1] := fun σ ρ => by simp [params, s, List.ofFn_succ, evalAt]
  refine ⟨?_, fun k => ?_, fun x0 h0 => ?_⟩
  · rw [p0]; exact fit_of (by simp [scalar])
  · rw [p0]; exact .gamma (a := 2) (t := 1) two_pos one_pos
  have h0' : 0 < x0 (⟨0, one_pos⟩ : Fin 1) := by
    have := h0 ⟨0, one_pos⟩
    rw [p0] at this
    exact this
  have p1 : ∀ x1, params (asg (fun i => numbers (shape J i)) (Function.update σ 0 x0)) ρ n = [numbers [] x0] ∧ params (asg (fun i => numbers (shape J i)) (Function.update (Function.update σ 0 x0) 1 x1)) ρ n = [numbers [] x0] := by
    intro x1
    simp only [params, n, List.ofFn_succ, evalAt, asg]
    exact ⟨rfl, rfl⟩
  refine ⟨?_, fun k => ?_, fun x1 _ => ⟨?_, fun k => ?_, fun x2 h2 => ?_⟩⟩
  · rw [(p1 0).1]; exact fit_of (by simp [numbers])
  · rw [(p1 0).1]
    exact poisson_domain x0 h0' _
  · rw [p2]; exact fit_of (by simp [scalar])
  · rw [p2]; exact .halfcauchy 0 one_pos
  have h2' : 0 < x2 (⟨0, one_pos⟩ : Fin 1) := by
    have := h2 ⟨0, one_pos⟩
    rw [p2] at this
    exact this
  have p3 : params (asg (fun i => numbers (shape J i)) (Function.update (Function.update (Function.update σ 0 x0) 1 x1) 2 x2)) ρ y = [scalar 4, numbers [J] x1, numbers [] x2] := by
    simp only [params, y, List.ofFn_succ, evalAt, asg]
    rfl
  refine ⟨?_, fun k => ?_, fun _ _ => trivial⟩
  · rw [p3]; exact fit_of (by simp [numbers, scalar, shape])
  · rw [p3]
    exact studentt_domain J x1 x2 h2' k

/-- Value variables `10`, `11`, `12`, `13`. -/
noncomputable def env (σ : ∀ i, Fin (entries (shape J i)) → ℝ) (i : ℕ) : Arr FVal := if 10 ≤ i then numbers (shape J (i - 10)) (σ (i - 10)) else ⟨[], fun _ => .nan⟩

/-- All the hypotheses hold, for any number of observations; `y` is realized. -/
example (ρ : ℕ → Arr FVal) (ω : ℕ → Lib → List (Arr FVal) → Arr FVal) :
    ∃ j vvs, joint (Dict.get? model) [2, 0, 1] [12, 10, 11] [(3, 13)] = .ok (some (j, vvs)) ∧ ∀ σ₀, ∀ φ,
      refE (arrayRef (shape J) kinds) model σ₀ (fun σ => dens (evalJoint (fun d : Lib => elemwiseLogprob d.logprob) (env J σ) ω j) * φ σ) = sampleE (fun i => numbers (shape J i)) (arrayLaw (shape J)) ρ model σ₀ φ := by
  obtain ⟨j, vvs, h1, h2⟩ := C134_arrays_joint_density (shape J) (kinds := kinds) ρ ω (l := model) (rvs := [2, 0, 1]) (clones := [12, 10, 11]) (realized := [(3, 13)]) (by simp [model])
    (by simp [DependencyOrder, model, lam, n, s, y, Mentions, Fin.forall_fin_succ]) (by simp [model, kinds, lam, n, s, y, Lib.kind]) (by simp [model, lam, n, s, y, User, Fin.forall_fin_succ]) rfl
    (by intro v; simp [model, Dict.keys]; tauto) (by simp [model, lam, n, s, y, Mentions, Fin.forall_fin_succ]) (env J)
    (by
      intro σ v x h
      have e : rvValues [2, 0, 1] [12, 10, 11] [(3, 13)] = [(2, 12), (0, 10), (1, 11), (3, 13)] := by decide
      rw [e] at h
      simp only [Dict.get?] at h
      split_ifs at h with h1 h2 h3 h4 <;> cases h <;> (subst_vars; rfl))
    (by
      intro σ p hp
      simp only [model, List.mem_cons, List.not_mem_nil, or_false] at hp
      rcases hp with rfl | rfl | rfl | rfl <;> simp [params, lam, n, s, y, List.ofFn_succ, evalAt])
  exact ⟨j, vvs, h1, fun σ₀ φ => h2 σ₀ (valid J ρ σ₀) φ⟩

end Verif.Library.ArrDemo

namespace Verif.Library.Demo
open Verif Cond FVal MeasureTheory Full Set

/-! `S ~ HalfNormal(0, 1)`, `X ~ Normal(0, S)`, `C = clip(X, -1, 1)`, `B ~ Bernoulli(1/2)`, `Y ~ StudentT(4, C, S)`; requested are `S`, `C`, `B` and `Y` -/

noncomputable def S : Expr Lib := .rv 0 .halfnormal 2 ![.const (.fin 0), .const (.fin 1)]
noncomputable def X : Expr Lib := .rv 1 .normal 2 ![.const (.fin 0), S]
noncomputable def C : Expr Lib := .app 2 .float .clip 3 ![X, .const (.fin (-1)), .const (.fin 1)]
noncomputable def B : Expr Lib := .rv 3 .bernoulli 1 ![.const (.fin (1 / 2))]
noncomputable def Y : Expr Lib := .rv 4 .studentt 3 ![.const (.fin 4), C, S]

noncomputable def defs : ℕ → Option (Expr Lib) := Dict.get? [(0, S), (1, X), (2, C), (3, B), (4, Y)]

noncomputable def items : List (Full.Item Lib) :=
  [⟨0, .rv ⟨0, .halfnormal, 2, ![.const (.fin 0), .const (.fin 1)]⟩⟩, ⟨2, .clip (some (.const (.fin (-1)))) (some (.const (.fin 1))) ⟨1, .normal, 2, ![.const (.fin 0), S]⟩⟩,
    ⟨3, .rv ⟨3, .bernoulli, 1, ![.const (.fin (1 / 2))]⟩⟩, ⟨4, .rv ⟨4, .studentt, 3, ![.const (.fin 4), C, S]⟩⟩]

theorem wf : WellFormed defs := by
  have hS : Closed defs S := ⟨rfl, by simp [Fin.forall_fin_two, Closed]⟩
  have hX : Closed defs X := ⟨rfl, fun i => by fin_cases i; exacts [trivial, hS]⟩
  have hC : Closed defs C := ⟨rfl, fun i => by fin_cases i; exacts [hX, trivial, trivial]⟩
  have hB : Closed defs B := ⟨rfl, fun i => by fin_cases i; exact trivial⟩
  have hY : Closed defs Y := ⟨rfl, fun i => by fin_cases i; exacts [trivial, hC, hS]⟩
  intro v e h
  have := Dict.mem_of_get? h
  simp only [List.mem_cons, Prod.mk.injEq, List.not_mem_nil, or_false] at this
  rcases this with ⟨rfl, rfl⟩ | ⟨rfl, rfl⟩ | ⟨rfl, rfl⟩ | ⟨rfl, rfl⟩ | ⟨rfl, rfl⟩
  exacts [⟨rfl, hS⟩, ⟨rfl, hX⟩, ⟨rfl, hC⟩, ⟨rfl, hB⟩, ⟨rfl, hY⟩]

/-- The requested variables. -/
def R : ℕ → Prop := fun v => v = 0 ∨ v = 2 ∨ v = 3 ∨ v = 4

theorem R_eq : (· ∈ items.map (·.v)) = R := by
  funext v
  simp [items, R]

theorem listed : Listed defs Lib.kind Lib.hasCdf (· ∈ items.map (·.v)) items [] := by
  rw [R_eq]
  refine ⟨⟨S, rfl, .rv ..⟩, ?_, ⟨C, rfl, ?_⟩, ?_, ⟨B, rfl, .rv ..⟩, ?_, ⟨Y, rfl, .rv ..⟩, ?_, trivial⟩
  · intro i
    fin_cases i <;> trivial
  · exact IsTree.clip (R := R) (kd := Lib.kind) (hasCdf := Lib.hasCdf) (id := 2) (k := .float) (args := ![X, .const (.fin (-1)), .const (.fin 1)]) (id' := 1) (dist := .normal) rfl (by simp [R]) rfl
  · refine ⟨fun e he => ?_, fun e he => ?_, fun i => ?_⟩
    · cases he; trivial
    · cases he; trivial
    · fin_cases i
      · trivial
      · exact ⟨.inl rfl, by simp⟩
  · intro i
    fin_cases i; trivial
  · intro i
    fin_cases i
    · trivial
    · exact .inl ⟨.inr (.inl rfl), by simp⟩
    · exact ⟨.inl rfl, by simp⟩

theorem valid (ρ : ℕ → FVal) (τ : ℕ → ℝ) : ValidModel (· ∈ items.map (·.v)) ρ items τ := by
  rw [R_eq]
  have hS : ∀ τ : ℕ → ℝ, readAt R (Graph.asg τ) ρ S = .fin (τ 0) := fun τ => if_pos (Or.inl rfl)
  have hC : ∀ τ : ℕ → ℝ, readAt R (Graph.asg τ) ρ C = .fin (τ 2) := fun τ => if_pos (Or.inr (.inl rfl))
  have e0 : ∀ val : Expr Lib → FVal, val (.const (.fin 0)) = .fin 0 → val (.const (.fin 1)) = .fin 1 → Source.params val ⟨0, .halfnormal, 2, ![.const (.fin 0), .const (.fin 1)]⟩ = [.fin 0, .fin 1] := by
    intro val h1 h2
    simp only [Source.params, List.ofFn_succ, List.ofFn_zero]
    exact congrArg₂ (fun a b => [a, b]) h1 h2
  have e1 : ∀ τ : ℕ → ℝ, Source.params (readAt R (Graph.asg τ) ρ) ⟨1, Lib.normal, 2, ![.const (.fin 0), S]⟩ = [.fin 0, .fin (τ 0)] := by
    intro τ
    simp only [Source.params, List.ofFn_succ, List.ofFn_zero]
    exact congrArg (fun b => [fin 0, b]) (hS τ)
  have e4 : ∀ τ : ℕ → ℝ, Source.params (readAt R (Graph.asg τ) ρ) ⟨4, Lib.studentt, 3, ![.const (.fin 4), C, S]⟩ = [.fin 4, .fin (τ 2), .fin (τ 0)] := by
    intro τ
    simp only [Source.params, List.ofFn_succ, List.ofFn_zero]
    exact congrArg₂ (fun a b => [fin 4, a, b]) (hC τ) (hS τ)
  refine ⟨?_, fun z hz => ?_⟩
  · show Lib.Domain .halfnormal _
    rw [e0 _ rfl rfl]; exact .halfnormal 0 one_pos
  have hz' : 0 < z := by
    replace hz : z ∈ Lib.supp .halfnormal (Source.params (readAt R (Graph.asg τ) ρ) ⟨0, Lib.halfnormal, 2, ![.const (.fin 0), .const (.fin 1)]⟩) := hz
    rw [e0 _ rfl rfl] at hz
    exact hz
  refine ⟨⟨?_, rfl, ?_, ?_, ?_, by rintro ⟨⟩⟩, fun c _ => ⟨?_, fun b _ => ⟨?_, fun _ _ => trivial⟩⟩⟩
  · show Lib.Domain .normal _
    rw [e1]
    exact .normal 0 (by simpa using hz')
  · rintro e h; cases h; exact .inl ⟨-1, rfl⟩
  · rintro e h; cases h; exact .inl ⟨1, rfl⟩
  · show (-1 : ℝ) < 1
    norm_num
  · exact Lib.Domain.bernoulli (p := 1 / 2) (by norm_num) (by norm_num)
  · show Lib.Domain .studentt _
    rw [e4]
    exact .studentt _ four_pos (by simpa using hz')

def env (τ : ℕ → ℝ) (i : ℕ) : FVal := if i = 10 then .fin (τ 0) else if i = 12 then .fin (τ 2) else if i = 13 then .fin (τ 3) else if i = 14 then .fin (τ 4) else .nan

/-- All the hypotheses hold; `B` is realized. -/
example : ∃ S, Run Lib.kind (outputs defs (rvValues [4, 2, 0] [14, 12, 10] [(3, 13)])) S ∧ ∃ j vvs, joint Lib.hasCdf S defs [4, 2, 0] [14, 12, 10] [(3, 13)] = .ok (some (j, vvs)) ∧
    ∀ σ₀ τ₀ : ℕ → ℝ, ∀ ψ : (ℕ → ℝ) → ENNReal,
      refE world (· ∈ items.map (·.v)) (fun _ => .nan) items τ₀ (fun τ => dens (evalJoint registry Lib.kind (env τ) (fun _ _ _ => .nan) j) * ψ τ) =
        sampleE Lib.law (fun _ => .nan) (items.flatMap (·.tree.sources)) σ₀ fun σ => ψ (values defs (fun _ => .nan) (items.map (·.v)) τ₀ σ) := by
  obtain ⟨S, hrun⟩ := exists_run Lib.kind (outputs defs (rvValues [4, 2, 0] [14, 12, 10] [(3, 13)]))
  obtain ⟨j, vvs, h1, h2⟩ := C134_joint_density (fun _ => .nan) (fun _ _ _ => .nan) wf (l := items) (by simp [items]) (by simp [items]) (by simp [items, RTree.sources]) listed (rvs := [4, 2, 0]) (clones := [14, 12, 10])
    (realized := [(3, 13)]) rfl (by intro v; simp [items, Dict.keys]; tauto) hrun env (by
      intro τ v x h
      have e : rvValues [4, 2, 0] [14, 12, 10] [(3, 13)] = [(4, 14), (2, 12), (0, 10), (3, 13)] := by decide
      rw [e] at h
      simp only [Dict.get?] at h
      split_ifs at h with h1 h2 h3 h4
      · cases h; subst h1; rfl
      · cases h; subst h2; rfl
      · cases h; subst h3; rfl
      · cases h; subst h4; rfl) (by
      intro τ v e hv he i hi
      have hS : ∀ i, ¬ UsesInput i Demo.S := by simp [Demo.S, UsesInput, Fin.exists_fin_two]
      have hC : ∀ i, ¬ UsesInput i C := by simp [C, X, UsesInput, Fin.exists_fin_succ, hS]
      have hB : ∀ i, ¬ UsesInput i B := by simp [B, UsesInput, Fin.exists_fin_succ]
      have hY : ∀ i, ¬ UsesInput i Y := by simp [Y, UsesInput, Fin.exists_fin_succ, hC, hS]
      simp only [List.mem_cons, List.not_mem_nil, or_false, Dict.keys, List.map_cons, List.map_nil] at hv
      rcases hv with (rfl | rfl | rfl) | rfl
      · cases he; exact absurd hi (hY i)
      · cases he; exact absurd hi (hC i)
      · cases he; exact absurd hi (hS i)
      · cases he; exact absurd hi (hB i))
  exact ⟨S, hrun, j, vvs, h1, fun σ₀ τ₀ => h2 σ₀ τ₀ (valid _ _)⟩

end Verif.Library.Demo
