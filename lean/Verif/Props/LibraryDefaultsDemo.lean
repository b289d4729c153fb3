import Verif.Props.LibraryDefaults
import Mathlib.Data.Fin.VecNotation
import Mathlib.Tactic.FinCases

/-! # C136: an example, `r ~ Gamma(2, 1)`, `n ~ Poisson(r)`, with default transforms for both -/

namespace Verif.Library.DefaultsDemo
open Verif Cond FVal MeasureTheory Set

noncomputable def A : IR.Expr Lib := .rv 0 .gamma 2 ![.const (.fin 2), .const (.fin 1)]
noncomputable def B : IR.Expr Lib := .rv 1 .poisson 1 ![A]

noncomputable def defs : ℕ → Option (IR.Expr Lib) := Dict.get? [(0, A), (1, B)]

noncomputable def itemA : IR.Item Lib := ⟨0, ⟨0, .gamma, 2, ![.const (.fin 2), .const (.fin 1)]⟩, []⟩
noncomputable def itemB : IR.Item Lib := ⟨1, ⟨1, .poisson, 1, ![A]⟩, []⟩
noncomputable def items : List (IR.Item Lib) := [itemA, itemB]

noncomputable def tr (v : ℕ) : Option IR.VTransform := if v = 0 then Lib.default .gamma else none

def reqs : Dict ℕ (Option (TransVals.Req IR.VTransform)) := [(0, some .default), (1, some .default)]

def tv (v : ℕ) : ℕ := v + 20

def env (τ : ℕ → ℝ) (i : ℕ) : FVal := if i = 20 then .fin (τ 0) else if i = 11 then .fin (τ 1) else .nan

theorem wf : IR.WellFormed defs := by
  have hA : IR.Closed defs A := ⟨rfl, by simp [Fin.forall_fin_two, IR.Closed]⟩
  have hB : IR.Closed defs B := ⟨rfl, fun i => by fin_cases i; exact hA⟩
  intro v e h
  have := Dict.mem_of_get? h
  simp only [List.mem_cons, Prod.mk.injEq, List.not_mem_nil, or_false] at this
  rcases this with ⟨rfl, rfl⟩ | ⟨rfl, rfl⟩
  exacts [⟨rfl, hA⟩, ⟨rfl, hB⟩]

theorem mem (v : ℕ) : v ∈ items.map (·.v) ↔ v = 0 ∨ v = 1 := by simp [items, itemA, itemB]

theorem listed : IR.Listed defs (fun d : Lib => d.kind == .int) (· ∈ items.map (·.v)) items [] := by
  refine ⟨⟨A, rfl, .rv 0 Lib.gamma 2 _⟩, fun h => absurd rfl h, ?_, by simp [itemA], ⟨B, rfl, .rv 1 Lib.poisson 1 _⟩, fun h => absurd rfl h, ?_, by simp [itemB], trivial⟩
  · intro i
    change Fin 2 at i
    fin_cases i <;> trivial
  · intro i
    change Fin 1 at i
    fin_cases i
    exact ⟨(mem 0).2 (by simp), by simp [itemA]⟩

theorem values_eq : rvValues [1, 0] [11, 10] [] = [(1, 11), (0, 10)] := by decide

/-- `A` is not given through other variables. -/
theorem first_ok (v : ℕ) (hv : (tr v).isSome) : ¬ IR.ChildFirst defs (Dict.keys (rvValues [1, 0] [11, 10] [])) v := by
  have : v = 0 := by
    unfold tr at hv
    split_ifs at hv with h
    exacts [h, absurd hv (by simp)]
  subst this
  rintro ⟨⟨u, e, he, a, ha, hu⟩, -⟩
  cases he
  simp only [A, IR.inputsOf, List.ofFn_succ, List.ofFn_zero, List.mem_cons, List.not_mem_nil, or_false] at ha
  rcases ha with rfl | rfl <;> exact hu

theorem setting : IR.Setting (fun d : Lib => d.kind == .int) defs items [1, 0] [11, 10] [] reqs Lib.default tr tv [0, 1] where
  wf := wf
  ne := by simp [items]
  nodup := by simp [items, itemA, itemB]
  listed := listed
  length := rfl
  mem v := by rw [mem]; simp [Dict.keys, or_comm]
  requested v t := by
    by_cases h : v = 0
    · subst h
      constructor
      · intro h
        exact .inr ⟨rfl, 0, .gamma, 2, _, rfl, h⟩
      · rintro (h | ⟨-, id, dist, n, args, h1, h2⟩)
        · cases h
        · cases h1; exact h2
    · by_cases h1 : v = 1
      · subst h1
        constructor
        · intro h; cases h
        · rintro (h | ⟨-, id, dist, n, args, h1, h2⟩)
          · cases h
          · cases h1; cases h2
      · simp [tr, reqs, Dict.get?, h, Ne.symm h, Ne.symm h1]
  keys v hv := by rw [mem]; simpa [reqs, Dict.keys] using hv
  plain it hit t _ hl := by
    simp only [items, List.mem_cons, List.not_mem_nil, or_false] at hit
    rcases hit with rfl | rfl <;> exact absurd rfl hl
  inside v t ht h := absurd h (first_ok v (by simp [ht]))
  inj v w y h1 h2 := by
    rw [values_eq] at h1 h2
    simp only [Dict.get?] at h1 h2
    split_ifs at h1 h2 <;> simp only [Option.some.injEq] at h1 h2 <;> omega
  fresh v w y hv h := by
    rw [values_eq] at h
    simp only [Dict.get?] at h
    rw [mem] at hv
    unfold tv
    split_ifs at h <;> (cases h; omega)
  order := by
    show [0, 1].Perm (items.map (·.v))
    simp [items, itemA, itemB]

theorem env_ok (τ : ℕ → ℝ) : IR.Env defs items (rvValues [1, 0] [11, 10] []) tr tv (fun _ => .nan) τ (env τ) := by
  refine ⟨fun v y h hn => ?_, fun v hv hn => ?_, fun v e hv he i hi => ?_⟩
  · rw [values_eq] at h
    simp only [Dict.get?] at h
    split_ifs at h with h1 h2
    · cases h; subst h1; rfl
    · subst h2; cases hn
  · rw [mem] at hv
    rcases hv with rfl | rfl
    · rfl
    · cases hn
  · rw [mem] at hv
    rcases hv with rfl | rfl
    · cases he; simp [A, IR.UsesInput, Fin.exists_fin_two] at hi
    · cases he; simp [B, A, IR.UsesInput, Fin.exists_fin_two] at hi

theorem valid (τ : ℕ → ℝ) : ValidDefaults (fun v => Dict.get? reqs v = some (some .default)) (fun τ => IR.takeBack tr (· ∈ items.map (·.v)) (fun _ => .nan) τ items (Graph.asg τ)) (· ∈ items.map (·.v)) (fun _ => .nan) items τ := by
  set X : (ℕ → ℝ) → ℕ → FVal := fun τ => IR.takeBack tr (· ∈ items.map (·.v)) (fun _ => .nan) τ items (Graph.asg τ) with hX
  have hX0 : ∀ τ, X τ 0 = .fin (Real.exp (τ 0)) := by
    intro τ
    simp only [hX]
    have := IR.takeBack_item (tr := tr) (ρ := fun _ => .nan) (τ := τ) (X := Graph.asg τ) listed (by simp [items, itemA, itemB]) (it := itemA) (by simp [items])
    exact this
  have p0 : ∀ Y : ℕ → FVal, itemA.params (· ∈ items.map (·.v)) Y (fun _ => .nan) = [.fin 2, .fin 1] := fun Y => by simp [IR.Item.params, itemA, List.ofFn_succ, IR.readAt]
  have p1 : ∀ τ, itemB.params (· ∈ items.map (·.v)) (X τ) (fun _ => .nan) = [.fin (Real.exp (τ 0))] := by
    intro τ
    have h0 : IR.readAt (· ∈ items.map (·.v)) (X τ) (fun _ => .nan) A = .fin (Real.exp (τ 0)) := by
      have : IR.readAt (· ∈ items.map (·.v)) (X τ) (fun _ => .nan) A = X τ 0 := if_pos ((mem 0).2 (by simp))
      rw [this, hX0]
    simp only [IR.Item.params, itemB, List.ofFn_succ, List.ofFn_zero]
    exact congrArg (fun a => [a]) h0
  refine ⟨?_, trivial, fun _ _ => ?_, fun z _ => ⟨?_, trivial, fun _ _ => ?_, fun _ _ => trivial⟩⟩
  · rw [p0]; exact .gamma two_pos one_pos
  · rw [p0]; trivial
  · rw [p1]; exact .poisson (Real.exp_pos _).le
  · rw [p1]; trivial

/-- The rate is returned on the logarithmic scale, under a new value variable, and ranges over all real numbers; the count keeps its value variable. -/
example : ∃ S, IR.Steps (fun d : Lib => d.kind == .int) (IR.outputs defs (rvValues [1, 0] [11, 10] [])) (fun _ => false) S ∧
    ∃ j, IR.jointT S defs reqs Lib.default tv [0, 1] [1, 0] [11, 10] [] = .ok (some (j, [11, 20])) ∧
      ∀ σ₀ τ₀ : ℕ → ℝ, ∀ ψ : (ℕ → ℝ) → ENNReal,
        lineE (fun v => Dict.get? reqs v = some (some .default)) (fun τ => IR.takeBack tr (· ∈ items.map (·.v)) (fun _ => .nan) τ items (Graph.asg τ)) (· ∈ items.map (·.v)) (fun _ => .nan) items τ₀
            (fun τ => dens (IR.evalJointT Lib.logprob true (env τ) (fun _ _ _ => .nan) j) * ψ τ) =
          IR.sampleE Lib.law (fun _ => .nan) items σ₀ fun σ => ψ (IR.transValues tr defs (fun _ => .nan) (items.map (·.v)) τ₀ σ) := by
  obtain ⟨S, hrun, hF⟩ := IR.exists_run (fun d : Lib => d.kind == .int) (IR.outputs defs (rvValues [1, 0] [11, 10] [])) fun _ => false
  obtain ⟨j, h1, h2⟩ := C136_joint_density_partial (fun _ => .nan) (fun _ _ _ => .nan) (l := items) (by simp [items, itemA, itemB]) setting (fun v r h => by
      have := Dict.mem_of_get? h
      simp only [reqs, List.mem_cons, Prod.mk.injEq, Option.some.injEq, List.not_mem_nil, or_false] at this
      rcases this with ⟨-, h⟩ | ⟨-, h⟩ <;> exact h) hrun hF env env_ok first_ok
  refine ⟨S, hrun, j, ?_, fun σ₀ τ₀ => h2 _ rfl σ₀ τ₀ (valid τ₀)⟩
  rw [h1, values_eq]
  rfl

end Verif.Library.DefaultsDemo
