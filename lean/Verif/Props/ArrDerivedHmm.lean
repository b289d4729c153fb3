import Verif.Props.ArrDerivedMixture
import Verif.Props.ArrDerivedDemo
import Verif.Props.ArrMarkov
import Verif.Props.Switching

/-! # C108: a hidden Markov model

`z` is a chain of `n + 1` states with transition matrix `G`; `y = at.stack([a, b])[z, at.arange(n + 1)]` where `a` and `b` are vectors of normal variables around
two means. -/

namespace Verif.ArrGraph.Hmm
open Verif Cond MeasureTheory ProbabilityTheory Set
open Schools (normalK scalar)

inductive Dist | normal | markov

noncomputable def kernel : Dist → Arr FVal → List (Arr FVal) → Except Err (Arr FVal)
  | .normal => elemwiseLogprob normalK
  | .markov => markovArr

noncomputable def elem : Dist → FVal → List FVal → Except Err FVal
  | .normal => normalK
  | .markov => fun _ _ => .error .notImplemented

noncomputable def cdf : Dist → Arr FVal → List (Arr FVal) → Except Err (Arr FVal) := fun _ _ _ => .error .notImplemented

variable (n : ℕ) (G : Fin 2 → PMF (Fin 2)) (γ : PMF (Fin 2)) (m : Fin 2 → ℝ)

/-- Sequences of states, and vectors. -/
def X : ℕ → Type
  | 0 => Fin (n + 1) → Fin 2
  | _ + 1 => Fin (entries [n + 1]) → ℝ

instance : ∀ i, MeasurableSpace (X n i)
  | 0 => inferInstanceAs (MeasurableSpace (Fin (n + 1) → Fin 2))
  | _ + 1 => inferInstanceAs (MeasurableSpace (Fin (entries [n + 1]) → ℝ))

noncomputable def arr : ∀ i, X n i → Arr FVal
  | 0 => stateArr (T := n + 1) (M := 2)
  | _ + 1 => numbers [n + 1]

/-- The transition matrices and the probabilities before the first step. -/
noncomputable def matrices : Arr FVal := ⟨[n + 1, 2, 2], fun c => .fin (if h : c.getD 1 0 < 2 ∧ c.getD 2 0 < 2 then (G ⟨c.getD 1 0, h.1⟩ ⟨c.getD 2 0, h.2⟩).toReal else 0)⟩
noncomputable def start : Arr FVal := ⟨[2], fun c => .fin (if h : c.getD 0 0 < 2 then (γ ⟨c.getD 0 0, h⟩).toReal else 0)⟩

theorem holds : HoldsMatrices (List.replicate (n + 1) G) (matrices n G) ∧ HoldsVector γ (start γ) := by
  refine ⟨⟨by simp [matrices], fun t h i j => ?_⟩, rfl, fun i => ?_⟩
  · simp [matrices]
    omega
  · simp [start]
    omega

/-- Observations around the mean of the state. -/
noncomputable def law : ∀ i, Derived Dist → List (Arr FVal) → Measure (X n i)
  | 0, _, _ => ((mcSampler (List.replicate (n + 1) G) γ).map (statesOf (n + 1) 0)).toMeasure
  | _ + 1, _, I :: _ => (Measure.pi fun k : Fin (entries [n + 1]) => gaussianReal (if toIndex (I.get (coord k)) = 0 then m 0 else m 1) 1 : Measure (Fin (entries [n + 1]) → ℝ))
  | _ + 1, _, [] => 0

noncomputable def ref : ∀ i, Measure (X n i)
  | 0 => (Measure.count : Measure (Fin (n + 1) → Fin 2))
  | _ + 1 => (Measure.pi fun _ => volume : Measure (Fin (entries [n + 1]) → ℝ))

noncomputable def z : RVDef (Derived Dist) := ⟨.base .markov, 2, ![.const (matrices n G), .const (start γ)]⟩

/-- The emission. -/
def emission : Derived Dist := .mixture [n + 1] [(.normal, 2), (.normal, 2)] [.adv (arange (n + 1))]

noncomputable def y : RVDef (Derived Dist) :=
  ⟨emission n, 5, ![.rv 0 (.base .markov) 2 (z n G γ).args, .const (scalar (m 0)), .const (scalar 1), .const (scalar (m 1)), .const (scalar 1)]⟩
noncomputable def model : List (ℕ × RVDef (Derived Dist)) := [(0, z n G γ), (1, y n G γ m)]

variable (empty : List ℕ → FVal)

noncomputable def K : Derived Dist → Arr FVal → List (Arr FVal) → Except Err (Arr FVal) := derivedKernel kernel cdf elem empty

theorem dens_unit (a : ℝ) : (fun x : ℝ => dens (normalLogprob (.fin x) (.fin a) (.fin 1))) = gaussianPDF a 1 := by
  funext x
  rw [normal_eval x a one_pos, dens_log (gaussianPDFReal_pos _ _ _ (toNNReal_sq_ne one_pos))]
  simp [gaussianPDF]

theorem state_index (x : Fin (n + 1) → Fin 2) {c : List ℕ} (hc : InRange c [n + 1]) : ∃ k : Fin 2, toIndex ((stateArr x).get c) = (k : ℕ) := by
  cases hc with
  | @cons i _ l _ hi hl =>
    cases hl
    refine ⟨x ⟨i, hi⟩, ?_⟩
    have : (stateArr x).get [i] = .fin ((x ⟨i, hi⟩ : ℕ) : ℝ) := dif_pos hi
    rw [this]
    exact Int.floor_natCast _

theorem emission_good (x : Fin (n + 1) → Fin 2) : GoodAt (numbers [n + 1]) (K empty (emission n)) (law n G γ m 1 (emission n) [stateArr x]) (ref n 1)
    [stateArr x, scalar (m 0), scalar 1, scalar (m 1), scalar 1] := by
  set cps : List (Dist × List (Arr FVal)) := [(.normal, [scalar (m 0), scalar 1]), (.normal, [scalar (m 1), scalar 1])] with hcps
  obtain ⟨R, hR, hRs, hRg⟩ := npSelect_adv (as := [(stateArr x).map toIndex, arange (n + 1)]) (sh := [2, n + 1]) (s := [n + 1]) (by simp) (by simp [Arr.map, stateArr, arange]) (by
    refine .cons (fun c hc => ?_) (.cons (fun c hc => ?_) .nil)
    · obtain ⟨k, hk⟩ := state_index n x hc
      show -((2 : ℕ) : ℤ) ≤ toIndex ((stateArr x).get c) ∧ toIndex ((stateArr x).get c) < (2 : ℕ)
      rw [hk]
      omega
    · cases hc with
      | cons h _ => simp only [arange, List.headD_cons]; omega)
  obtain ⟨sh, get⟩ := R
  simp only at hRs hRg
  subst hRs
  have hget : ∀ c, InRange c [n + 1] → ∃ k : Fin 2, toIndex ((stateArr x).get c) = (k : ℕ) ∧ get c = [(k : ℕ), c.headD 0] ∧ c = [c.headD 0] := fun c hc => by
    obtain ⟨k, hk⟩ := state_index n x hc
    refine ⟨k, hk, ?_, ?_⟩
    · rw [hRg c hc]
      have h1 : ((stateArr x).map toIndex).get c = (k : ℕ) := hk
      have h2 : (arange (n + 1)).get c = (c.headD 0 : ℕ) := rfl
      simp only [List.zipWith_cons_cons, List.zipWith_nil_left, h1, h2, wrap]
      rw [if_neg (by omega), if_neg (by omega)]
      simp
    · cases hc with
      | cons _ h => cases h; rfl
  have hinj : ∀ c c', InRange c [n + 1] → InRange c' [n + 1] → get c = get c' → c = c' := fun c c' hc hc' h => by
    obtain ⟨k, -, h2, h3⟩ := hget c hc
    obtain ⟨k', -, h2', h3'⟩ := hget c' hc'
    rw [h2, h2'] at h
    rw [h3, h3']
    simp only [List.cons.injEq, and_true] at h
    rw [h.2]
  set l : List ℕ → Measure ℝ := fun c => gaussianReal (if c.headD 0 = 0 then m 0 else m 1) 1 with hl
  have hc2 : cps.length = 2 := rfl
  have key : ∀ i (h : i < cps.length) (rs : List ℕ), ∃ a : ℝ, cps[i].1 = .normal ∧ paramsAt cps[i].2 rs = [.fin a, .fin 1] ∧ l (i :: rs) = gaussianReal a 1 := fun i h rs => by
    rw [hc2] at h
    match i, h with
    | 0, _ => exact ⟨m 0, rfl, rfl, by simp [hl]⟩
    | 1, _ => exact ⟨m 1, rfl, rfl, by simp [hl]⟩
  have main := C108_mixture kernel cdf elem empty (S := [n + 1]) (cps := cps) (by simp [hcps]) (law := l)
    (fun i h rs _ v => by
      obtain ⟨a, h1, h2, -⟩ := key i h rs
      rw [h1, h2]
      exact Walk.normal_total v a one_pos)
    (fun c _ => inferInstanceAs (IsProbabilityMeasure (gaussianReal _ _)))
    (fun i h rs _ => by
      obtain ⟨a, h1, h2, -⟩ := key i h rs
      rw [h1, h2]
      exact (dens_unit a) ▸ measurable_gaussianPDF a 1)
    (fun i h rs _ => by
      obtain ⟨a, h1, h2, h3⟩ := key i h rs
      rw [h1, h2, h3]
      show gaussianReal a 1 = volume.withDensity fun x => dens (normalLogprob (.fin x) (.fin a) (.fin 1))
      rw [dens_unit]
      exact gaussianReal_of_var_ne_zero _ one_ne_zero)
    (I := stateArr x) (fun c hc => by
      obtain ⟨k, hk⟩ := state_index n x hc
      rw [hk]
      omega) (rest := [.adv (arange (n + 1))]) ⟨arange (n + 1), by simp, by simp [arange]⟩ (by simp [Index.Ascending]) hR hinj
  have hlaw := select_law (s := cps.length :: [n + 1]) (R := ⟨[n + 1], get⟩) (law := l) (fun c _ => inferInstanceAs (IsProbabilityMeasure (gaussianReal _ _)))
    (fun c hc => select_inRange (by simp) (by simp [Index.Ascending]) hR hc) hinj
  rw [hlaw] at main
  have hfin : law n G γ m 1 (emission n) [stateArr x] = (Measure.pi fun j : Fin (entries [n + 1]) => l (get (coord j)) : Measure (Fin (entries [n + 1]) → ℝ)) := by
    show (Measure.pi fun k : Fin (entries [n + 1]) => gaussianReal (if toIndex ((stateArr x).get (coord k)) = 0 then m 0 else m 1) 1) = _
    congr 1
    funext k
    obtain ⟨i, h1, h2, -⟩ := hget _ (coord_inRange k)
    simp only [hl, h1, h2, List.headD_cons]
    norm_cast
  rw [hfin]
  exact main

theorem valid (ρ : ℕ → Arr FVal) (σ : ∀ i, X n i) : Valid (arr n) (K empty) (law n G γ m) (ref n) ρ (model n G γ m) σ := by
  have p0 : ∀ σ ρ, params σ ρ (z n G γ) = [matrices n G, start γ] := fun σ ρ => by simp [params, z, List.ofFn_succ, evalAt]
  refine ⟨?_, ae_of_all _ fun x => ⟨?_, ae_of_all _ fun _ => trivial⟩⟩
  · rw [p0]
    exact C41_model_partial G n γ 0 (holds n G γ).1 (holds n G γ).2
  · have p1 : params (asg (arr n) (Function.update σ 0 x)) ρ (y n G γ m) = [stateArr (T := n + 1) (M := 2) x, scalar (m 0), scalar 1, scalar (m 1), scalar 1] := by
      simp only [params, y, List.ofFn_succ, evalAt, asg]
      rfl
    rw [p1]
    exact emission_good n G γ m empty x

/-- Value variables `10` and `11`. -/
noncomputable def env (σ : ∀ i, X n i) (i : ℕ) : Arr FVal := if 10 ≤ i then arr n (i - 10) (σ (i - 10)) else ⟨[], fun _ => .nan⟩

/-- The joint density of states and observations. -/
example (ρ : ℕ → Arr FVal) (ω : ℕ → Derived Dist → List (Arr FVal) → Arr FVal) :
    ∃ j vvs, joint (Dict.get? (model n G γ m)) [1, 0] [11, 10] [] = .ok (some (j, vvs)) ∧
      (∀ x, x ∈ vvs ↔ ∃ v, v ∉ Dict.keys ([] : List (ℕ × ℕ)) ∧ Dict.get? (rvValues [1, 0] [11, 10] []) v = some x) ∧
      ∀ σ₀, ∀ φ, refE (ref n) (model n G γ m) σ₀ (fun σ => dens (evalJoint (K empty) (env n σ) ω j) * φ σ) = sampleE (arr n) (law n G γ m) ρ (model n G γ m) σ₀ φ := by
  obtain ⟨j, vvs, h1, h2, h3⟩ := C106_joint_density (arr n) (K empty) (law n G γ m) (ref n) ρ ω (l := model n G γ m) (rvs := [1, 0]) (clones := [11, 10]) (realized := [])
    (by simp [model]) (by simp [DependencyOrder, model, z, y, Mentions, Fin.forall_fin_succ]) (by simp [model, z, y, User, Fin.forall_fin_succ]) rfl
    (by intro v; simp [model, Dict.keys]; tauto) (by simp [model, z, y, Mentions, Fin.forall_fin_succ]) (env n)
    (by
      intro σ v x h
      have e : rvValues [1, 0] [11, 10] [] = [(1, 11), (0, 10)] := by decide
      rw [e] at h
      simp only [Dict.get?] at h
      split_ifs at h with h1 h2 <;> cases h <;> (subst_vars; rfl))
    (by
      intro σ p hp
      simp only [model, List.mem_cons, List.not_mem_nil, or_false] at hp
      rcases hp with rfl | rfl <;> simp [params, z, y, List.ofFn_succ, evalAt])
  exact ⟨j, vvs, h1, h2, fun σ₀ φ => h3 σ₀ (valid n G γ m empty ρ σ₀) φ⟩

end Verif.ArrGraph.Hmm
