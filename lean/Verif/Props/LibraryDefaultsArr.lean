import Verif.Props.LibraryDefaults
import Verif.Props.Library
import Verif.Props.ArrTransformGood

/-! # C136 for arrays -/

namespace Verif.Library
open Verif Cond FVal MeasureTheory ProbabilityTheory Set ArrGraph

theorem arrayRef_float {shape : ℕ → List ℕ} {kinds : ℕ → Full.Kind} {i : ℕ} {d : Lib} (h : d.kind = .float) (hk : kinds i = d.kind) : arrayRef shape kinds i = Measure.pi fun _ => volume := by
  have := ref_float h
  rw [Lib.ref, ← hk] at this
  rw [arrayRef, this]

theorem default_float {d : Lib} {t : IR.VTransform} (ht : d.default = some t) : d.kind = .float := by
  have : d.transDist ≠ none := fun h => by rw [Lib.default, h] at ht; cases ht
  cases d <;> first | rfl | exact absurd rfl this

/-- **C136** (one array) For every distribution of the library with a default transform, arrays of any shape, and parameters that fit at every entry: the sum of the log-probability array with Jacobian terms is the
log-density of the transformed array, over all arrays of real numbers. -/
theorem C136_array_partial {d : Lib} {s : List ℕ} {p : List (Arr FVal)} (hfit : Fit s p) (h : ∀ k : Fin (entries s), d.Domain (paramsAt p (coord k))) (hf : ∀ k : Fin (entries s), d.Fits (paramsAt p (coord k)))
    {t : IR.VTransform} (ht : d.default = some t) :
    GoodT (numbers s) (numbers s) (elemwiseLogprob d.logprob) (some (entrywise t)) (fun x k => realOf (.ok (t.forward (.fin (x k)) (paramsAt p (coord k))))) univ
      (Measure.pi fun k : Fin (entries s) => d.law (paramsAt p (coord k))) (Measure.pi fun _ => volume) p := by
  have hg := C134_arrays hfit h
  rw [ref_float (default_float ht)] at hg
  have hp : ∀ k : Fin (entries s), IsProbabilityMeasure (d.law (paramsAt p (coord k))) := fun k => (all_described (h k)).1.good.prob
  have hs : ∀ᵐ x ∂(Measure.pi fun k : Fin (entries s) => d.law (paramsAt p (coord k))), x ∈ univ.pi fun k => d.supp (paramsAt p (coord k)) := by
    have : ∀ᵐ x ∂(Measure.pi fun k : Fin (entries s) => d.law (paramsAt p (coord k))), ∀ k, x k ∈ d.supp (paramsAt p (coord k)) :=
      ae_all_iff.2 fun k => (Measure.quasiMeasurePreserving_eval _ k).ae (law_supp (h k))
    filter_upwards [this] with x hx using fun k _ => hx k
  have := C107_entrywise hg (fun x out => Schools.elemwise_shape hfit x out) hfit (t := t) (D := fun k => d.supp (paramsAt p (coord k))) (R := fun _ => univ) hs
    (fun k => (C136_transforms_partial (h k) (hf k) ht).2.1) (fun k => (C136_transforms_partial (h k) (hf k) ht).2.2) fun _ => MeasurableSet.univ
  rw [pi_univ] at this
  exact this

section
variable {l₀ : List (ℕ × RVDef Lib)} {reqs : Dict ℕ (Option (TransVals.Req ATransform))} {tr : ℕ → Option ATransform}

theorem tr_eq (hr : Requested reqs Lib.defaultArr l₀ tr) (hdef : ∀ v r, Dict.get? reqs v = some (some r) → r = .default) {v : ℕ} {r : RVDef Lib} (hv : Dict.get? l₀ v = some r) :
    (Dict.get? reqs v = some (some .default) → tr v = r.dist.defaultArr) ∧ (Dict.get? reqs v ≠ some (some .default) → tr v = none) := by
  constructor
  · intro h
    refine Option.ext fun t => ?_
    rw [hr v t, h, hv]
    simp
  · intro h
    cases ht : tr v with
    | none => rfl
    | some t =>
      rcases (hr v t).1 ht with h' | ⟨h', -⟩
      · exact absurd (hdef _ _ h') (by simp)
      · exact absurd h' h

theorem validArrayDefaults_valid {shape : ℕ → List ℕ} {kinds : ℕ → Full.Kind} {ρ : ℕ → Arr FVal} (hr : Requested reqs Lib.defaultArr l₀ tr) (hdef : ∀ v r, Dict.get? reqs v = some (some r) → r = .default) :
    ∀ {l : List (ℕ × RVDef Lib)} {σ : ∀ i, Fin (entries (shape i)) → ℝ}, (∀ q ∈ l, Dict.get? l₀ q.1 = some q.2) → (∀ q ∈ l, kinds q.1 = q.2.dist.kind) →
      ValidArrayDefaults (fun v => Dict.get? reqs v = some (some .default)) shape ρ l σ →
      ValidT (fun i => numbers (shape i)) (fun i => numbers (shape i)) (fun d => elemwiseLogprob d.logprob) tr (lineDraw (fun v => Dict.get? reqs v = some (some .default)) Lib.default shape) (fun _ _ _ => univ)
        (arrayLaw shape) (arrayRef shape kinds) ρ l σ
  | [], _, _, _, _ => trivial
  | (id, r) :: l, σ, hl, hk, ⟨h1, h2, h3, h4⟩ => by
    have hki : kinds id = r.dist.kind := hk _ List.mem_cons_self
    obtain ⟨t1, t2⟩ := tr_eq hr hdef (hl _ List.mem_cons_self)
    simp only at t1 t2
    set P := params (asg (fun i => numbers (shape i)) σ) ρ r with hP
    have hp : ∀ k : Fin (entries (shape id)), IsProbabilityMeasure (r.dist.law (paramsAt P (coord k))) := fun k => (all_described (h2 k)).1.good.prob
    have hplain : GoodT (numbers (shape id)) (numbers (shape id)) (elemwiseLogprob r.dist.logprob) none (fun x => x) univ (arrayLaw shape id r.dist P) (arrayRef shape kinds id) P := by
      have := C134_arrays h1 h2
      rw [Lib.ref, ← hki] at this
      exact C107_plain this
    refine ⟨?_, ?_⟩
    · by_cases ha : Dict.get? reqs id = some (some .default)
      · rw [t1 ha]
        cases hd : r.dist.default with
        | none =>
          have e1 : r.dist.defaultArr = none := by rw [Lib.defaultArr, hd]; rfl
          have e2 : lineDraw (fun v => Dict.get? reqs v = some (some .default)) Lib.default shape id r.dist P = fun x => x := by
            funext x k
            simp only [lineDraw, ha, if_true, hd, onLine]
          rw [e1, e2]
          exact hplain
        | some t =>
          have e1 : r.dist.defaultArr = some (entrywise t) := by rw [Lib.defaultArr, hd]; rfl
          have e2 : lineDraw (fun v => Dict.get? reqs v = some (some .default)) Lib.default shape id r.dist P = fun x k => realOf (.ok (t.forward (.fin (x k)) (paramsAt P (coord k)))) := by
            funext x k
            simp only [lineDraw, ha, if_true, hd, onLine]
          rw [e1, e2, arrayRef_float (default_float hd) hki]
          exact C136_array_partial h1 h2 (h3 ha) hd
      · have e2 : lineDraw (fun v => Dict.get? reqs v = some (some .default)) Lib.default shape id r.dist P = fun x => x := by
          funext x k
          simp only [lineDraw, ha, if_false]
        rw [t2 ha, e2]
        exact hplain
    · have : ∀ᵐ x ∂(arrayLaw shape id r.dist P), ∀ k, x k ∈ r.dist.supp (paramsAt P (coord k)) :=
        ae_all_iff.2 fun k => (Measure.quasiMeasurePreserving_eval _ k).ae (law_supp (h2 k))
      filter_upwards [this] with x hx
      exact validArrayDefaults_valid hr hdef (fun q hq => hl q (List.mem_cons_of_mem _ hq)) (fun q hq => hk q (List.mem_cons_of_mem _ hq)) (h4 x hx)

/-- **C136** (joint densities of arrays) Ask for the default transform of any of the variables of a model with arrays of the library's distributions.  As long as parameters are in range and default transforms fit at every entry,
the exponential of `joint_logprob` is the joint density of the transformed arrays, over all arrays of real numbers (counts for discrete variables).  Missing: as in `C136_joint_density_partial`. -/
theorem C136_arrays_joint_density_partial (shape : ℕ → List ℕ) {kinds : ℕ → Full.Kind} (ρ : ℕ → Arr FVal) (ω : ℕ → Lib → List (Arr FVal) → Arr FVal) {l : List (ℕ × RVDef Lib)} (hkind : ∀ p ∈ l, kinds p.1 = p.2.dist.kind)
    {rvs clones : List ℕ} {realized : Dict ℕ ℕ} {tv : ℕ → ℕ} {order : List ℕ} (hs : Setting l rvs clones realized reqs Lib.defaultArr tr tv order)
    (hfirst : ∀ v, (tr v).isSome → ¬ ChildFirst l (Dict.keys (rvValues rvs clones realized)) v) (hdef : ∀ v r, Dict.get? reqs v = some (some r) → r = .default)
    (env : (∀ i, Fin (entries (shape i)) → ℝ) → ℕ → Arr FVal) (henv : ∀ τ, ArrGraph.Env l (rvValues rvs clones realized) tr tv (fun i => numbers (shape i)) ρ τ (env τ)) :
    ∃ j, jointT (Dict.get? l) reqs Lib.defaultArr tv order rvs clones realized =
        .ok (some (j, ((firstOcc rvs).filter (· ∉ Dict.keys realized)).map fun v => if (tr v).isSome then tv v else (Dict.get? (rvValues rvs clones realized) v).getD 0)) ∧
      ∀ σ₀ τ₀ : ∀ i, Fin (entries (shape i)) → ℝ, ValidArrayDefaults (fun v => Dict.get? reqs v = some (some .default)) shape ρ l σ₀ → ∀ ψ : (∀ i, Fin (entries (shape i)) → ℝ) → ENNReal,
        refE (arrayRef shape kinds) l τ₀ (fun τ => dens (evalJointT (fun d : Lib => elemwiseLogprob d.logprob) true (env τ) ω j) * ψ τ) =
          sampleE (fun i => numbers (shape i)) (arrayLaw shape) ρ l σ₀ fun σ =>
            ψ (scaled (fun i => numbers (shape i)) (lineDraw (fun v => Dict.get? reqs v = some (some .default)) Lib.default shape) ρ l τ₀ σ) := by
  obtain ⟨j, h1, h2⟩ := C107_joint_density_partial (fun i => numbers (shape i)) (fun i => numbers (shape i)) (fun d : Lib => elemwiseLogprob d.logprob)
    (lineDraw (fun v => Dict.get? reqs v = some (some .default)) Lib.default shape) (fun _ _ _ => univ) (arrayLaw shape) (arrayRef shape kinds) ρ ω hs hfirst env henv
  refine ⟨j, h1, fun σ₀ τ₀ hv ψ => ?_⟩
  have e : ∀ (l : List (ℕ × RVDef Lib)) A τ φ, refT tr (fun i => numbers (shape i)) (fun _ _ _ => univ) (arrayRef shape kinds) ρ l A τ φ = refE (arrayRef shape kinds) l τ φ := by
    intro l
    induction l with
    | nil => intros; rfl
    | cons q l ih => intro A τ φ; rw [refT, refE]; simp only [ih, Measure.restrict_univ]
  rw [← e l (asg (fun i => numbers (shape i)) σ₀)]
  exact h2 σ₀ τ₀ (validArrayDefaults_valid hs.requested hdef (fun q hq => Dict.get?_of_mem hs.ordered.nodup hq) hkind hv) ψ

end

end Verif.Library
