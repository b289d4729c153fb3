import Verif.Props.VecLibrary
import Verif.Props.LibraryDefaultsArr

/-! # C136 with vectors, counts and categories -/

namespace Verif.Library
open Verif Cond FVal MeasureTheory ProbabilityTheory Set ArrGraph

/-- **C136** (one array of numbers, vectors, counts or categories) For every distribution that logprob.py implements, and parameters that are in range and fit the default transform (if it is asked for): the sum of the
log-probability array with Jacobian terms is the log-density of the transformed array. -/
theorem C136_vectors_partial {chol : (n : ℕ) → Matrix (Fin n) (Fin n) ℝ → Option (Matrix (Fin n) (Fin n) ℝ)} (hchol : ∀ n, CholContract (chol n)) {D : VLib} {L : Layout} {p : List (Arr FVal)} (h : D.Domain L p)
    (asked : Bool) (hf : asked = true → D.Fits L p) :
    GoodT L.arr (D.scale asked L).arr (D.kernel chol) (bif asked then D.default else none) (D.draw asked L p) univ (D.law L p) (D.scaleRef asked L) p := by
  have hplain := C107_plain (C134_vectors hchol h)
  match asked, D, L, p, h, hf, hplain with
  | false, .num d, .nums s, p, _, _, hplain => exact hplain
  | false, .mvnormal, .vecs b n, [mu, cov], _, _, hplain => exact hplain
  | false, .dirichlet, .vecs b n, [alpha], _, _, hplain => exact hplain
  | false, .multinomial, .ints b m, [N, P], _, _, hplain => exact hplain
  | false, .categorical, .cats s K, [w], _, _, hplain => exact hplain
  | true, .num d, .nums s, p, h, hf, hplain =>
    cases hd : d.default with
    | none =>
      have e1 : VLib.default (.num d) = none := by rw [VLib.default, Lib.defaultArr, hd]; rfl
      have e2 : VLib.draw true (.num d) (.nums s) p = fun x => x := by
        funext x k
        show onLine d.default _ _ = _
        rw [hd]; rfl
      rw [e2]
      simp only [cond_true, e1]
      exact hplain
    | some t =>
      have e1 : VLib.default (.num d) = some (entrywise t) := by rw [VLib.default, Lib.defaultArr, hd]; rfl
      have e2 : VLib.draw true (.num d) (.nums s) p = fun x k => realOf (.ok (t.forward (.fin (x k)) (paramsAt p (coord k)))) := by
        funext x k
        show onLine d.default _ _ = _
        rw [hd]; rfl
      have e3 : VLib.scaleRef true (.num d) (.nums s) = Measure.pi fun _ : Fin (entries s) => (volume : Measure ℝ) := by
        show (Measure.pi fun _ : Fin (entries s) => d.ref) = _
        rw [ref_float (default_float hd)]
      rw [e2, e3]
      simp only [cond_true, e1]
      exact C136_array_partial h.1 h.2 (hf rfl) hd
  | true, .mvnormal, .vecs b n, [mu, cov], _, _, hplain => exact hplain
  | true, .dirichlet, .vecs b 0, [alpha], h, _, _ => exact absurd h.1 (lt_irrefl 0)
  | true, .dirichlet, .vecs b (n + 1), [alpha], ⟨_, h2, h3, h4, h5⟩, _, _ => exact C107_simplex h2 h3 h4 h5
  | true, .multinomial, .ints b m, [N, P], _, _, hplain => exact hplain
  | true, .categorical, .cats s K, [w], _, _, hplain => exact hplain

section
variable {l₀ : List (ℕ × RVDef VLib)} {reqs : Dict ℕ (Option (TransVals.Req ATransform))} {tr : ℕ → Option ATransform} {asked : ℕ → Bool}

theorem tr_vec (hr : Requested reqs VLib.default l₀ tr) (hdef : ∀ v r, Dict.get? reqs v = some (some r) → r = .default) (hask : ∀ v, asked v = true ↔ Dict.get? reqs v = some (some .default)) {v : ℕ} {r : RVDef VLib}
    (hv : Dict.get? l₀ v = some r) : tr v = bif asked v then r.dist.default else none := by
  cases ha : asked v with
  | true =>
    refine Option.ext fun t => ?_
    rw [hr v t, (hask v).1 ha, hv]
    simp
  | false =>
    cases ht : tr v with
    | none => rfl
    | some t =>
      rcases (hr v t).1 ht with h' | ⟨h', -⟩
      · exact absurd (hdef _ _ h') (by simp)
      · rw [(hask v).2 h'] at ha; cases ha

theorem validVecDefaults_valid {chol : (n : ℕ) → Matrix (Fin n) (Fin n) ℝ → Option (Matrix (Fin n) (Fin n) ℝ)} (hchol : ∀ n, CholContract (chol n)) {lay : ℕ → Layout} {dist : ℕ → VLib} {ρ : ℕ → Arr FVal}
    (hr : Requested reqs VLib.default l₀ tr) (hdef : ∀ v r, Dict.get? reqs v = some (some r) → r = .default) (hask : ∀ v, asked v = true ↔ Dict.get? reqs v = some (some .default)) :
    ∀ {l : List (ℕ × RVDef VLib)} {σ : ∀ i, (lay i).Space}, (∀ q ∈ l, Dict.get? l₀ q.1 = some q.2) → (∀ q ∈ l, dist q.1 = q.2.dist) → ValidVecDefaults asked lay ρ l σ →
      ValidT (fun i => (lay i).arr) (fun i => ((dist i).scale (asked i) (lay i)).arr) (VLib.kernel chol) tr (fun i _ p => (dist i).draw (asked i) (lay i) p) (fun _ _ _ => univ) (fun i d => d.law (lay i))
        (fun i => (dist i).scaleRef (asked i) (lay i)) ρ l σ
  | [], _, _, _, _ => trivial
  | (id, r) :: l, σ, hl, hd, ⟨h1, h2, h3⟩ => by
    have hdi : dist id = r.dist := hd _ List.mem_cons_self
    refine ⟨?_, ?_⟩
    · have := C136_vectors_partial hchol h1 (asked id) h2
      rw [← tr_vec hr hdef hask (hl _ List.mem_cons_self)] at this
      rw [← hdi] at this ⊢
      exact this
    · filter_upwards [vec_supp h1] with x hx
      exact validVecDefaults_valid hchol hr hdef hask (fun q hq => hl q (List.mem_cons_of_mem _ hq)) (fun q hq => hd q (List.mem_cons_of_mem _ hq)) (h3 x hx)

/-- **C136** (joint densities with vectors, counts and categories) Ask for the default transform of any of the variables of a model with arrays of all the distributions that logprob.py implements.  As long as parameters are in range and
default transforms fit, the exponential of `joint_logprob` is the joint density of the transformed variables: with respect to Lebesgue measure on all real arrays for the continuous ones (Dirichlet vectors with one number less),
counting for the discrete ones.  Missing: as in `C136_joint_density_partial`. -/
theorem C136_vectors_joint_density_partial {chol : (n : ℕ) → Matrix (Fin n) (Fin n) ℝ → Option (Matrix (Fin n) (Fin n) ℝ)} (hchol : ∀ n, CholContract (chol n)) (lay : ℕ → Layout) {dist : ℕ → VLib} (ρ : ℕ → Arr FVal)
    (ω : ℕ → VLib → List (Arr FVal) → Arr FVal) {l : List (ℕ × RVDef VLib)} (hdist : ∀ p ∈ l, dist p.1 = p.2.dist) {rvs clones : List ℕ} {realized : Dict ℕ ℕ} {tv : ℕ → ℕ} {order : List ℕ}
    (hs : Setting l rvs clones realized reqs VLib.default tr tv order)
    (hfirst : ∀ v, (tr v).isSome → ¬ ChildFirst l (Dict.keys (rvValues rvs clones realized)) v) (hdef : ∀ v r, Dict.get? reqs v = some (some r) → r = .default) (hask : ∀ v, asked v = true ↔ Dict.get? reqs v = some (some .default))
    (env : (∀ i, ((dist i).scale (asked i) (lay i)).Space) → ℕ → Arr FVal)
    (henv : ∀ τ, ArrGraph.Env l (rvValues rvs clones realized) tr tv (fun i => ((dist i).scale (asked i) (lay i)).arr) ρ τ (env τ)) :
    ∃ j, jointT (Dict.get? l) reqs VLib.default tv order rvs clones realized =
        .ok (some (j, ((firstOcc rvs).filter (· ∉ Dict.keys realized)).map fun v => if (tr v).isSome then tv v else (Dict.get? (rvValues rvs clones realized) v).getD 0)) ∧
      ∀ (σ₀ : ∀ i, (lay i).Space) (τ₀ : ∀ i, ((dist i).scale (asked i) (lay i)).Space), ValidVecDefaults asked lay ρ l σ₀ → ∀ ψ : (∀ i, ((dist i).scale (asked i) (lay i)).Space) → ENNReal,
        refE (fun i => (dist i).scaleRef (asked i) (lay i)) l τ₀ (fun τ => dens (evalJointT (VLib.kernel chol) true (env τ) ω j) * ψ τ) =
          sampleE (fun i => (lay i).arr) (fun i d => d.law (lay i)) ρ l σ₀ fun σ => ψ (scaled (fun i => (lay i).arr) (fun i _ p => (dist i).draw (asked i) (lay i) p) ρ l τ₀ σ) := by
  obtain ⟨j, h1, h2⟩ := C107_joint_density_partial (fun i => (lay i).arr) (fun i => ((dist i).scale (asked i) (lay i)).arr) (VLib.kernel chol) (fun i _ p => (dist i).draw (asked i) (lay i) p) (fun _ _ _ => univ)
    (fun i d => d.law (lay i)) (fun i => (dist i).scaleRef (asked i) (lay i)) ρ ω hs hfirst env henv
  refine ⟨j, h1, fun σ₀ τ₀ hv ψ => ?_⟩
  have e : ∀ (l : List (ℕ × RVDef VLib)) A τ φ, refT tr (fun i => ((dist i).scale (asked i) (lay i)).arr) (fun _ _ _ => univ) (fun i => (dist i).scaleRef (asked i) (lay i)) ρ l A τ φ =
      refE (fun i => (dist i).scaleRef (asked i) (lay i)) l τ φ := by
    intro l
    induction l with
    | nil => intros; rfl
    | cons q l ih => intro A τ φ; rw [refT, refE]; simp only [ih, Measure.restrict_univ]
  rw [← e l (asg (fun i => (lay i).arr) σ₀)]
  exact h2 σ₀ τ₀ (validVecDefaults_valid hchol hs.requested hdef hask (fun q hq => Dict.get?_of_mem hs.ordered.nodup hq) hdist hv) ψ

end

end Verif.Library
