import Verif.Props.ArrDerivedDemo
import Verif.Props.ArrTransformGood

/-! # C112: derived array variables on transformed scales -/

namespace Verif.ArrGraph
open Verif Cond MeasureTheory Set

/-- A law given by a joint density has its entries in the sets `D`, with probability one. -/
theorem JointDensity.ae_mem {s : List ℕ} {lp : Arr FVal → Except Err (Arr FVal)} {D : List ℕ → Set ℝ} {law : Measure (Fin (entries s) → ℝ)} (h : JointDensity s lp D law) :
    ∀ᵐ x ∂law, x ∈ univ.pi fun k : Fin (entries s) => D (coord k) := by
  obtain ⟨C, hC, hz⟩ := h.zero
  have hnull : ∀ᵐ x : Fin (entries s) → ℝ, ∀ k, x k ∉ C (coord k) := by
    rw [ae_all_iff]
    intro k
    have := (Measure.quasiMeasurePreserving_eval (fun _ : Fin (entries s) => (volume : Measure ℝ)) k).ae (p := fun y => y ∉ C (coord k))
      (measure_eq_zero_iff_ae_notMem.1 ((hC _).measure_zero _))
    exact this
  rw [h.dens, ae_withDensity_iff' h.meas]
  filter_upwards [hnull] with x hx hd k _
  by_contra hk
  refine hd (hz (numbers s x) rfl ⟨coord k, coord_inRange k, fun r hr he => ?_⟩)
  rw [numbers_get, FVal.fin.injEq] at he
  subst he
  rcases hr with hr | hr
  · exact hk hr
  · exact hx k hr

/-- **C112** For a derived variable of any shape (a tower of elementwise functions, on top of cumulative sums too, see C108) with a density, and an elementwise transform that is invertible on its values, with the right
Jacobian term: the log-probability with the Jacobian term is the log-density of the variable on the transformed scale.  The conclusion is the hypothesis about a variable in `C107_joint_density_partial`. -/
theorem C112_transformed {s : List ℕ} {kernel : Arr FVal → List (Arr FVal) → Except Err (Arr FVal)} {p : List (Arr FVal)} {D : List ℕ → Set ℝ} {law : Measure (Fin (entries s) → ℝ)}
    (h : JointDensity s (fun x => kernel x p) D law) {t : IR.VTransform} {R : Fin (entries s) → Set ℝ} (hinv : ∀ k : Fin (entries s), Inverts (t.at []) (D (coord k)) (R k))
    (hjac : ∀ k, LogJac (t.at []) (R k)) (hR : ∀ k, MeasurableSet (R k)) :
    GoodT (numbers s) (numbers s) kernel (some (unaware t)) (fun x k => realOf (.ok (t.forward (.fin (x k)) []))) (univ.pi R) law (Measure.pi fun _ => volume) p := by
  set kernel' : Arr FVal → List (Arr FVal) → Except Err (Arr FVal) := fun a _ => kernel a p with hk'
  have h1 : GoodAt (numbers s) kernel' law (Measure.pi fun _ => volume) [] := ⟨h.goodAt.prob, h.goodAt.meas, h.goodAt.dens⟩
  have hfit : Fit s [] := bshape_replicate (by simp) (by simp)
  have h2 := C107_entrywise (kernel := kernel') (p := []) h1 (fun x out hk => by
    obtain ⟨a, b, e1, -, e2, -⟩ := h.out (numbers s x) (numbers s x) rfl ⟨rfl, fun _ _ => rfl⟩
    have hk : kernel (numbers s x) p = .ok out := hk
    rw [show kernel (numbers s x) p = .ok a from e1] at hk
    cases hk
    exact e2) hfit (t := t) (D := fun k => D (coord k)) (R := R) h.ae_mem hinv hjac hR
  exact ⟨h2.prob, h2.forward, h2.backward, h2.meas, h2.dens⟩

/-! The model of `Walk`, with the scale `τ` on the scale of its logarithm, its default, and the geometric random walk `v` on that of its logarithm too, on request. -/

namespace Walk
open Schools (logV Dist)

noncomputable def registered : Derived Dist → Option ATransform
  | .base .exponential => some (entrywise logV)
  | _ => none

noncomputable def tr (i : ℕ) : Option ATransform := if i = 0 then some (entrywise logV) else if i = 1 then some (unaware logV) else none

noncomputable def reqs : Dict ℕ (Option (TransVals.Req ATransform)) := [(1, some (.transform (unaware logV))), (0, some .default), (2, some .default)]

variable (T : ℕ)

noncomputable def fwd (i : ℕ) (_ : Derived Dist) (_ : List (Arr FVal)) (x : Fin (entries (shape T i)) → ℝ) (k : Fin (entries (shape T i))) : ℝ :=
  if i = 2 then x k else realOf (.ok (logV.forward (.fin (x k)) []))

theorem values_eq : rvValues [1, 0] [11, 10] [(2, 12)] = [(1, 11), (0, 10), (2, 12)] := by decide

theorem setting : Setting model [1, 0] [11, 10] [(2, 12)] reqs registered tr (fun v => v + 20) [2, 0, 1] where
  ne := by simp [model]
  ordered := by simp [DependencyOrder, model, tau, v, w, Mentions, Fin.forall_fin_succ]
  user := by simp [model, tau, v, w, User, Fin.forall_fin_succ]
  closed := by simp [model, tau, v, w, Mentions, Fin.forall_fin_succ]
  length := rfl
  mem i := by simp [model, Dict.keys]; tauto
  requested i t := by
    by_cases h0 : i = 0
    · subst h0; simp [tr, reqs, Dict.get?, model, tau, registered, eq_comm]
    · by_cases h1 : i = 1
      · subst h1; simp [tr, reqs, Dict.get?, eq_comm]
      · by_cases h2 : i = 2
        · subst h2; simp [tr, reqs, Dict.get?, model, w, registered]
        · simp [tr, reqs, Dict.get?, h0, h1, Ne.symm h0, Ne.symm h1, Ne.symm h2]
  keys i hi := by simp [reqs, Dict.keys] at hi; simp [model]; tauto
  inj i j y h1 h2 := by
    rw [values_eq] at h1 h2
    simp only [Dict.get?] at h1 h2
    split_ifs at h1 h2 <;> simp only [Option.some.injEq] at h1 h2 <;> omega
  fresh i j y hv h := by
    rw [values_eq] at h
    simp only [Dict.get?] at h
    split_ifs at h <;> (cases h; omega)
  order := by
    show [2, 0, 1].Perm [0, 1, 2]
    decide

theorem first_ok (i : ℕ) (hi : (tr i).isSome) : ¬ ChildFirst model (Dict.keys (rvValues [1, 0] [11, 10] [(2, 12)])) i := by
  have : i = 0 ∨ i = 1 := by
    by_contra h
    push Not at h
    simp [tr, h.1, h.2] at hi
  rw [values_eq]
  rcases this with rfl | rfl
  · rintro ⟨⟨u, r, hr, i, hi⟩, -⟩
    simp [model, Dict.get?] at hr
    subst hr
    revert hi; revert i; simp [tau, Mentions]
  · rintro ⟨-, p, q, x, h, hx, -⟩
    cases p with
    | nil => simp at hx
    | cons a p =>
      have h2 := (List.cons.inj h).2
      have : (1 : ℕ) ∈ [0, 2] := by
        show 1 ∈ Dict.keys [(0, 10), (2, 12)]
        rw [show Dict.keys [(0, 10), (2, 12)] = p ++ 1 :: q from h2]
        simp
      simp at this

/-- Value variable `12` and, for the logarithms, `20` and `21`. -/
noncomputable def envT (σ : ∀ i, Fin (entries (shape T i)) → ℝ) (i : ℕ) : Arr FVal :=
  if 20 ≤ i then numbers (shape T (i - 20)) (σ (i - 20)) else numbers (shape T 2) (σ 2)

theorem env_ok (ρ : ℕ → Arr FVal) (σ : ∀ i, Fin (entries (shape T i)) → ℝ) :
    ArrGraph.Env model (rvValues [1, 0] [11, 10] [(2, 12)]) tr (fun v => v + 20) (fun i => numbers (shape T i)) ρ σ (envT T σ) := by
  refine ⟨fun i y h hn => ?_, fun i hi hn => ?_, fun p hp i k hk => ?_⟩
  · rw [values_eq] at h
    simp only [Dict.get?] at h
    split_ifs at h with h1 h2 h3
    · subst h1; simp [tr] at hn
    · subst h2; simp [tr] at hn
    · cases h; subst h3; rfl
  · have : i = 0 ∨ i = 1 := by
      by_contra h
      push Not at h
      simp [tr, h.1, h.2] at hn
    rcases this with rfl | rfl <;> rfl
  · exfalso
    simp only [model, List.mem_cons, List.not_mem_nil, or_false] at hp
    rcases hp with rfl | rfl | rfl
    · revert hk; revert i; simp [tau, UsesInput]
    · revert hk; revert i; simp [v, UsesInput, Fin.forall_fin_two]
    · revert hk; revert i; simp [w, UsesInput, Fin.forall_fin_succ]

variable (empty : List ℕ → FVal)

theorem validT (ρ : ℕ → Arr FVal) (σ : ∀ i, Fin (entries (shape T i)) → ℝ) :
    ValidT (fun i => numbers (shape T i)) (fun i => numbers (shape T i)) (K empty) tr (fwd T) (fun _ _ _ => univ) (law T) (ref T) ρ model σ := by
  have p0 : ∀ σ ρ, params σ ρ tau = [Schools.scalar 5] := fun σ ρ => by simp [params, tau, List.ofFn_succ, evalAt]
  obtain ⟨v0, h0⟩ := valid T empty ρ σ
  rw [p0] at v0 h0
  have e0 : JointDensity [] (fun x => K empty (.base .exponential) x [Schools.scalar 5]) (fun _ => Ioi 0) (law T 0 (.base .exponential) [Schools.scalar 5]) :=
    (exp_entries (s := []) (a := Schools.scalar 5) (bshape_nil_right _) fun c _ => ⟨5, by norm_num, rfl⟩).joint
  have hpos : ∀ᵐ x ∂(law T 0 (.base .exponential) [Schools.scalar 5]), 0 < x (⟨0, one_pos⟩ : Fin 1) := by
    filter_upwards [e0.ae_mem] with x hx
    exact hx ⟨0, one_pos⟩ trivial
  refine ⟨?_, ?_⟩
  · rw [p0]
    have hfit : Fit [] [Schools.scalar 5] := bshape_nil_right []
    have hK : ∀ x : Fin (entries []) → ℝ, K empty (.base .exponential) (numbers [] x) [Schools.scalar 5] = elemwiseLogprob Schools.expK (numbers [] x) [Schools.scalar 5] := fun x => by
      rw [K, derivedKernel]; rfl
    have h1 := C107_entrywise (s := []) (kernel := K empty (.base .exponential)) (p := [Schools.scalar 5]) e0.goodAt
      (fun x out h => Schools.elemwise_shape hfit x out (hK x ▸ h)) hfit (t := logV) (D := fun _ => Ioi 0) (R := fun _ => univ) e0.ae_mem
      (fun k => Schools.log_inverts _) (fun k => Schools.log_jac _) fun k => MeasurableSet.univ
    rw [pi_univ] at h1
    exact h1
  rw [p0]
  filter_upwards [h0, hpos] with x0 h0 hx0
  have p1 : params (asg (fun i => numbers (shape T i)) (Function.update σ 0 x0)) ρ v = [Schools.scalar 0, numbers [] x0] := by
    simp only [params, v, List.ofFn_succ, evalAt, asg]
    rfl
  obtain ⟨v1, h1⟩ := h0
  refine ⟨?_, ?_⟩
  · rw [p1]
    have hw := walk_good T empty hx0 (b := numbers [] x0) rfl fun c => Schools.scalar_entry x0 c
    have h2 := C112_transformed hw (t := logV) (R := fun _ => univ) (fun k => by
      have : ArrTransform.fn [] .exp '' univ = Ioi 0 := by
        ext y
        simp only [ArrTransform.fn, mem_image, mem_univ, true_and, mem_Ioi]
        exact ⟨by rintro ⟨x, rfl⟩; exact Real.exp_pos x, fun h => ⟨Real.log y, Real.exp_log h⟩⟩
      rw [this]
      exact Schools.log_inverts _) (fun k => Schools.log_jac _) fun k => MeasurableSet.univ
    rw [pi_univ] at h2
    exact h2
  · filter_upwards [h1] with x1 h1
    refine ⟨?_, ae_of_all _ fun _ => trivial⟩
    exact C107_plain h1.1

/-- All the hypotheses of `C107_joint_density_partial` hold, for series of any length. -/
example (ρ : ℕ → Arr FVal) (ω : ℕ → Derived Dist → List (Arr FVal) → Arr FVal) :
    ∃ j, jointT (Dict.get? model) reqs registered (fun v => v + 20) [2, 0, 1] [1, 0] [11, 10] [(2, 12)] = .ok (some (j, [21, 20])) ∧
      ∀ (σ₀ τ₀ : ∀ i, Fin (entries (shape T i)) → ℝ) (ψ : (∀ i, Fin (entries (shape T i)) → ℝ) → ENNReal),
        refT tr (fun i => numbers (shape T i)) (fun _ _ _ => univ) (ref T) ρ model (asg (fun i => numbers (shape T i)) σ₀) τ₀
          (fun τ => dens (evalJointT (K empty) true (envT T τ) ω j) * ψ τ) =
          sampleE (fun i => numbers (shape T i)) (law T) ρ model σ₀ fun σ => ψ (scaled (fun i => numbers (shape T i)) (fwd T) ρ model τ₀ σ) := by
  obtain ⟨j, h1, h2⟩ := C107_joint_density_partial (fun i => numbers (shape T i)) (fun i => numbers (shape T i)) (K empty) (fwd T) (fun _ _ _ => univ) (law T) (ref T) ρ ω setting first_ok (envT T) (env_ok T ρ)
  refine ⟨j, ?_, fun σ₀ τ₀ => h2 σ₀ τ₀ (validT T empty ρ σ₀)⟩
  rw [h1, values_eq]
  simp [tr, firstOcc, Dict.keys, Dict.get?]

end Walk

end Verif.ArrGraph
