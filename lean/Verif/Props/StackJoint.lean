import Verif.Props.Stack
import Verif.Props.Repeated
import Verif.Lemmas.ProdDensity
import Mathlib.Probability.Distributions.Gaussian.Real
import Mathlib.Probability.Moments.Covariance

/-! # C91: stacks of dependent variables -/

namespace Verif
open MeasureTheory ProbabilityTheory Set

/-- The numbers of a vector as a list. -/
def valueList {n : ℕ} (z : Fin n → ℝ) : List FVal := List.ofFn fun i => .fin (z i)

/-- The base variables: for each a log-probability that never raises, given the draws of other variables. -/
noncomputable def baseVars {n : ℕ} (g : Fin n → (ℕ → ℝ) → FVal → FVal) : List ((ℕ → ℝ) → FVal → Except Err FVal) := List.ofFn fun i ρ v => .ok (g i ρ v)

theorem stackJoint_dens {n : ℕ} (g : Fin n → (ℕ → ℝ) → FVal → FVal) (ρ : ℕ → ℝ) (z : Fin n → ℝ) :
    stackJoint (baseVars g) ρ (valueList z) = .ok (fsum (List.ofFn fun i => g i ρ (.fin (z i)))) := by
  have e : ((baseVars g).map fun lp => lp ρ) = List.ofFn fun i v => .ok (g i ρ v) := by
    rw [baseVars, List.map_ofFn]; rfl
  have h := ((C67_stack (List.ofFn fun i v => Except.ok (ε := Err) (g i ρ v)) (valueList z) (by simp [valueList])).1 (List.ofFn fun i => g i ρ (.fin (z i)))).2
    ⟨by simp, fun k h1 h2 h3 => by simp only [valueList, List.getElem_ofFn]⟩
  simp only [stackJoint, e, h, bind, Except.bind, pure, Except.pure]

theorem stackJoint_prod {n : ℕ} (g : Fin n → (ℕ → ℝ) → FVal → FVal) (ρ : ℕ → ℝ) (z : Fin n → ℝ) :
    dens (stackJoint (baseVars g) ρ (valueList z)) = ∏ i, (g i ρ (.fin (z i))).toDens := by
  rw [stackJoint_dens, dens, toDens_fsum, List.map_ofFn, List.prod_ofFn]
  rfl

/-- **C91** (independent variables) `at.stack([X₁, .., Xₙ])` for independent random numbers with the given densities, any number of them: `exp` of the joint log-probability is the joint
density of the vector.  Missing: dependent variables, for which it is false (`C91_only_independent`, `C91_same_twice_wrong`). -/
theorem C91_independent_partial {Ω : Type*} [MeasurableSpace Ω] {P : Measure Ω} [IsProbabilityMeasure P] {n : ℕ} {X : Fin n → Ω → ℝ} (hX : ∀ i, Measurable (X i)) (hind : iIndepFun X P)
    {g : Fin n → (ℕ → ℝ) → FVal → FVal} (ρ : ℕ → ℝ) (hg : ∀ i, Measurable fun x : ℝ => (g i ρ (.fin x)).toDens)
    (hlaw : ∀ i, P.map (X i) = volume.withDensity fun x => (g i ρ (.fin x)).toDens) :
    P.map (fun ω i => X i ω) = volume.withDensity fun z => dens (stackJoint (baseVars g) ρ (valueList z)) := by
  simp only [stackJoint_prod]
  have hs : ∀ i, SigmaFinite ((volume : Measure ℝ).withDensity fun x => (g i ρ (.fin x)).toDens) := fun i => by
    rw [← hlaw i]
    have := Measure.isProbabilityMeasure_map (μ := P) (hX i).aemeasurable
    infer_instance
  rw [(iIndepFun_iff_map_fun_eq_pi_map fun i => (hX i).aemeasurable).1 hind, ← pi_withDensity hg]
  congr 1
  funext i
  exact hlaw i

/-- **C91** is false for all dependent variables: if `exp` of the joint log-probability of a stack, for whatever values are drawn for the random variables in the parameters, is a density of
the stacked variables, then these variables are independent. -/
theorem C91_only_independent {Ω : Type*} [MeasurableSpace Ω] {P : Measure Ω} [IsProbabilityMeasure P] {n : ℕ} {X : Fin n → Ω → ℝ} (hX : ∀ i, Measurable (X i))
    {g : Fin n → (ℕ → ℝ) → FVal → FVal} (ρ : ℕ → ℝ) (hg : ∀ i, Measurable fun x : ℝ => (g i ρ (.fin x)).toDens)
    (h : P.map (fun ω i => X i ω) = volume.withDensity fun z => dens (stackJoint (baseVars g) ρ (valueList z))) : iIndepFun X P := by
  simp only [stackJoint_prod] at h
  rw [volume_pi] at h
  exact iIndepFun_of_prod_density hX (fun _ => volume) hg h

/-- **C91** is false when a variable is stacked twice: a log-probability is returned although the vector has no density. -/
theorem C91_same_twice_wrong {Ω : Type*} [MeasurableSpace Ω] {P : Measure Ω} [IsProbabilityMeasure P] {n : ℕ} {X : Fin n → Ω → ℝ} (hX : ∀ i, Measurable (X i)) {i j : Fin n} (hij : i ≠ j)
    (he : X i = X j) (g : Fin n → (ℕ → ℝ) → FVal → FVal) (ρ : ℕ → ℝ) :
    (∀ z : Fin n → ℝ, ∃ l, stackJoint (baseVars g) ρ (valueList z) = .ok l) ∧ ∀ h : (Fin n → ℝ) → ENNReal, P.map (fun ω i => X i ω) ≠ volume.withDensity h := by
  refine ⟨fun z => ⟨_, stackJoint_dens g ρ z⟩, fun h hh => ?_⟩
  have hm : MeasurableSet {z : Fin n → ℝ | z i = z j} := measurableSet_eq_fun (measurable_pi_apply i) (measurable_pi_apply j)
  have h1 : P.map (fun ω i => X i ω) {z | z i = z j} = 1 := by
    rw [Measure.map_apply (measurable_pi_lambda _ fun i => hX _) hm]
    have : (fun ω i => X i ω) ⁻¹' {z : Fin n → ℝ | z i = z j} = Set.univ := by
      ext ω
      simp [he]
    rw [this, measure_univ]
  rw [hh, withDensity_absolutelyContinuous volume h (diagonal_null hij)] at h1
  exact zero_ne_one h1

namespace StackJointDemo

/-- Standard normals. -/
noncomputable def g (n : ℕ) : Fin n → (ℕ → ℝ) → FVal → FVal := fun _ _ => RepeatedDemo.g 0

example (ρ : ℕ → ℝ) : (Measure.infinitePi fun _ : Fin 3 => gaussianReal 0 (1 ^ 2 : ℝ).toNNReal).map (fun ω (i : Fin 3) => ω i) =
    volume.withDensity fun z => dens (stackJoint (baseVars (g 3)) ρ (valueList z)) :=
  C91_independent_partial (P := Measure.infinitePi fun _ : Fin 3 => gaussianReal 0 (1 ^ 2 : ℝ).toNNReal) (X := fun k ω => ω k) (fun k => measurable_pi_apply k)
    (iIndepFun_infinitePi (P := fun _ : Fin 3 => gaussianReal 0 (1 ^ 2 : ℝ).toNNReal) (X := fun _ x => x) fun _ => measurable_id) (g := g 3) ρ
    (fun i => by simp only [g]; have := RepeatedDemo.g_dens 0; rw [this]; exact measurable_gaussianPDF _ _)
    (fun i => by simp only [g]; rw [Measure.infinitePi_map_eval, RepeatedDemo.g_dens 0, gaussianReal_of_var_ne_zero _ (toNNReal_sq_ne one_pos)])

/-- `[X, Y]` where the mean of `Y` is `X`: the second log-probability is that of a normal around the draw number 0. -/
noncomputable def chain : Fin 2 → (ℕ → ℝ) → FVal → FVal :=
  ![fun _ => RepeatedDemo.g 0, fun ρ v => match normalLogprob v (.fin (ρ 0)) (.fin 1) with | .ok l => l | .error _ => .nan]

theorem chain_measurable (ρ : ℕ → ℝ) (i : Fin 2) : Measurable fun x : ℝ => (chain i ρ (.fin x)).toDens := by
  match i with
  | 0 => show Measurable fun x : ℝ => (RepeatedDemo.g 0 (.fin x)).toDens; rw [RepeatedDemo.g_dens 0]; exact measurable_gaussianPDF _ _
  | 1 =>
    have : (fun x : ℝ => (chain 1 ρ (.fin x)).toDens) = gaussianPDF (ρ 0) (1 ^ 2 : ℝ).toNNReal := by
      funext x
      have h := normal_eval x (ρ 0) one_pos
      have hd : (chain 1 ρ (.fin x)).toDens = dens (normalLogprob (.fin x) (.fin (ρ 0)) (.fin 1)) := by
        simp [chain, h, dens]
      rw [hd, h, dens_log (gaussianPDFReal_pos _ _ _ (toNNReal_sq_ne one_pos))]; rfl
    rw [this]
    exact measurable_gaussianPDF _ _

/-- `at.stack([X, Y])` with `Y ~ normal(X, 1)` (`Y = X + E` for another standard normal `E`): wrong, whatever is drawn for `X`. -/
theorem chain_wrong (ρ : ℕ → ℝ) : (Measure.infinitePi fun _ : Fin 2 => gaussianReal 0 (1 ^ 2 : ℝ).toNNReal).map (fun ω (i : Fin 2) => (![fun ω : Fin 2 → ℝ => ω 0, fun ω => ω 0 + ω 1] i) ω) ≠
    volume.withDensity fun z => dens (stackJoint (baseVars chain) ρ (valueList z)) := by
  intro h
  set P := Measure.infinitePi fun _ : Fin 2 => gaussianReal 0 (1 ^ 2 : ℝ).toNNReal with hP
  have hX : ∀ i : Fin 2, Measurable ((![fun ω : Fin 2 → ℝ => ω 0, fun ω => ω 0 + ω 1] : Fin 2 → (Fin 2 → ℝ) → ℝ) i) := fun i => by
    fin_cases i
    · exact measurable_pi_apply 0
    · exact (measurable_pi_apply 0).add (measurable_pi_apply 1)
  have hind := C91_only_independent (P := P) (X := ![fun ω : Fin 2 → ℝ => ω 0, fun ω => ω 0 + ω 1]) hX ρ (chain_measurable ρ) h
  have hi : IndepFun (fun ω : Fin 2 → ℝ => ω 0) (fun ω => ω 0 + ω 1) P := hind.indepFun (i := 0) (j := 1) (by decide)
  have hlp : ∀ i : Fin 2, MemLp (fun ω : Fin 2 → ℝ => ω i) 2 P := fun i =>
    (memLp_id_gaussianReal' (μ := 0) (v := (1 ^ 2 : ℝ).toNNReal) 2 (by simp)).comp_measurePreserving (measurePreserving_eval_infinitePi _ i)
  have h0 := hi.covariance_eq_zero (hlp 0) ((hlp 0).add (hlp 1))
  have hE : IndepFun (fun ω : Fin 2 → ℝ => ω 0) (fun ω => ω 1) P :=
    (iIndepFun_infinitePi (P := fun _ : Fin 2 => gaussianReal 0 (1 ^ 2 : ℝ).toNNReal) (X := fun _ x => x) fun _ => measurable_id).indepFun (i := 0) (j := 1) (by decide)
  have h1 := covariance_add_right (hlp 0) (hlp 0) (hlp 1)
  have hv : Var[fun ω : Fin 2 → ℝ => ω 0; P] = 1 := by
    have := variance_map (X := id) (Y := fun ω : Fin 2 → ℝ => ω 0) (μ := P) aemeasurable_id (measurable_pi_apply 0).aemeasurable
    rw [show P.map (fun ω : Fin 2 → ℝ => ω 0) = gaussianReal 0 (1 ^ 2 : ℝ).toNNReal from Measure.infinitePi_map_eval _ 0, variance_id_gaussianReal] at this
    simp at this
    exact this.symm
  rw [covariance_self (measurable_pi_apply 0).aemeasurable, hE.covariance_eq_zero (hlp 0) (hlp 1), hv, add_zero] at h1
  have h2 : (1 : ℝ) = 0 := h1.symm.trans h0
  exact one_ne_zero h2

/-- `at.stack([X, X])`. -/
example (ρ : ℕ → ℝ) (h : (Fin 2 → ℝ) → ENNReal) : (gaussianReal 0 (1 ^ 2 : ℝ).toNNReal).map (fun ω (_ : Fin 2) => ω) ≠ volume.withDensity h :=
  (C91_same_twice_wrong (P := gaussianReal 0 (1 ^ 2 : ℝ).toNNReal) (X := fun _ ω => ω) (fun _ => measurable_id) (i := 0) (j := 1) (by decide) rfl (g 2) ρ).2 h

end StackJointDemo

end Verif
