import Verif.Model.MixtureIndex
import Verif.Props.Mixture
import Verif.Props.SharedSource
import Verif.Props.Discrete1
import Mathlib.Probability.Independence.Basic
import Mathlib.Probability.Independence.InfinitePi

/-! # C88, C89: mixtures and their index -/

namespace Verif
open MeasureTheory ProbabilityTheory Walk

/-! ## Decision logic -/

/-- A component that can be part of a mixture. -/
def Component {V : Type} (G : VGraph V) (rv : V) : Prop := (G rv).inputs ≠ none ∧ (G rv).isMeasurable = true ∧ (G rv).isValued = false

theorem replace_cases {V : Type} (G : VGraph V) {joined : JoinOp V} {rvs : List V} (indices : List V) (h : getStackMixtureVars G joined = .ok (allMeasurable G rvs)) :
    ((∀ rv ∈ rvs, Component G rv) ∧ mixtureReplace G joined indices = .ok (some (indices, rvs))) ∨
      ((¬ ∀ rv ∈ rvs, Component G rv) ∧ mixtureReplace G joined indices = .ok none) := by
  by_cases hc : ∀ rv ∈ rvs, Component G rv
  · refine .inl ⟨hc, ?_⟩
    have h1 : allMeasurable G rvs = some rvs := if_pos (List.all_eq_true.2 fun rv hrv => by
      obtain ⟨a, b, -⟩ := hc rv hrv
      simp [Option.isSome_iff_ne_none, a, b])
    have h2 : (rvs.any fun rv => (G rv).inputs.isSome && (G rv).isValued) = false := List.any_eq_false.2 fun rv hrv => by simp [(hc rv hrv).2.2]
    simp only [mixtureReplace, h, h1, h2]
    rfl
  · refine .inr ⟨hc, ?_⟩
    by_cases ha : (rvs.all fun rv => (G rv).inputs.isSome && (G rv).isMeasurable) = true
    · have h1 : allMeasurable G rvs = some rvs := if_pos ha
      have h2 : (rvs.any fun rv => (G rv).inputs.isSome && (G rv).isValued) = true := by
        rw [← Bool.not_eq_false]
        intro hf
        refine hc fun rv hrv => ?_
        have h4 := List.all_eq_true.1 ha rv hrv
        have h5 := List.any_eq_false.1 hf rv hrv
        simp only [Bool.and_eq_true, Option.isSome_iff_ne_none] at h4
        exact ⟨h4.1, h4.2, by simpa [Option.isSome_iff_ne_none, h4.1] using h5⟩
      simp only [mixtureReplace, h, h1, h2, if_true]
    · have h1 : allMeasurable G rvs = none := if_neg ha
      simp only [mixtureReplace, h, h1]

/-- **C88** (which stacks) An indexed stack or concatenation becomes a mixture exactly if every component is a random variable without a value; the index may be anything. A
concatenation along an axis that is not constant raises `NotImplementedError`, and nothing else raises. -/
theorem C88_when {V : Type} (G : VGraph V) (joined : JoinOp V) (indices : List V) (res : List V × List V) :
    (mixtureReplace G joined indices = .ok (some res) ↔
      ∃ rvs, (joined = .makeVector rvs ∨ ∃ axis, joined = .join (some axis) rvs) ∧ res = (indices, rvs) ∧
        ∀ rv ∈ rvs, (G rv).inputs ≠ none ∧ (G rv).isMeasurable = true ∧ (G rv).isValued = false) ∧
    (∀ e, mixtureReplace G joined indices = .error e ↔ e = .notImplemented ∧ ∃ rvs, joined = .join none rvs) := by
  cases joined with
  | other => simp [mixtureReplace, getStackMixtureVars]
  | makeVector rvs =>
    rcases replace_cases G indices (joined := .makeVector rvs) rfl with ⟨h1, h2⟩ | ⟨h1, h2⟩ <;> rw [h2]
    · refine ⟨⟨fun h => ⟨rvs, .inl rfl, ?_, h1⟩, ?_⟩, by simp⟩
      · cases h; rfl
      · rintro ⟨r, h | ⟨_, h⟩, rfl, -⟩ <;> cases h
        rfl
    · refine ⟨⟨fun h => (nomatch h), ?_⟩, by simp⟩
      rintro ⟨r, h | ⟨_, h⟩, rfl, hall⟩ <;> cases h
      exact absurd hall h1
  | join axis rvs =>
    cases axis with
    | none =>
      simp only [mixtureReplace, getStackMixtureVars, reduceCtorEq, false_iff, false_or, Except.error.injEq]
      refine ⟨?_, fun e => ⟨fun h => ⟨h.symm, rvs, rfl⟩, fun h => h.1.symm⟩⟩
      rintro ⟨r, ⟨_, h⟩, -⟩
      cases h
    | some axis =>
      rcases replace_cases G indices (joined := .join (some axis) rvs) rfl with ⟨h1, h2⟩ | ⟨h1, h2⟩ <;> rw [h2]
      · refine ⟨⟨fun h => ⟨rvs, .inr ⟨axis, rfl⟩, ?_, h1⟩, ?_⟩, by simp⟩
        · cases h; rfl
        · rintro ⟨r, h | ⟨_, h⟩, rfl, -⟩ <;> cases h
          rfl
      · refine ⟨⟨fun h => (nomatch h), ?_⟩, by simp⟩
        rintro ⟨r, h | ⟨_, h⟩, rfl, hall⟩ <;> cases h
        exact absurd hall h1

/-- **C88** (which switches) `at.switch(cond, x, y)` becomes a mixture exactly if `x` and `y` are random variables without values. -/
theorem C88_switch_when {V : Type} (G : VGraph V) (cond x y : V) (res : V × List V) :
    switchMixtureReplace G cond x y = some res ↔
      res = (cond, [x, y]) ∧ ∀ rv ∈ [x, y], (G rv).inputs ≠ none ∧ (G rv).isMeasurable = true ∧ (G rv).isValued = false := by
  simp only [switchMixtureReplace]
  split_ifs with h
  · simp only [List.all_eq_true, Bool.and_eq_true, Option.isSome_iff_ne_none, Bool.not_eq_true', and_assoc] at h
    exact ⟨fun h' => ⟨(Option.some.inj h').symm, h⟩, fun h' => by rw [h'.1]⟩
  · simp only [List.all_eq_true, Bool.and_eq_true, Option.isSome_iff_ne_none, Bool.not_eq_true', and_assoc] at h
    simp only [reduceCtorEq, false_iff, not_and]
    exact fun _ => h

/-! ## Densities -/

section
variable {Ω : Type*} [MeasurableSpace Ω] {P : Measure Ω} {n : ℕ} {X : ℕ → Ω → ℝ} {I : Ω → ℤ} {Z : Ω → ℝ}

/-- The indexed stack is the component with the number given by the index. -/
theorem stack_at (hZ : ∀ ω, NpElem ((List.range n).map fun k => X k ω) (I ω) (Z ω)) {i : ℤ} (h0 : 0 ≤ i) {ω : Ω} (h : I ω = i) : i.toNat < n ∧ Z ω = X i.toNat ω := by
  have hz := hZ ω
  rw [h] at hz
  rcases hz with ⟨-, hz⟩ | ⟨h1, -⟩
  · obtain ⟨hi, e⟩ := List.getElem?_eq_some_iff.1 hz
    simp only [List.length_map, List.length_range] at hi
    refine ⟨hi, ?_⟩
    rw [← e]
    simp
  · omega

/-- **C88** (index independent of the components) For any number of components, `Z = at.stack(comps)[I]` and an index `I` that is independent of each component: given `I = i`, `exp` of the
derived log-probability of `Z` is the density of `Z`.  The components need not be independent of each other.
Missing: an index computed from a component (`C88_dependent_index_wrong`), and negative indices (`C62_negative_index_wrong`). -/
theorem C88_conditional_partial (hX : ∀ k < n, Measurable (X k)) (hI : Measurable I) (hind : ∀ k < n, IndepFun I (X k) P)
    (hZ : ∀ ω, NpElem ((List.range n).map fun k => X k ω) (I ω) (Z ω)) {comps : List (FVal → Except Err FVal)} (hn : comps.length = n) {D : ℕ → Set ℝ}
    (hlp : ∀ k (h : k < comps.length), IsLogDensityOn (fun x => comps[k] (.fin x)) (D k) (P.map (X k))) {i : ℤ} (h0 : 0 ≤ i) {s : Set ℝ} (hs : MeasurableSet s) (hsD : s ⊆ D i.toNat) :
    P {ω | I ω = i ∧ Z ω ∈ s} = P {ω | I ω = i} * ∫⁻ z in s, dens (stackMixtureLogprob comps i (.fin z)) := by
  by_cases hi : i.toNat < n
  · have hi' : i.toNat < comps.length := hn ▸ hi
    have e1 : ∀ z, stackMixtureLogprob comps i z = comps[i.toNat] z := fun z =>
      C62_scalar_mixture_partial comps i h0 (c := comps[i.toNat]) (.inl ⟨h0, List.getElem?_eq_getElem hi'⟩) z
    simp only [e1]
    rw [(hlp _ hi').law s hsD hs, Measure.map_apply (hX _ hi) hs]
    have := (hind _ hi).measure_inter_preimage_eq_mul {i} s (measurableSet_singleton i) hs
    refine Eq.trans ?_ this
    congr 1
    ext ω
    simp only [Set.mem_setOf_eq, Set.mem_inter_iff, Set.mem_preimage, Set.mem_singleton_iff]
    refine and_congr_right fun h => ?_
    rw [(stack_at hZ h0 h).2]
  · have e : {ω | I ω = i} = ∅ := by
      ext ω
      simp only [Set.mem_setOf_eq, Set.mem_empty_iff_false, iff_false]
      exact fun h => hi (stack_at hZ h0 h).1
    have e' : {ω | I ω = i ∧ Z ω ∈ s} = ∅ := Set.subset_eq_empty (fun ω h => h.1) e
    rw [e, e']
    simp

/-- **C88** (joint density) If moreover the index has a value, `exp` of the joint log-probability is the joint density of the index and the mixture. -/
theorem C88_joint_partial [IsProbabilityMeasure P] (hX : ∀ k < n, Measurable (X k)) (hI : Measurable I) (hind : ∀ k < n, IndepFun I (X k) P)
    (hZ : ∀ ω, NpElem ((List.range n).map fun k => X k ω) (I ω) (Z ω)) {comps : List (FVal → Except Err FVal)} (hn : comps.length = n) {D : ℕ → Set ℝ}
    (hlp : ∀ k (h : k < comps.length), IsLogDensityOn (fun x => comps[k] (.fin x)) (D k) (P.map (X k))) {lpI : ℤ → Except Err FVal} (hlpI : ∀ i, dens (lpI i) = P {ω | I ω = i})
    {i : ℤ} (h0 : 0 ≤ i) {s : Set ℝ} (hs : MeasurableSet s) (hsD : s ⊆ D i.toNat) :
    ∫⁻ z in s, dens (mixtureJoint lpI comps i (.fin z)) = P {ω | I ω = i ∧ Z ω ∈ s} := by
  rw [C88_conditional_partial hX hI hind hZ hn hlp h0 hs hsD, ← lintegral_const_mul' _ _ (measure_ne_top P _)]
  refine lintegral_congr fun z => ?_
  rw [mixtureJoint, Graph.dens_sumE, ← hlpI]
  simp

/-- **C88** (refuted part) An index computed from a component: `Z = at.stack([X₀, X₁])[X₁ ∈ A]`, for any event `A` of probability strictly between 0 and 1.  The rewrite does not look at
the index (`C88_when`), and for the index 1 the derived log-probability is not that of `Z`. -/
theorem C88_dependent_index_wrong [IsProbabilityMeasure P] (hX : Measurable (X 1)) {A : Set ℝ} (hA : MeasurableSet A) (h0 : P (X 1 ⁻¹' A) ≠ 0) (h1 : P (X 1 ⁻¹' A) ≠ 1)
    (hI : ∀ ω, (X 1 ω ∈ A → I ω = 1) ∧ (X 1 ω ∉ A → I ω = 0)) (hZ : ∀ ω, NpElem ((List.range 2).map fun k => X k ω) (I ω) (Z ω)) {lp0 lp1 : FVal → Except Err FVal}
    (hlp : IsLogDensity (fun x => lp1 (.fin x)) (P.map (X 1))) :
    P {ω | I ω = 1 ∧ Z ω ∈ Aᶜ} = 0 ∧ P {ω | I ω = 1} * ∫⁻ z in Aᶜ, dens (stackMixtureLogprob [lp0, lp1] 1 (.fin z)) ≠ 0 := by
  have e0 : {ω | I ω = 1} = X 1 ⁻¹' A := by
    ext ω
    simp only [Set.mem_setOf_eq, Set.mem_preimage]
    refine ⟨fun h => ?_, (hI ω).1⟩
    by_contra hA'
    have := (hI ω).2 hA'
    omega
  constructor
  · have : {ω | I ω = 1 ∧ Z ω ∈ Aᶜ} = ∅ := by
      ext ω
      simp only [Set.mem_setOf_eq, Set.mem_empty_iff_false, iff_false, not_and]
      intro h hz
      rw [(stack_at hZ (by decide) h).2] at hz
      have : ω ∈ X 1 ⁻¹' A := e0 ▸ h
      exact hz this
    rw [this, measure_empty]
  · have e1 : ∀ z, stackMixtureLogprob [lp0, lp1] 1 z = lp1 z := fun z => C62_scalar_mixture_partial [lp0, lp1] 1 (by decide) (c := lp1) (.inl ⟨by decide, rfl⟩) z
    simp only [e1]
    rw [e0, hlp.law _ hA.compl, Measure.map_apply hX hA.compl]
    refine mul_ne_zero h0 ?_
    rw [Set.preimage_compl]
    intro h
    have := prob_add_prob_compl (μ := P) (hX hA)
    rw [h, add_zero] at this
    exact h1 this

end

namespace MixtureIndexDemo

/-- Independent standard normal variables 0, 1, 2, .. -/
noncomputable abbrev P : Measure (ℕ → ℝ) := Measure.infinitePi fun _ : ℕ => gaussianReal 0 (1 ^ 2 : ℝ).toNNReal

theorem dens01 : IsLogDensity (fun x => normalLogprob (.fin x) (.fin 0) (.fin 1)) (gaussianReal 0 (1 ^ 2 : ℝ).toNNReal) := (C09_normal 0 one_pos).1

/-- Components 0 and 1; the index is 0 or 1 according to the sign of variable 2. -/
noncomputable def I (ω : ℕ → ℝ) : ℤ := if 0 < ω 2 then 1 else 0

noncomputable def Z (ω : ℕ → ℝ) : ℝ := if 0 < ω 2 then ω 1 else ω 0

theorem measurable_I : Measurable I := Measurable.ite (measurableSet_lt measurable_const (measurable_pi_apply 2)) measurable_const measurable_const

example (b : ℝ) : P {ω | I ω = 1 ∧ Z ω ∈ Set.Iio b} = P {ω | I ω = 1} *
    ∫⁻ z in Set.Iio b, dens (stackMixtureLogprob [fun v => normalLogprob v (.fin 0) (.fin 1), fun v => normalLogprob v (.fin 0) (.fin 1)] 1 (.fin z)) := by
  have hind : iIndepFun (fun (k : ℕ) (ω : ℕ → ℝ) => ω k) P := iIndepFun_infinitePi (X := fun _ x => x) fun _ => measurable_id
  refine C88_conditional_partial (P := P) (n := 2) (X := fun k ω => ω k) (I := I) (Z := Z) (fun k _ => measurable_pi_apply k) measurable_I (fun k hk => ?_) (fun ω => ?_)
    (comps := [fun v => normalLogprob v (.fin 0) (.fin 1), fun v => normalLogprob v (.fin 0) (.fin 1)]) rfl (D := fun _ => Set.univ) ?_ (by decide) measurableSet_Iio (Set.subset_univ _)
  · have h := hind.indepFun (i := 2) (j := k) (by omega)
    exact h.comp (φ := fun x : ℝ => if 0 < x then (1 : ℤ) else 0) (ψ := id) (Measurable.ite (measurableSet_lt measurable_const measurable_id) measurable_const measurable_const) measurable_id
  · by_cases h : 0 < ω 2
    · exact .inl ⟨by simp [I, h], by simp [I, Z, h]⟩
    · exact .inl ⟨by simp [I, h], by simp [I, Z, h]⟩
  · intro k hk
    rw [Measure.infinitePi_map_eval]
    have : k = 0 ∨ k = 1 := by simp at hk; omega
    rcases this with rfl | rfl <;> exact dens01.on (by simp)

/-- The index is computed from component 1. -/
theorem half : gaussianReal 0 (1 ^ 2 : ℝ).toNNReal (Set.Ioi 0) ≠ 0 ∧ gaussianReal 0 (1 ^ 2 : ℝ).toNNReal (Set.Ioi 0) ≠ 1 := by
  have hp : ∀ s : Set ℝ, MeasurableSet s → volume s ≠ 0 → gaussianReal 0 (1 ^ 2 : ℝ).toNNReal s ≠ 0 := by
    intro s hs hv h0
    exact hv (gaussianReal_absolutelyContinuous' 0 (toNNReal_sq_ne one_pos) h0)
  refine ⟨hp _ measurableSet_Ioi (by simp), fun h => ?_⟩
  have h2 := prob_add_prob_compl (μ := gaussianReal 0 (1 ^ 2 : ℝ).toNNReal) (measurableSet_Ioi (a := (0 : ℝ)))
  rw [h] at h2
  have h3 : gaussianReal 0 (1 ^ 2 : ℝ).toNNReal (Set.Ioi 0)ᶜ = 0 := by
    have : (1 : ENNReal) + gaussianReal 0 (1 ^ 2 : ℝ).toNNReal (Set.Ioi 0)ᶜ = 1 + 0 := by rw [h2, add_zero]
    exact (ENNReal.add_right_inj ENNReal.one_ne_top).1 this
  exact hp _ measurableSet_Ioi.compl (by simp) h3

example : P {ω | (if 0 < ω 1 then (1 : ℤ) else 0) = 1 ∧ (if 0 < ω 1 then ω 1 else ω 0) ∈ (Set.Ioi (0 : ℝ))ᶜ} = 0 ∧
    P {ω | (if 0 < ω 1 then (1 : ℤ) else 0) = 1} * ∫⁻ z in (Set.Ioi (0 : ℝ))ᶜ,
      dens (stackMixtureLogprob [fun v => normalLogprob v (.fin 0) (.fin 1), fun v => normalLogprob v (.fin 0) (.fin 1)] 1 (.fin z)) ≠ 0 := by
  have hmap : P.map (fun ω => ω 1) = gaussianReal 0 (1 ^ 2 : ℝ).toNNReal := Measure.infinitePi_map_eval _ _
  have hpre : P ((fun ω : ℕ → ℝ => ω 1) ⁻¹' Set.Ioi 0) = gaussianReal 0 (1 ^ 2 : ℝ).toNNReal (Set.Ioi 0) := by
    rw [← hmap, Measure.map_apply (measurable_pi_apply 1) measurableSet_Ioi]
  refine C88_dependent_index_wrong (P := P) (X := fun k ω => ω k) (I := fun ω => if 0 < ω 1 then (1 : ℤ) else 0) (Z := fun ω => if 0 < ω 1 then ω 1 else ω 0)
    (measurable_pi_apply 1) (A := Set.Ioi 0) measurableSet_Ioi (hpre ▸ half.1) (hpre ▸ half.2) (fun ω => ?_) (fun ω => ?_) (hmap ▸ dens01)
  · exact ⟨fun h => if_pos h, fun h => if_neg h⟩
  · by_cases h : 0 < ω 1
    · exact .inl ⟨by simp [h], by simp [h]⟩
    · exact .inl ⟨by simp [h], by simp [h]⟩

/-- A stack of two random variables without values, indexed by a comparison of one of them. -/
example : mixtureReplace (fun v : Fin 4 => if v.1 < 2 then ⟨some [], true, false, .float64⟩ else if v.1 = 2 then ⟨some [0], false, false, .int64⟩ else ⟨some [0, 1], false, false, .float64⟩)
    (.makeVector [0, 1]) [2] = .ok (some ([2], [0, 1])) :=
  ((C88_when _ (.makeVector [0, 1]) [2] ([2], [0, 1])).1).2 ⟨[0, 1], .inl rfl, rfl, by decide⟩

end MixtureIndexDemo

/-! ## Several mixtures of the same components -/

theorem mixtures_eq {comps : List (FVal → Except Err FVal)} {lp : ℕ → FVal → Except Err FVal} (hlp : ∀ k (h : k < comps.length), lp k = comps[k]) :
    ∀ (idx : List ℕ) (values : List FVal), (∀ k ∈ idx, k < comps.length) →
      mixturesJoint comps (idx.map fun k : ℕ => (k : ℤ)) values = soloJoint lp (idx.map fun k => (k, [])) values := by
  intro idx values hidx
  have ht : ∀ idx : List ℕ, (idx.map fun k => (k, [])).mapM (soloTerm lp) = .ok (idx.map lp) := by
    intro idx
    induction idx with
    | nil => rfl
    | cons k idx ih =>
      simp only [List.map_cons, List.mapM_cons, soloTerm, derivedLogprob, bind, Except.bind, ih, pure, Except.pure]
  simp only [mixturesJoint, soloJoint, ht]
  congr 1
  induction idx generalizing values with
  | nil => rfl
  | cons k idx ih =>
    cases values with
    | nil => rfl
    | cons v values =>
      simp only [List.map_cons, List.zipWith_cons_cons]
      rw [ih values fun k hk => hidx k (by simp [hk])]
      have hk := hidx k (by simp)
      rw [C62_scalar_mixture_partial comps k (by omega) (c := comps[k]) (.inl ⟨by omega, by simp [hk]⟩), hlp k hk]

/-- **C89** (different components) Any number of mixtures of the same independent components, with different indices: `exp` of the joint log-probability is their joint density.
Missing: mixtures with the same index, for which it is false (`C89_same_index_wrong`). -/
theorem C89_distinct_partial {Ω : Type*} [MeasurableSpace Ω] {P : Measure Ω} [IsProbabilityMeasure P] {X : ℕ → Ω → ℝ} (hX : ∀ k, Measurable (X k)) (hind : iIndepFun X P)
    {comps : List (FVal → Except Err FVal)} {D : ℕ → Set ℝ} (hD : ∀ k < comps.length, MeasurableSet (D k))
    (hlp : ∀ k (h : k < comps.length), IsLogDensityOn (fun x => comps[k] (.fin x)) (D k) (P.map (X k))) (hfin : ∀ k (h : k < comps.length), ∀ x ∈ D k, comps[k] (.fin x) ≠ .ok .pinf)
    {idx : List ℕ} (hidx : ∀ k ∈ idx, k < comps.length) (hnd : idx.Nodup) {sets : List (Set ℝ)} (hs : List.Forall₂ (fun k s => MeasurableSet s ∧ s ⊆ D k) idx sets) :
    boxE sets (fun zs => dens (mixturesJoint comps (idx.map fun k : ℕ => (k : ℤ)) (zs.map .fin))) = P {ω | List.Forall₂ (fun k s => X k ω ∈ s) idx sets} := by
  let lp : ℕ → FVal → Except Err FVal := fun k => comps.getD k fun _ => .error .indexError
  have hl : ∀ k (h : k < comps.length), lp k = comps[k] := fun k h => by simp [lp, h]
  have h := C84_distinct_sources_partial (P := P) hX hind (D := D) (lp := lp) (rvs := idx.map fun k => (k, [])) (by simpa [List.map_map, Function.comp_def] using hnd)
    (by
      intro p hp
      obtain ⟨k, hk, rfl⟩ := List.mem_map.1 hp
      exact hD k (hidx k hk))
    (by
      intro p hp
      obtain ⟨k, hk, rfl⟩ := List.mem_map.1 hp
      simp only [hl k (hidx k hk)]
      exact hlp k (hidx k hk))
    (by
      intro p hp
      obtain ⟨k, hk, rfl⟩ := List.mem_map.1 hp
      trivial)
    (by
      intro p hp
      obtain ⟨k, hk, rfl⟩ := List.mem_map.1 hp
      simp only [hl k (hidx k hk)]
      exact hfin k (hidx k hk)) (sets := sets)
    (by
      rw [List.forall₂_map_left_iff]
      refine hs.imp fun k s h => ⟨h.1, ?_⟩
      show s ⊆ id '' D k
      rw [Set.image_id]
      exact h.2)
  simp only [derivedJoint_distinct lp (rvs := idx.map fun k => (k, [])) (by simpa [List.map_map, Function.comp_def] using hnd)] at h
  simp only [mixtures_eq hl idx _ hidx]
  rw [h]
  congr 1
  ext ω
  simp only [Set.mem_setOf_eq, List.forall₂_map_left_iff]
  rfl

/-- **C89** (refuted part) Two mixtures of the same components, whose index variables (two different variables) have the same value: `joint_logprob` returns, although given the indices the
two mixtures have no joint density at all, since they are equal. -/
theorem C89_same_index_wrong {Ω : Type*} [MeasurableSpace Ω] {P : Measure Ω} [IsProbabilityMeasure P] {X : ℕ → Ω → ℝ} {k : ℕ} (hX : Measurable (X k))
    {comps : List (FVal → Except Err FVal)} {D : Set ℝ} (hD : MeasurableSet D) (hk : k < comps.length) (hlp : IsLogDensityOn (fun x => comps[k] (.fin x)) D (P.map (X k))) :
    (∀ y ∈ D, ∀ z ∈ D, ∃ v, mixturesJoint comps [(k : ℤ), (k : ℤ)] [.fin y, .fin z] = .ok v) ∧
      ∀ h : ℝ × ℝ → ENNReal, P.map (fun ω => (X k ω, X k ω)) ≠ volume.withDensity h := by
  have hp : IsProbabilityMeasure (P.map (X k)) := Measure.isProbabilityMeasure_map hX.aemeasurable
  have h3 := curve_no_density hD hlp.null (ns := []) (ms := []) trivial
  refine ⟨fun y hy z hz => ?_, fun h he => h3 h ?_⟩
  · have e : ∀ v, stackMixtureLogprob comps (k : ℤ) v = comps[k] v :=
      fun v => C62_scalar_mixture_partial comps k (by omega) (c := comps[k]) (.inl ⟨by omega, by simp [hk]⟩) v
    obtain ⟨v, hv, -⟩ := hlp.clean y hy
    obtain ⟨w, hw, -⟩ := hlp.clean z hz
    simp only [mixturesJoint, List.zipWith_cons_cons, List.zipWith_nil_right, e, hv, hw, Graph.sumE]
    exact ⟨_, rfl⟩
  · rw [← he, Measure.map_map ((measurable_tower []).prodMk (measurable_tower [])) hX]
    rfl

namespace MixtureIndexDemo

noncomputable def normal01 : FVal → Except Err FVal := fun v => normalLogprob v (.fin 0) (.fin 1)

example (a b : ℝ) : boxE [Set.Iio a, Set.Iio b] (fun zs => dens (mixturesJoint [normal01, normal01, normal01] [2, 0] (zs.map .fin))) =
    P {ω | List.Forall₂ (fun k s => ω k ∈ s) [2, 0] [Set.Iio a, Set.Iio b]} := by
  refine C89_distinct_partial (P := P) (X := fun k ω => ω k) (fun k => measurable_pi_apply k) (iIndepFun_infinitePi (X := fun _ x => x) fun _ => measurable_id)
    (comps := [normal01, normal01, normal01]) (D := fun _ => Set.univ) (fun _ _ => MeasurableSet.univ) ?_ ?_ (idx := [2, 0]) (by simp) (by decide)
    (.cons ⟨measurableSet_Iio, Set.subset_univ _⟩ (.cons ⟨measurableSet_Iio, Set.subset_univ _⟩ .nil))
  · intro k hk
    rw [Measure.infinitePi_map_eval]
    have : k = 0 ∨ k = 1 ∨ k = 2 := by simp at hk; omega
    rcases this with rfl | rfl | rfl <;> exact dens01.on (by simp)
  · intro k hk x _
    have : k = 0 ∨ k = 1 ∨ k = 2 := by simp at hk; omega
    rcases this with rfl | rfl | rfl <;> simp [normal01, normal_eval x 0 one_pos]

example (h : ℝ × ℝ → ENNReal) : P.map (fun ω => (ω 1, ω 1)) ≠ volume.withDensity h := by
  refine (C89_same_index_wrong (P := P) (X := fun k ω => ω k) (k := 1) (measurable_pi_apply 1) (comps := [normal01, normal01]) (D := Set.univ) MeasurableSet.univ (by decide) ?_).2 h
  rw [Measure.infinitePi_map_eval]
  exact dens01.on (by simp)

end MixtureIndexDemo

end Verif
