import Verif.Spec.ArrMarginal
import Verif.Props.ArrGraph
import Verif.Props.Posterior

/-! # Models with array variables: realized values (C130) and variables without value (C133) -/

namespace Verif.ArrGraph
open Verif Cond MeasureTheory

variable {Di : Type} {X : ℕ → Type} [∀ i, MeasurableSpace (X i)]

theorem ids_nodup {l : List (ℕ × RVDef Di)} (hord : DependencyOrder l) : (l.map Prod.fst).Nodup := by
  induction l with
  | nil => simp
  | cons p l ih =>
    obtain ⟨id, r⟩ := p
    refine List.nodup_cons.2 ⟨fun hmem => ?_, ih hord.2.2⟩
    obtain ⟨p, hp, hpid⟩ := List.mem_map.1 hmem
    exact (hord.2.1 p hp).1 hpid

/-- Iterated integrals in any order. -/
theorem refE_eq_lmarginal {ref : ∀ i, Measure (X i)} [∀ i, SigmaFinite (ref i)] {φ : (∀ i, X i) → ENNReal} (hφ : Measurable φ) :
    ∀ (l : List (ℕ × RVDef Di)) (σ : ∀ i, X i), (l.map Prod.fst).Nodup → refE ref l σ φ = (∫⋯∫⁻_(l.map Prod.fst).toFinset, φ ∂ref) σ
  | [], σ, _ => by simp [refE]
  | (id, r) :: l, σ, hn => by
    rw [List.map_cons, List.nodup_cons] at hn
    rw [List.map_cons, List.toFinset_cons, lmarginal_insert _ hφ (by simpa using hn.1), refE]
    exact lintegral_congr fun x => refE_eq_lmarginal hφ l _ hn.2

/-- The total probability is at most one. -/
theorem sampleE_one_le (arr : ∀ i, X i → Arr FVal) (kernel : Di → Arr FVal → List (Arr FVal) → Except Err (Arr FVal)) (law : ∀ i, Di → List (Arr FVal) → Measure (X i)) (ref : ∀ i, Measure (X i)) (ρ : ℕ → Arr FVal) :
    ∀ (l : List (ℕ × RVDef Di)) (σ : ∀ i, X i), Valid arr kernel law ref ρ l σ → sampleE arr law ρ l σ (fun _ => 1) ≤ 1
  | [], _, _ => le_refl _
  | (id, r) :: l, σ, h => by
    obtain ⟨⟨hp, hm, hd⟩, h2⟩ := h
    have hae : ∀ᵐ x ∂(law id r.dist (params (asg arr σ) ρ r)), sampleE arr law ρ l (Function.update σ id x) (fun _ => 1) ≤ 1 := by
      filter_upwards [h2] with x hx
      exact sampleE_one_le arr kernel law ref ρ l _ hx
    rw [sampleE]
    refine (lintegral_mono_ae hae).trans ?_
    simp

open Classical in
/-- **C130** (arrays) The same for models whose variables are arrays: as a function of the values of the variables that are not realized, `exp` of the value of `joint_logprob` is, up to a constant factor, the density of
their conditional distribution given the realized values. -/
theorem C130_arrays_partial (arr : ∀ i, X i → Arr FVal) (kernel : Di → Arr FVal → List (Arr FVal) → Except Err (Arr FVal)) (law : ∀ i, Di → List (Arr FVal) → Measure (X i))
    (ref : ∀ i, Measure (X i)) [∀ i, SigmaFinite (ref i)] (ρ : ℕ → Arr FVal) (ω : ℕ → Di → List (Arr FVal) → Arr FVal) {l : List (ℕ × RVDef Di)} (hne : l ≠ []) (hord : DependencyOrder l)
    (huser : ∀ p ∈ l, ∀ i, User (p.2.args i)) {rvs clones : List ℕ} {realized : Dict ℕ ℕ} (hc : clones.length = rvs.length)
    (hall : ∀ v, v ∈ l.map Prod.fst ↔ v ∈ rvs ∨ v ∈ Dict.keys realized) (hclosed : ∀ p ∈ l, ∀ i id, Mentions id (p.2.args i) → id ∈ l.map Prod.fst)
    (env : (∀ i, X i) → ℕ → Arr FVal) (henv : ∀ σ v x, Dict.get? (rvValues rvs clones realized) v = some x → env σ x = arr v (σ v))
    (hfresh : ∀ σ, ∀ p ∈ l, params (asg arr σ) (env σ) p.2 = params (asg arr σ) ρ p.2) :
    ∃ j vvs, joint (Dict.get? l) rvs clones realized = .ok (some (j, vvs)) ∧
      ∀ g : (∀ i, X i) → ENNReal, (g = fun σ => dens (evalJoint kernel (env σ) ω j)) → Measurable g → ∀ σ₀ : ∀ i, X i, Valid arr kernel law ref ρ l σ₀ →
        (∀ φ : (∀ i, X i) → ENNReal, Measurable φ →
          sampleE arr law ρ l σ₀ (averageE ref (l.filter fun p => p.1 ∉ Dict.keys realized) g φ) = sampleE arr law ρ l σ₀ φ) ∧
        sampleE arr law ρ l σ₀ (fun σ => if refE ref (l.filter fun p => p.1 ∉ Dict.keys realized) σ g = 0 ∨ refE ref (l.filter fun p => p.1 ∉ Dict.keys realized) σ g = ⊤ then 1 else 0) = 0 := by
  obtain ⟨j, vvs, hj, -, h⟩ := C106_joint_density arr kernel law ref ρ ω hne hord huser hc hall hclosed env henv hfresh
  refine ⟨j, vvs, hj, fun g hg hm σ₀ hv => ?_⟩
  have h' : ∀ φ, refE ref l σ₀ (fun σ => g σ * φ σ) = sampleE arr law ρ l σ₀ φ := fun φ => by rw [hg]; exact h σ₀ hv φ
  have hn := ids_nodup hord
  obtain ⟨hs, hd⟩ := Graph.toFinset_split Prod.fst l hn fun p => decide (p.1 ∉ Dict.keys realized)
  set F := ((l.filter fun p => decide (p.1 ∉ Dict.keys realized)).map Prod.fst).toFinset with hF
  set O := ((l.filter fun p => !decide (p.1 ∉ Dict.keys realized)).map Prod.fst).toFinset with hO
  have eAll : ∀ φ, Measurable φ → refE ref l σ₀ φ = (∫⋯∫⁻_O ∪ F, φ ∂ref) σ₀ := fun φ hφ => by
    rw [refE_eq_lmarginal hφ l σ₀ hn, hs]
  have eF : ∀ φ, Measurable φ → ∀ σ, refE ref (l.filter fun p => p.1 ∉ Dict.keys realized) σ φ = (∫⋯∫⁻_F, φ ∂ref) σ := fun φ hφ σ =>
    refE_eq_lmarginal hφ _ σ (hn.sublist (List.filter_sublist.map _))
  have hfin : (∫⋯∫⁻_O ∪ F, g ∂ref) σ₀ ≠ ⊤ := by
    rw [← eAll g hm]
    have := h' fun _ => 1
    simp only [mul_one] at this
    rw [this]
    exact ((sampleE_one_le arr kernel law ref ρ l σ₀ hv).trans_lt ENNReal.one_lt_top).ne
  constructor
  · intro φ hφ
    have hgφ : Measurable fun σ => g σ * φ σ := hm.mul hφ
    have ea : averageE ref (l.filter fun p => p.1 ∉ Dict.keys realized) g φ = fun σ => (∫⋯∫⁻_F, (fun σ => g σ * φ σ) ∂ref) σ / (∫⋯∫⁻_F, g ∂ref) σ := by
      funext σ
      rw [averageE, eF _ hgφ, eF _ hm]
    have hq : Measurable fun σ => g σ * ((∫⋯∫⁻_F, (fun σ => g σ * φ σ) ∂ref) σ / (∫⋯∫⁻_F, g ∂ref) σ) :=
      hm.mul ((hgφ.lmarginal _).div (hm.lmarginal _))
    rw [← h', ← h', ea, eAll _ hq, eAll _ hgφ]
    exact Posterior.lmarginal_average hd hm hφ hfin
  · have hZ : Measurable (∫⋯∫⁻_F, g ∂ref) := hm.lmarginal _
    have hi : Measurable fun x => if (∫⋯∫⁻_F, g ∂ref) x = 0 ∨ (∫⋯∫⁻_F, g ∂ref) x = ⊤ then (1 : ENNReal) else 0 :=
      Measurable.ite ((hZ (measurableSet_singleton 0)).union (hZ (measurableSet_singleton ⊤))) measurable_const measurable_const
    simp only [eF _ hm]
    rw [← h', eAll _ (show Measurable fun x => g x * _ from hm.mul hi)]
    exact Posterior.lmarginal_normaliser hd hm hfin

/-! ## C133 -/

theorem backend_contract (defs : ℕ → Option (RVDef Di)) (d : Dict ℕ ℕ) : Contract (backend defs d) := by
  refine ⟨fun n => ?_, fun n o ho => ?_, fun n vs lps h hl => ?_, fun d' outs vals h => ?_⟩
  · simp only [backend]; split_ifs <;> simp
  · simp only [backend] at ho ⊢
    split_ifs at ho with h
    · have : o = n := by simpa using ho
      subst this; simp [h]
    · simp at ho
  · simp only [backend] at h hl ⊢
    cases hd : defs n with
    | none => simp [hd] at h
    | some r =>
      match vs with
      | [] => simp [hd] at h
      | [v] =>
        simp only [hd, Except.ok.injEq] at h
        simp [← h]
      | a :: b :: l => simp [hd] at h
  · simp only [backend, Except.ok.injEq, Prod.mk.injEq] at h
    rw [← h.1, ← h.2]; simp

theorem DependencyOrder.filter {l : List (ℕ × RVDef Di)} (h : DependencyOrder l) (q : ℕ × RVDef Di → Bool) : DependencyOrder (l.filter q) := by
  induction l with
  | nil => trivial
  | cons p l ih =>
    obtain ⟨id, r⟩ := p
    rw [List.filter_cons]
    split
    · exact ⟨h.1, fun p hp => h.2.1 p (List.mem_of_mem_filter hp), ih h.2.2⟩
    · exact ih h.2.2

theorem params_congr_free {arr : ∀ i, X i → Arr FVal} {σ σ' : ∀ i, X i} {ρ : ℕ → Arr FVal} {r : RVDef Di} (h : ∀ i id, Mentions id (r.args i) → σ id = σ' id) : params (asg arr σ) ρ r = params (asg arr σ') ρ r := by
  simp only [params]
  congr 1
  funext i
  exact evalAt_congr _ fun id hm => by simp only [asg, h i id hm]

/-- The values of the variables to come do not matter. -/
theorem validAt_congr {arr : ∀ i, X i → Arr FVal} {kernel : Di → Arr FVal → List (Arr FVal) → Except Err (Arr FVal)} {law : ∀ i, Di → List (Arr FVal) → Measure (X i)} {ref : ∀ i, Measure (X i)} {N : ∀ i, Set (X i)} {ρ : ℕ → Arr FVal} :
    ∀ (l : List (ℕ × RVDef Di)) {σ σ' : ∀ i, X i}, DependencyOrder l → (∀ i, i ∉ l.map Prod.fst → σ' i = σ i) → ValidAt arr kernel law ref N ρ l σ → ValidAt arr kernel law ref N ρ l σ'
  | [], _, _, _, _, _ => trivial
  | (id, r) :: l, σ, σ', ho, hs, hv => by
    have hp : params (asg arr σ') ρ r = params (asg arr σ) ρ r := params_congr_free fun i id' hm => hs id' fun hmem => by
      rw [List.map_cons, List.mem_cons] at hmem
      rcases hmem with rfl | hmem
      · exact ho.1 i hm
      · obtain ⟨p, hp, rfl⟩ := List.mem_map.1 hmem
        exact (ho.2.1 p hp).2 i hm
    rw [ValidAt, hp]
    refine ⟨hv.1, fun x hN hx => validAt_congr l ho.2.2 (fun i hi => ?_) (hv.2 x hN hx)⟩
    by_cases h : i = id
    · subst h; simp
    · rw [Function.update_of_ne h, Function.update_of_ne h]
      exact hs i (by simp [h, hi])

/-- Such parameters are met with probability one. -/
theorem ValidAt.valid {arr : ∀ i, X i → Arr FVal} {kernel : Di → Arr FVal → List (Arr FVal) → Except Err (Arr FVal)} {law : ∀ i, Di → List (Arr FVal) → Measure (X i)} {ref : ∀ i, Measure (X i)} {N : ∀ i, Set (X i)} (hN : ∀ i, ref i (N i) = 0) {ρ : ℕ → Arr FVal} :
    ∀ {l : List (ℕ × RVDef Di)} {σ : ∀ i, X i}, ValidAt arr kernel law ref N ρ l σ → Valid arr kernel law ref ρ l σ
  | [], _, _ => trivial
  | (id, r) :: l, σ, h => by
    refine ⟨h.1, ?_⟩
    rw [h.1.dens, ae_withDensity_iff' h.1.meas]
    filter_upwards [measure_eq_zero_iff_ae_notMem.1 (hN id)] with x hx h0
    exact ValidAt.valid hN (h.2 x hx h0)

/-- Density of `p` at the values `τ`. -/
noncomputable def densAt (arr : ∀ i, X i → Arr FVal) (kernel : Di → Arr FVal → List (Arr FVal) → Except Err (Arr FVal)) (ρ : ℕ → Arr FVal) (τ : ∀ i, X i) (p : ℕ × RVDef Di) : ENNReal :=
  dens (arrayJoint (kernel p.2.dist (arr p.1 (τ p.1)) (params (asg arr τ) ρ p.2)))

theorem sampleE_congr_free {arr : ∀ i, X i → Arr FVal} {law : ∀ i, Di → List (Arr FVal) → Measure (X i)} {ρ : ℕ → Arr FVal} (l : List (ℕ × RVDef Di)) (σ : ∀ i, X i) {φ ψ : (∀ i, X i) → ENNReal}
    (h : ∀ σ', (∀ i, i ∉ l.map Prod.fst → σ' i = σ i) → φ σ' = ψ σ') : sampleE arr law ρ l σ φ = sampleE arr law ρ l σ ψ := by
  induction l generalizing σ with
  | nil => exact h σ fun _ _ => rfl
  | cons p l ih =>
    obtain ⟨id, r⟩ := p
    simp only [sampleE]
    refine lintegral_congr fun x => ih _ fun σ' hσ' => h σ' fun i hi => ?_
    simp only [List.map_cons, List.mem_cons, not_or] at hi
    rw [hσ' i hi.2, Function.update_of_ne hi.1]

/-- Nothing, on average over anything. -/
theorem sampleE_zero {arr : ∀ i, X i → Arr FVal} {law : ∀ i, Di → List (Arr FVal) → Measure (X i)} {ρ : ℕ → Arr FVal} : ∀ (l : List (ℕ × RVDef Di)) (σ : ∀ i, X i), sampleE arr law ρ l σ (fun _ => 0) = 0
  | [], _ => rfl
  | (id, r) :: l, σ => by simp [sampleE, sampleE_zero l]

theorem refE_zero {ref : ∀ i, Measure (X i)} : ∀ (l : List (ℕ × RVDef Di)) (σ : ∀ i, X i), refE ref l σ (fun _ => 0) = 0
  | [], _ => rfl
  | (id, r) :: l, σ => by simp [refE, refE_zero l]

theorem refE_congr_ae {ref : ∀ i, Measure (X i)} {N : ∀ i, Set (X i)} (hN : ∀ i, ref i (N i) = 0) (l : List (ℕ × RVDef Di)) (σ : ∀ i, X i) (hn : (l.map Prod.fst).Nodup) {φ ψ : (∀ i, X i) → ENNReal}
    (h : ∀ σ', (∀ i, i ∉ l.map Prod.fst → σ' i = σ i) → (∀ p ∈ l, σ' p.1 ∉ N p.1) → φ σ' = ψ σ') : refE ref l σ φ = refE ref l σ ψ := by
  induction l generalizing σ with
  | nil => exact h σ (fun _ _ => rfl) (by simp)
  | cons p l ih =>
    obtain ⟨id, r⟩ := p
    rw [List.map_cons, List.nodup_cons] at hn
    simp only [refE]
    refine lintegral_congr_ae ?_
    filter_upwards [measure_eq_zero_iff_ae_notMem.1 (hN id)] with x hx
    refine ih _ hn.2 fun σ' hσ' hl => h σ' (fun i hi => ?_) fun p hp => ?_
    · simp only [List.map_cons, List.mem_cons, not_or] at hi
      rw [hσ' i hi.2, Function.update_of_ne hi.1]
    · rcases List.mem_cons.1 hp with rfl | hp
      · simp only
        rw [hσ' id hn.1, Function.update_self]
        exact hx
      · exact hl p hp

/-- The density of a variable does not depend on the values of later ones. -/
theorem densAt_congr {arr : ∀ i, X i → Arr FVal} {kernel : Di → Arr FVal → List (Arr FVal) → Except Err (Arr FVal)} {ρ : ℕ → Arr FVal} {id : ℕ} {r : RVDef Di} {l : List (ℕ × RVDef Di)} (ho : DependencyOrder ((id, r) :: l)) {σ τ : ∀ i, X i}
    (h : ∀ i, i ∉ l.map Prod.fst → τ i = σ i) : densAt arr kernel ρ τ (id, r) = dens (arrayJoint (kernel r.dist (arr id (σ id)) (params (asg arr σ) ρ r))) := by
  have hid : id ∉ l.map Prod.fst := fun hm => by
    obtain ⟨p, hp, hpid⟩ := List.mem_map.1 hm
    exact (ho.2.1 p hp).1 hpid
  rw [densAt, show τ id = σ id from h id hid, params_congr_free (σ' := σ) fun i id' hm => h id' fun hmem => by
    obtain ⟨p, hp, rfl⟩ := List.mem_map.1 hmem
    exact (ho.2.1 p hp).2 i hm]

theorem not_mem_filter {l : List (ℕ × RVDef Di)} (q : ℕ × RVDef Di → Bool) {i : ℕ} (h : i ∉ l.map Prod.fst) : i ∉ (l.filter q).map Prod.fst := fun hm => h ((List.filter_sublist.map _).subset hm)

/-- Drawing the variables that satisfy `q` one after the other, given the values of the others, is integrating their densities. -/
theorem sampleE_free (arr : ∀ i, X i → Arr FVal) (kernel : Di → Arr FVal → List (Arr FVal) → Except Err (Arr FVal)) (law : ∀ i, Di → List (Arr FVal) → Measure (X i)) (ref : ∀ i, Measure (X i)) {N : ∀ i, Set (X i)} (hN : ∀ i, ref i (N i) = 0) (ρ : ℕ → Arr FVal) (q : ℕ × RVDef Di → Bool) :
    ∀ (l : List (ℕ × RVDef Di)) (φ : (∀ i, X i) → ENNReal) (σ : ∀ i, X i), DependencyOrder l → ValidAt arr kernel law ref N ρ l σ → (∀ p ∈ l, q p = false → σ p.1 ∉ N p.1) →
      sampleE arr law ρ (l.filter q) σ (fun τ => ((l.filter fun p => !q p).map (densAt arr kernel ρ τ)).prod * φ τ) =
        refE ref (l.filter q) σ (fun τ => (l.map (densAt arr kernel ρ τ)).prod * φ τ)
  | [], φ, σ, _, _, _ => rfl
  | (id, r) :: l, φ, σ, ho, hv, hσ => by
    have hid : id ∉ l.map Prod.fst := fun hm => by
      obtain ⟨p, hp, hpid⟩ := List.mem_map.1 hm
      exact (ho.2.1 p hp).1 hpid
    cases hq : q (id, r) with
    | false =>
      have e1 : ((id, r) :: l).filter q = l.filter q := by rw [List.filter_cons, hq]; rfl
      have e2 : (((id, r) :: l).filter fun p => !q p) = (id, r) :: l.filter fun p => !q p := by rw [List.filter_cons, hq]; rfl
      rw [e1, e2]
      by_cases h0 : dens (arrayJoint (kernel r.dist (arr id (σ id)) (params (asg arr σ) ρ r))) = 0
      · have hz : ∀ τ : ∀ i, X i, (∀ i, i ∉ (l.filter q).map Prod.fst → τ i = σ i) → densAt arr kernel ρ τ (id, r) = 0 := fun τ hτ => by
          rw [densAt_congr ho (σ := σ) fun i hi => hτ i (not_mem_filter q hi), h0]
        rw [sampleE_congr_free _ σ (ψ := fun _ => 0) fun τ hτ => by simp [hz τ hτ], sampleE_zero, refE_congr _ σ (ψ := fun _ => 0) fun τ hτ => by simp [hz τ hτ], refE_zero]
      · have hv' : ValidAt arr kernel law ref N ρ l σ := by
          have := hv.2 (σ id) (hσ (id, r) (by simp) hq) h0
          rwa [Function.update_eq_self] at this
        have := sampleE_free arr kernel law ref hN ρ q l (fun τ => densAt arr kernel ρ τ (id, r) * φ τ) σ ho.2.2 hv' fun p hp => hσ p (List.mem_cons_of_mem _ hp)
        simp only [List.map_cons, List.prod_cons]
        convert this using 3 <;> ring
    | true =>
      have e1 : ((id, r) :: l).filter q = (id, r) :: l.filter q := by rw [List.filter_cons, hq]; rfl
      have e2 : (((id, r) :: l).filter fun p => !q p) = l.filter fun p => !q p := by rw [List.filter_cons, hq]; rfl
      obtain ⟨good, hval⟩ := hv
      have hprob := good.prob
      rw [e1, e2, sampleE, refE]
      set f : X id → ENNReal := fun x => dens (arrayJoint (kernel r.dist (arr id x) (params (asg arr σ) ρ r))) with hf
      have hfin : ∀ᵐ x ∂(ref id), f x < ⊤ := by
        refine ae_lt_top' good.meas ?_
        have : (law id r.dist (params (asg arr σ) ρ r)) Set.univ = 1 := measure_univ
        rw [good.dens, withDensity_apply _ MeasurableSet.univ, Measure.restrict_univ] at this
        rw [hf, this]; exact ENNReal.one_ne_top
      have hdens : law id r.dist (params (asg arr σ) ρ r) = (ref id).withDensity f := good.dens
      rw [hdens, lintegral_withDensity_eq_lintegral_mul_non_measurable₀ _ good.meas hfin]
      refine lintegral_congr_ae ?_
      filter_upwards [hfin, measure_eq_zero_iff_ae_notMem.1 (hN id)] with x hx hxN
      rw [Pi.mul_apply]
      have e3 : refE ref (l.filter q) (Function.update σ id x) (fun τ => (((id, r) :: l).map (densAt arr kernel ρ τ)).prod * φ τ) =
          refE ref (l.filter q) (Function.update σ id x) (fun τ => f x * ((l.map (densAt arr kernel ρ τ)).prod * φ τ)) := by
        refine refE_congr _ _ fun τ hτ => ?_
        have hp : params (asg arr (Function.update σ id x)) ρ r = params (asg arr σ) ρ r := params_congr_free fun i id' hm => Function.update_of_ne (by rintro rfl; exact ho.1 i hm) _ _
        rw [List.map_cons, List.prod_cons, mul_assoc, densAt_congr ho (σ := Function.update σ id x) fun i hi => hτ i (not_mem_filter q hi), Function.update_self, hp]
      rw [e3, refE_const_mul _ _ hx.ne]
      show f x * _ = f x * _
      by_cases h0 : f x = 0
      · rw [h0, zero_mul, zero_mul]
      · rw [sampleE_free arr kernel law ref hN ρ q l φ _ ho.2.2 (hval x hxN h0) fun p hp hqp => by rw [Function.update_of_ne (ho.2.1 p hp).1]; exact hσ p (List.mem_cons_of_mem _ hp) hqp]

/-- Parameters, when the variables without values are drawn. -/
theorem evalGiven_draws {arr : ∀ i, X i → Arr FVal} {l free : List (ℕ × RVDef Di)} (huser : ∀ p ∈ l, ∀ i, User (p.2.args i)) (href : ∀ p ∈ l, ∀ i, Refers l (p.2.args i)) {vals : ℕ → Option (Arr FVal)} {ρ ρ' : ℕ → Arr FVal}
    {ω : ℕ → Di → List (Arr FVal) → Arr FVal} {τ : ∀ i, X i} (hfresh : ∀ p ∈ l, params (asg arr τ) ρ' p.2 = params (asg arr τ) ρ p.2) (hω : Draws arr ρ free τ ω)
    (hvals : ∀ p ∈ l, vals p.1 = some (arr p.1 (τ p.1)) ∨ vals p.1 = none ∧ p ∈ free) (e : Expr Di) (hu : User e) (hr : Refers l e) : evalGiven vals ρ' ω e = evalAt (asg arr τ) ρ' e := by
  induction e with
  | const x => rfl
  | inp i => rfl
  | app n f args ih =>
    simp only [evalGiven, evalAt]
    congr 1
    funext i
    exact ih i (hu i) (hr i)
  | rv id dist n args ih =>
    rcases hvals _ hr with h | ⟨h, hf⟩
    · simp only at h
      simp only [evalGiven, evalAt, h, asg]
    · simp only at h
      simp only [evalGiven, evalAt, h]
      have e1 : (fun i => evalGiven vals ρ' ω (args i)) = fun i => evalAt (asg arr τ) ρ' (args i) := funext fun i => ih i (huser _ hr i) (href _ hr i)
      rw [e1]
      have := hω _ hf
      rw [← hfresh _ hr] at this
      exact this
  | valued r v => exact hu.elim

/-- What `joint_logprob` returns, as a product over the variables with values. -/
theorem joint_product_given (arr : ∀ i, X i → Arr FVal) (kernel : Di → Arr FVal → List (Arr FVal) → Except Err (Arr FVal))
    (ρ : ℕ → Arr FVal) {l : List (ℕ × RVDef Di)} (hord : DependencyOrder l) (huser : ∀ p ∈ l, ∀ i, User (p.2.args i)) (href : ∀ p ∈ l, ∀ i, Refers l (p.2.args i))
    {rvs clones : List ℕ} {realized : Dict ℕ ℕ} (hc : clones.length = rvs.length) {q : ℕ × RVDef Di → Bool} (hne : (l.filter q) ≠ [])
    (hmem : ∀ v, (v ∈ rvs ∨ v ∈ Dict.keys realized) ↔ v ∈ (l.filter q).map Prod.fst)
    (env : (∀ i, X i) → ℕ → Arr FVal) (henv : ∀ σ v x, Dict.get? (rvValues rvs clones realized) v = some x → env σ x = arr v (σ v))
    (hfresh : ∀ σ, ∀ p ∈ l, params (asg arr σ) (env σ) p.2 = params (asg arr σ) ρ p.2) :
    ∃ j vvs, joint (Dict.get? l) rvs clones realized = .ok (some (j, vvs)) ∧
      ∀ σ ω, Draws arr ρ (l.filter fun p => !q p) σ ω → dens (evalJoint kernel (env σ) ω j) = ((l.filter q).map (densAt arr kernel ρ σ)).prod := by
  have hnd := ids_nodup hord
  have hnd' := ids_nodup (hord.filter q)
  have hget : ∀ p ∈ l, Dict.get? l p.1 = some p.2 := fun p hp => Dict.get?_of_mem hnd hp
  have hsome : ∀ v, v ∈ rvs ∨ v ∈ Dict.keys realized → (Dict.get? l v).isSome := by
    intro v hv
    obtain ⟨p, hp, rfl⟩ := List.mem_map.1 ((hmem v).1 hv)
    rw [hget p (List.mem_of_mem_filter hp)]; rfl
  obtain ⟨terms, vvs, hcond, ⟨-, hkm⟩, hterm⟩ := C106_terms kernel (defs := Dict.get? l) (fun v r hvr i => huser _ (Dict.mem_of_get? hvr) i) hc hsome
  have hkn : (Dict.keys terms).Nodup := (C02_one_term_each (backend_contract (Dict.get? l) (rvValues rvs clones realized)) hc hcond).1
  have hkp : (Dict.keys terms).Perm ((l.filter q).map Prod.fst) := by
    refine (List.perm_ext_iff_of_nodup hkn hnd').2 fun v => ?_
    rw [hkm, hmem]
  have htne : terms ≠ [] := by
    rintro rfl
    have := hkp.length_eq
    simp only [Dict.keys, List.map_nil, List.length_nil, List.length_map] at this
    exact hne (List.length_eq_zero_iff.1 this.symm)
  obtain ⟨j, hj, hdens⟩ := dens_evalJoint kernel htne hcond
  refine ⟨j, vvs, hj, fun σ ω hω => ?_⟩
  rw [hdens]
  have hvals : ∀ p ∈ l, (Dict.get? (rvValues rvs clones realized) p.1).map (env σ) = some (arr p.1 (σ p.1)) ∨
      (Dict.get? (rvValues rvs clones realized) p.1).map (env σ) = none ∧ p ∈ l.filter fun p => !q p := by
    intro p hp
    cases hy : Dict.get? (rvValues rvs clones realized) p.1 with
    | some y => exact .inl (congrArg some (henv σ _ _ hy))
    | none =>
      refine .inr ⟨rfl, List.mem_filter.2 ⟨hp, ?_⟩⟩
      cases hq : q p with
      | false => rfl
      | true =>
        have : p.1 ∈ Dict.keys (rvValues rvs clones realized) := by
          rw [rvValues, Dict.mem_keys_update, Dict.mem_keys_ofList, List.map_fst_zip hc.ge]
          exact (hmem _).2 (List.mem_map.2 ⟨p, List.mem_filter.2 ⟨hp, hq⟩, rfl⟩)
        obtain ⟨y, hy'⟩ := Dict.get?_isSome.2 this
        rw [hy] at hy'
        cases hy'
  have hkey : ∀ p ∈ terms, dens (arrayJoint (p.2.eval kernel (env σ) ω)) =
      (match Dict.get? l p.1 with
        | some r => densAt arr kernel ρ σ (p.1, r)
        | none => 0) := by
    intro p hp
    have hpk : p.1 ∈ Dict.keys terms := List.mem_map.2 ⟨p, hp, rfl⟩
    obtain ⟨s, hs, hse⟩ := List.mem_map.1 (hkp.subset hpk)
    have hs' := List.mem_of_mem_filter hs
    have hrv : p.1 ∈ rvs ∨ p.1 ∈ Dict.keys realized := (hkm _).1 hpk
    have hdef : Dict.get? l p.1 = some s.2 := by rw [← hse]; exact hget s hs'
    obtain ⟨x, t, hx, ht, hev⟩ := hterm p.1 s.2 hrv hdef
    have hpt : t = p.2 := by
      rw [Dict.get?_of_mem hkn (show (p.1, p.2) ∈ terms from hp)] at ht
      exact (Option.some.inj ht).symm
    rw [hdef, ← hpt, hev, henv σ _ _ hx]
    simp only [densAt]
    congr 3
    rw [← hfresh σ s hs']
    simp only [params]
    congr 1
    funext i
    exact evalGiven_draws huser href (hfresh σ) hω hvals _ (huser s hs' i) (href s hs' i)
  rw [List.map_congr_left hkey]
  have e1 : (terms.map fun p => match Dict.get? l p.1 with
        | some r => densAt arr kernel ρ σ (p.1, r)
        | none => 0) = (Dict.keys terms).map fun v => match Dict.get? l v with
        | some r => densAt arr kernel ρ σ (v, r)
        | none => 0 := by rw [Dict.keys, List.map_map]; rfl
  rw [e1, (hkp.map _).prod_eq, List.map_map]
  congr 1
  refine List.map_congr_left fun p hp => ?_
  simp [hget p (List.mem_of_mem_filter hp)]

theorem withValue_mem {l : List (ℕ × RVDef Di)} {rvs : List ℕ} {realized : Dict ℕ ℕ} (hin : ∀ v, v ∈ rvs ∨ v ∈ Dict.keys realized → v ∈ l.map Prod.fst) (v : ℕ) :
    (v ∈ rvs ∨ v ∈ Dict.keys realized) ↔ v ∈ (withValue l rvs realized).map Prod.fst := by
  constructor
  · intro h
    obtain ⟨p, hp, rfl⟩ := List.mem_map.1 (hin v h)
    exact List.mem_map.2 ⟨p, List.mem_filter.2 ⟨hp, by simpa using h⟩, rfl⟩
  · intro h
    obtain ⟨p, hp, rfl⟩ := List.mem_map.1 h
    simpa using (List.mem_filter.1 hp).2

theorem withValue_ne {l : List (ℕ × RVDef Di)} {rvs : List ℕ} {realized : Dict ℕ ℕ} (hin : ∀ v, v ∈ rvs ∨ v ∈ Dict.keys realized → v ∈ l.map Prod.fst) {v : ℕ} (h : v ∈ rvs ∨ v ∈ Dict.keys realized) :
    withValue l rvs realized ≠ [] := by
  intro he
  have := (withValue_mem hin v).1 h
  simp [he] at this

/-- **C133** Some variables of a model are requested or realized, the others have no value.  The joint log-probability then contains draws of the latter, made given the values of the former.  Averaged over these draws (`sampleE` over the
variables without value, the others having their values in `σ`), `exp` of the joint log-probability is what is left of `exp` of the joint log-probability of all variables (`rvs'`) when the values of the variables without value are integrated out.
`ω τ` is the run of the samplers that gives the draws in `τ`. -/
theorem C133_arrays_average (arr : ∀ i, X i → Arr FVal) (kernel : Di → Arr FVal → List (Arr FVal) → Except Err (Arr FVal)) (law : ∀ i, Di → List (Arr FVal) → Measure (X i)) (ref : ∀ i, Measure (X i))
    (ρ : ℕ → Arr FVal) {l : List (ℕ × RVDef Di)} (hord : DependencyOrder l) (huser : ∀ p ∈ l, ∀ i, User (p.2.args i)) (href : ∀ p ∈ l, ∀ i, Refers l (p.2.args i))
    {rvs clones rvs' clones' : List ℕ} {realized : Dict ℕ ℕ} (hc : clones.length = rvs.length) (hc' : clones'.length = rvs'.length)
    (hin : ∀ v, v ∈ rvs ∨ v ∈ Dict.keys realized → v ∈ l.map Prod.fst) (hsome : ∃ v, v ∈ rvs ∨ v ∈ Dict.keys realized) (hall : ∀ v, v ∈ rvs' ↔ v ∈ l.map Prod.fst)
    (env env' : (∀ i, X i) → ℕ → Arr FVal) (henv : ∀ σ v x, Dict.get? (rvValues rvs clones realized) v = some x → env σ x = arr v (σ v))
    (henv' : ∀ σ v x, Dict.get? (rvValues rvs' clones' []) v = some x → env' σ x = arr v (σ v))
    (hfresh : ∀ σ, ∀ p ∈ l, params (asg arr σ) (env σ) p.2 = params (asg arr σ) ρ p.2) (hfresh' : ∀ σ, ∀ p ∈ l, params (asg arr σ) (env' σ) p.2 = params (asg arr σ) ρ p.2) :
    ∃ j vvs j' vvs', joint (Dict.get? l) rvs clones realized = .ok (some (j, vvs)) ∧ joint (Dict.get? l) rvs' clones' [] = .ok (some (j', vvs')) ∧
      ∀ ω ω' : (∀ i, X i) → ℕ → Di → List (Arr FVal) → Arr FVal, (∀ τ, Draws arr ρ (withoutValue l rvs realized) τ (ω τ)) → ∀ N : ∀ i, Set (X i), (∀ i, ref i (N i) = 0) → ∀ σ, (∀ p ∈ withValue l rvs realized, σ p.1 ∉ N p.1) → ValidAt arr kernel law ref N ρ l σ →
        sampleE arr law ρ (withoutValue l rvs realized) σ (fun τ => dens (evalJoint kernel (env τ) (ω τ) j)) =
          refE ref (withoutValue l rvs realized) σ (fun τ => dens (evalJoint kernel (env' τ) (ω' τ) j')) := by
  obtain ⟨v, hv⟩ := hsome
  obtain ⟨j, vvs, hj, hp⟩ := joint_product_given arr kernel ρ hord huser href hc (q := fun p => decide (p.1 ∈ rvs ∨ p.1 ∈ Dict.keys realized)) (withValue_ne hin hv) (withValue_mem hin) env henv hfresh
  have ht : l.filter (fun _ => true) = l := by simp
  obtain ⟨j', vvs', hj', hp'⟩ := joint_product_given arr kernel ρ hord huser href hc' (q := fun _ => true) (realized := [])
    (by rw [ht]; rintro rfl; simpa using hin v hv) (fun v => by rw [ht, ← hall]; simp [Dict.keys]) env' henv' hfresh'
  refine ⟨j, vvs, j', vvs', hj, hj', fun ω ω' hω N hN σ hσ hval => ?_⟩
  have := sampleE_free arr kernel law ref hN ρ (fun p => !decide (p.1 ∈ rvs ∨ p.1 ∈ Dict.keys realized)) l (fun _ => 1) σ hord hval fun p hp hq => hσ p (List.mem_filter.2 ⟨hp, by simpa only [Bool.not_eq_false'] using hq⟩)
  simp only [mul_one, Bool.not_not] at this
  rw [withoutValue]
  convert this using 2
  · funext τ
    exact hp τ (ω τ) (hω τ)
  · funext τ
    rw [hp' τ (ω' τ) (fun p hp => by simp at hp), ht]

theorem refE_mul_indep {ref : ∀ i, Measure (X i)} [∀ d, SigmaFinite (ref d)] {l : List (ℕ × RVDef Di)} (hn : (l.map Prod.fst).Nodup) {g φ : (∀ i, X i) → ENNReal} (hg : Measurable g) (hφ : Measurable φ)
    (hi : ∀ τ τ' : ∀ i, X i, (∀ i, i ∉ l.map Prod.fst → τ i = τ' i) → φ τ = φ τ') (σ : ∀ i, X i) : refE ref l σ (fun τ => g τ * φ τ) = refE ref l σ g * φ σ := by
  rw [refE_eq_lmarginal (show Measurable fun τ => g τ * φ τ from hg.mul hφ) l σ hn, refE_eq_lmarginal hg l σ hn, lmarginal, lmarginal,
    ← lintegral_mul_const _ (show Measurable fun y => g (Function.updateFinset σ (l.map Prod.fst).toFinset y) from hg.comp measurable_updateFinset)]
  refine lintegral_congr fun y => ?_
  rw [hi (Function.updateFinset σ _ y) σ fun i h => ?_]
  rw [Function.updateFinset, dif_neg (by simpa using h)]

/-- **C133** (density) As a function of the values of the variables that have one, the average over the draws of the others of `exp` of the joint log-probability is the density of the former in the model: for every function `φ` of their values,
integrating `φ` against it gives the expectation of `φ` when the whole model is sampled. -/
theorem C133_arrays_marginal (arr : ∀ i, X i → Arr FVal) (kernel : Di → Arr FVal → List (Arr FVal) → Except Err (Arr FVal)) (law : ∀ i, Di → List (Arr FVal) → Measure (X i)) (ref : ∀ i, Measure (X i)) [∀ d, SigmaFinite (ref d)]
    (ρ : ℕ → Arr FVal) {l : List (ℕ × RVDef Di)} (hord : DependencyOrder l) (huser : ∀ p ∈ l, ∀ i, User (p.2.args i)) (href : ∀ p ∈ l, ∀ i, Refers l (p.2.args i))
    {rvs clones : List ℕ} {realized : Dict ℕ ℕ} (hc : clones.length = rvs.length)
    (hin : ∀ v, v ∈ rvs ∨ v ∈ Dict.keys realized → v ∈ l.map Prod.fst) (hsome : ∃ v, v ∈ rvs ∨ v ∈ Dict.keys realized)
    (env : (∀ i, X i) → ℕ → Arr FVal) (henv : ∀ σ v x, Dict.get? (rvValues rvs clones realized) v = some x → env σ x = arr v (σ v))
    (hfresh : ∀ σ, ∀ p ∈ l, params (asg arr σ) (env σ) p.2 = params (asg arr σ) ρ p.2)
    (hmeas : Measurable fun σ : ∀ i, X i => (l.map fun p => dens (arrayJoint (kernel p.2.dist (arr p.1 (σ p.1)) (params (asg arr σ) ρ p.2)))).prod) :
    ∃ j vvs, joint (Dict.get? l) rvs clones realized = .ok (some (j, vvs)) ∧
      ∀ ω : (∀ i, X i) → ℕ → Di → List (Arr FVal) → Arr FVal, (∀ τ, Draws arr ρ (withoutValue l rvs realized) τ (ω τ)) → ∀ N : ∀ i, Set (X i), (∀ i, ref i (N i) = 0) → ∀ σ₀, ValidAt arr kernel law ref N ρ l σ₀ →
        ∀ φ : (∀ i, X i) → ENNReal, Measurable φ → (∀ τ τ' : ∀ i, X i, (∀ i, i ∉ (withoutValue l rvs realized).map Prod.fst → τ i = τ' i) → φ τ = φ τ') →
          refE ref (withValue l rvs realized) σ₀ (fun σ => sampleE arr law ρ (withoutValue l rvs realized) σ (fun τ => dens (evalJoint kernel (env τ) (ω τ) j)) * φ σ) = sampleE arr law ρ l σ₀ φ := by
  obtain ⟨v, hv⟩ := hsome
  obtain ⟨j, vvs, hj, hp⟩ := joint_product_given arr kernel ρ hord huser href hc (q := fun p => decide (p.1 ∈ rvs ∨ p.1 ∈ Dict.keys realized)) (withValue_ne hin hv) (withValue_mem hin) env henv hfresh
  refine ⟨j, vvs, hj, fun ω hω N hN σ₀ hval φ hφ hi => ?_⟩
  set g : (∀ i, X i) → ENNReal := fun σ => (l.map (densAt arr kernel ρ σ)).prod with hg
  have hgm : Measurable g := hmeas
  have hn := ids_nodup hord
  obtain ⟨hs, hd⟩ := Graph.toFinset_split Prod.fst l hn fun p => !decide (p.1 ∈ rvs ∨ p.1 ∈ Dict.keys realized)
  simp only [Bool.not_not] at hs hd
  have hnW : ((withoutValue l rvs realized).map Prod.fst).Nodup := hn.sublist (List.filter_sublist.map _)
  have hnV : ((withValue l rvs realized).map Prod.fst).Nodup := hn.sublist (List.filter_sublist.map _)
  have e1 : refE ref (withValue l rvs realized) σ₀ (fun σ => sampleE arr law ρ (withoutValue l rvs realized) σ (fun τ => dens (evalJoint kernel (env τ) (ω τ) j)) * φ σ) =
      refE ref (withValue l rvs realized) σ₀ (fun σ => refE ref (withoutValue l rvs realized) σ fun τ => g τ * φ τ) := by
    refine refE_congr_ae hN _ _ hnV fun σ hσ hσN => ?_
    rw [refE_mul_indep hnW hgm hφ hi]
    congr 1
    have hval' : ValidAt arr kernel law ref N ρ l σ := validAt_congr l hord (fun i h => hσ i fun h' => h ((List.filter_sublist.map _).subset h')) hval
    have := sampleE_free arr kernel law ref hN ρ (fun p => !decide (p.1 ∈ rvs ∨ p.1 ∈ Dict.keys realized)) l (fun _ => 1) σ hord hval' fun p hp hq => hσN p (List.mem_filter.2 ⟨hp, by simpa only [Bool.not_eq_false'] using hq⟩)
    simp only [mul_one, Bool.not_not] at this
    rw [withoutValue]
    convert this using 2
    funext τ
    exact hp τ (ω τ) (hω τ)
  have hgφ : Measurable fun τ => g τ * φ τ := hgm.mul hφ
  have e2 : (fun σ => refE ref (withoutValue l rvs realized) σ fun τ => g τ * φ τ) = (∫⋯∫⁻_((withoutValue l rvs realized).map Prod.fst).toFinset, (fun τ => g τ * φ τ) ∂ref) :=
    funext fun σ => refE_eq_lmarginal hgφ _ σ hnW
  rw [e1, e2, refE_eq_lmarginal (hgφ.lmarginal _) _ σ₀ hnV]
  rw [← refE_eq_sampleE arr kernel law ref ρ φ l σ₀ hord (hval.valid hN)]
  show _ = refE ref l σ₀ fun τ => g τ * φ τ
  rw [refE_eq_lmarginal hgφ l σ₀ hn, hs, lmarginal_union _ _ hgφ hd]
  rfl

end Verif.ArrGraph

/-! The eight-schools model, with any number of groups. -/

namespace Verif.ArrGraph.Schools
open Verif Cond MeasureTheory ProbabilityTheory

theorem dens_numbers {k : FVal → List FVal → Except Err FVal} {s : List ℕ} {p : List (Arr FVal)} (hfit : Fit s p) (x : Fin (entries s) → ℝ) :
    dens (arrayJoint (elemwiseLogprob k (numbers s x) p)) = ∏ i : Fin (entries s), dens (k (.fin (x i)) (paramsAt p (coord i))) := by
  have hs : bshape ((numbers s x).shape :: p.map Arr.shape) = some s := hfit
  rw [elemwiseLogprob, hs]
  simp only
  refine (dens_entries _ s).trans (Finset.prod_congr rfl fun i _ => ?_)
  rw [entryLogprob, entryAt, show (numbers s x).shape = s from rfl, project_self (coord_inRange i), numbers_get]
  rfl

theorem normal_dens (x m s : ℝ) : dens (normalLogprob (.fin x) (.fin m) (.fin s)) = if 0 < s then ENNReal.ofReal ((Real.sqrt (2 * Real.pi * s ^ 2))⁻¹ * Real.exp (-(x - m) ^ 2 / (2 * s ^ 2))) else 0 := by
  split_ifs with h
  · rw [normal_eval x m h, dens_log (gaussianPDFReal_pos _ _ _ (toNNReal_sq_ne h)), gaussianPDFReal, Real.coe_toNNReal _ (sq_nonneg s)]
  · simp [normalLogprob, checkParam, FVal.gt, FVal.lt, h, dens]

theorem normal_measurable {Y : Type} [MeasurableSpace Y] {x m s : Y → ℝ} (hx : Measurable x) (hm : Measurable m) (hs : Measurable s) :
    Measurable fun y => dens (normalLogprob (.fin (x y)) (.fin (m y)) (.fin (s y))) := by
  simp only [normal_dens]
  refine Measurable.ite (measurableSet_lt measurable_const hs) ?_ measurable_const
  refine Measurable.ennreal_ofReal ?_
  fun_prop

theorem exp_measurable {Y : Type} [MeasurableSpace Y] {x : Y → ℝ} (hx : Measurable x) {m : ℝ} (hm : 0 < m) : Measurable fun y => dens (exponentialLogprob (.fin (x y)) (.fin m)) := by
  have e : (fun y => dens (exponentialLogprob (.fin (x y)) (.fin m))) = exponentialPDF m⁻¹ ∘ x := by
    funext y
    exact congrFun (TransVec.Demo.dens_exponential hm) (x y)
  rw [e]
  exact ((measurable_exponentialPDFReal _).ennreal_ofReal).comp hx

variable (J : ℕ)

/-- The values of all variables. -/
abbrev Values : Type := ∀ i, Fin (entries (shape J i)) → ℝ

theorem entry_meas (i : ℕ) (k : Fin (entries (shape J i))) : Measurable fun σ : Values J => σ i k := (measurable_pi_apply k).comp (measurable_pi_apply i)

noncomputable abbrev arrs (i : ℕ) : (Fin (entries (shape J i)) → ℝ) → Arr FVal := numbers (shape J i)

theorem params0 (σ ρ : ℕ → Arr FVal) : params σ ρ mu = [scalar 0, scalar 5] := by simp [params, mu, List.ofFn_succ, evalAt]
theorem params1 (σ ρ : ℕ → Arr FVal) : params σ ρ tau = [scalar 5] := by simp [params, tau, List.ofFn_succ, evalAt]
theorem params2 (σ : Values J) (ρ : ℕ → Arr FVal) : params (asg (arrs J) σ) ρ theta = [numbers [] (σ 0), numbers [] (σ 1)] := by
  simp only [params, theta, List.ofFn_succ, evalAt, asg]
  rfl
theorem params3 (sd : ℕ → ℝ) (σ : Values J) (ρ : ℕ → Arr FVal) : params (asg (arrs J) σ) ρ (y J sd) = [numbers [J] (σ 2), vector J sd] := by
  simp only [params, y, List.ofFn_succ, evalAt, asg]
  rfl

theorem density_measurable (sd : ℕ → ℝ) (ρ : ℕ → Arr FVal) :
    Measurable fun σ : Values J => ((model J sd).map fun p => dens (arrayJoint (kernel p.2.dist (arrs J p.1 (σ p.1)) (params (asg (arrs J) σ) ρ p.2)))).prod := by
  simp only [model, List.map_cons, List.map_nil, List.prod_cons, List.prod_nil, mul_one, params0, params1, params2, params3]
  have hfit3 : ∀ σ : Values J, Fit [J] [numbers [J] (σ 2), vector J sd] := fun σ => bshape_replicate (s := [J]) (by simp [numbers, vector]) (by simp)
  have m0 : Measurable fun σ : Values J => dens (arrayJoint (kernel mu.dist (arrs J 0 (σ 0)) [scalar 0, scalar 5])) := by
    have e : ∀ σ : Values J, dens (arrayJoint (kernel mu.dist (arrs J 0 (σ 0)) [scalar 0, scalar 5])) = ∏ i : Fin (entries []), dens (normalLogprob (.fin (σ 0 i)) (.fin 0) (.fin 5)) := fun σ =>
      dens_numbers (k := normalK) (s := []) (p := [scalar 0, scalar 5]) (fit_scalars rfl rfl) (σ 0)
    simp only [e]
    exact Finset.measurable_prod _ fun i _ => normal_measurable (entry_meas J 0 i) measurable_const measurable_const
  have m1 : Measurable fun σ : Values J => dens (arrayJoint (kernel tau.dist (arrs J 1 (σ 1)) [scalar 5])) := by
    have e : ∀ σ : Values J, dens (arrayJoint (kernel tau.dist (arrs J 1 (σ 1)) [scalar 5])) = ∏ i : Fin (entries []), dens (exponentialLogprob (.fin (σ 1 i)) (.fin 5)) := fun σ =>
      dens_numbers (k := expK) (s := []) (p := [scalar 5]) rfl (σ 1)
    simp only [e]
    exact Finset.measurable_prod _ fun i _ => exp_measurable (entry_meas J 1 i) (by norm_num)
  have m2 : Measurable fun σ : Values J => dens (arrayJoint (kernel theta.dist (arrs J 2 (σ 2)) [numbers [] (σ 0), numbers [] (σ 1)])) := by
    have e : ∀ σ : Values J, dens (arrayJoint (kernel theta.dist (arrs J 2 (σ 2)) [numbers [] (σ 0), numbers [] (σ 1)])) =
        ∏ i : Fin (entries [J]), dens (normalLogprob (.fin (σ 2 i)) (.fin (σ 0 ⟨0, one_pos⟩)) (.fin (σ 1 ⟨0, one_pos⟩))) := fun σ => by
      refine (dens_numbers (k := normalK) (s := [J]) (fit_scalars rfl rfl) (σ 2)).trans (Finset.prod_congr rfl fun i _ => ?_)
      have hp : paramsAt [numbers [] (σ 0), numbers [] (σ 1)] (coord i) = [.fin (σ 0 ⟨0, one_pos⟩), .fin (σ 1 ⟨0, one_pos⟩)] := by
        simp only [paramsAt, List.map_cons, List.map_nil]
        exact congrArg₂ (fun a b => [a, b]) (scalar_entry (σ 0) (coord i)) (scalar_entry (σ 1) (coord i))
      rw [hp]
      rfl
    simp only [e]
    exact Finset.measurable_prod _ fun i _ => normal_measurable (entry_meas J 2 i) (entry_meas J 0 _) (entry_meas J 1 _)
  have m3 : Measurable fun σ : Values J => dens (arrayJoint (kernel (y J sd).dist (arrs J 3 (σ 3)) [numbers [J] (σ 2), vector J sd])) := by
    have e : ∀ σ : Values J, dens (arrayJoint (kernel (y J sd).dist (arrs J 3 (σ 3)) [numbers [J] (σ 2), vector J sd])) =
        ∏ i : Fin (entries [J]), dens (normalLogprob (.fin (σ 3 i)) (.fin (σ 2 i)) (.fin (sd ((coord i).headD 0)))) := fun σ => by
      refine (dens_numbers (k := normalK) (s := [J]) (hfit3 σ) (σ 3)).trans (Finset.prod_congr rfl fun i _ => ?_)
      simp only [paramsAt, List.map_cons, List.map_nil]
      rw [show (numbers [J] (σ 2)).shape = [J] from rfl, project_self (coord_inRange i), numbers_get (s := [J]) (σ 2) i, show (vector J sd).shape = [J] from rfl, project_self (coord_inRange i)]
      rfl
    simp only [e]
    exact Finset.measurable_prod _ fun i _ => normal_measurable (entry_meas J 3 i) (entry_meas J 2 _) measurable_const
  exact m0.mul (m1.mul (m2.mul m3))

/-- The scale of the groups is not zero. -/
def null (i : ℕ) : Set (Fin (entries (shape J i)) → ℝ) := {x | i = 1 ∧ ∃ k, x k = 0}

theorem null_zero (i : ℕ) : ref J i (null J i) = 0 := by
  by_cases h : i = 1
  · subst h
    refine measure_mono_null (t := ⋃ k : Fin (entries (shape J 1)), {x | x k = 0}) (fun x hx => Set.mem_iUnion.2 hx.2) ?_
    refine (measure_iUnion_null_iff).2 fun k => ?_
    rw [ref]
    exact Measure.pi_hyperplane (fun _ : Fin (entries (shape J 1)) => (volume : Measure ℝ)) k 0
  · simp [null, h]

theorem validAt {sd : ℕ → ℝ} (hsd : ∀ i, 0 < sd i) (ρ : ℕ → Arr FVal) (σ : Values J) : ValidAt (arrs J) kernel (law J) (ref J) (null J) ρ (model J sd) σ := by
  refine ⟨?_, fun x0 _ _ => ⟨?_, fun x1 hn hd => ?_⟩⟩
  · rw [params0]
    exact normal_good (s := []) (fit_scalars rfl rfl) (m := fun _ => 0) (sd := fun _ => 5) (fun _ => rfl) (fun _ => rfl) (by norm_num)
  · rw [params1]
    exact exp_good (s := []) (a := scalar 5) rfl (m := fun _ => 5) (fun _ => rfl) (by norm_num)
  have h1 : 0 < x1 (⟨0, one_pos⟩ : Fin 1) := by
    rw [params1] at hd
    have e : dens (arrayJoint (kernel tau.dist (arrs J 1 x1) [scalar 5])) = ∏ i : Fin (entries []), dens (exponentialLogprob (.fin (x1 i)) (.fin 5)) := dens_numbers (k := expK) (s := []) (p := [scalar 5]) rfl x1
    have h0 := Finset.prod_ne_zero_iff.1 (e ▸ hd) ⟨0, one_pos⟩ (Finset.mem_univ _)
    replace h0 : exponentialPDF 5⁻¹ (x1 (⟨0, one_pos⟩ : Fin 1)) ≠ 0 := fun h => h0 ((congrFun (TransVec.Demo.dens_exponential (by norm_num)) _).trans h)
    have h2 : x1 (⟨0, one_pos⟩ : Fin 1) ≠ 0 := fun h => hn ⟨rfl, _, h⟩
    generalize x1 (⟨0, one_pos⟩ : Fin 1) = z at h0 h2 ⊢
    rcases lt_or_gt_of_ne h2 with h | h
    · exact absurd (by simp [exponentialPDF_eq, not_le.2 h]) h0
    · exact h
  refine ⟨?_, fun x2 _ _ => ⟨?_, fun _ _ _ => trivial⟩⟩
  · rw [params2 J]
    exact normal_good (s := [J]) (fit_scalars rfl rfl) (fun k => scalar_entry x0 (coord k)) (fun k => scalar_entry x1 (coord k)) fun _ => h1
  · rw [params3 J]
    show GoodAt (numbers [J]) (kernel .normal) (Measure.pi fun k : Fin (entries [J]) => law1 .normal (paramsAt [numbers [J] x2, vector J sd] (coord k))) (Measure.pi fun _ => volume) [numbers [J] x2, vector J sd]
    have hfit : Fit [J] [numbers [J] x2, vector J sd] := bshape_replicate (s := [J]) (by simp [numbers, vector]) (by simp)
    refine normal_good (s := [J]) hfit (m := x2) (sd := fun k => sd ((coord k).headD 0)) (fun k => ?_) (fun k => ?_) fun k => hsd _
    · rw [show (numbers [J] x2).shape = [J] from rfl, project_self (coord_inRange k)]
      exact numbers_get (s := [J]) x2 k
    · rw [show (vector J sd).shape = [J] from rfl, project_self (coord_inRange k)]
      rfl

theorem order (sd : ℕ → ℝ) : DependencyOrder (model J sd) := by simp [DependencyOrder, model, mu, tau, theta, y, Mentions, Fin.forall_fin_two]
theorem user (sd : ℕ → ℝ) : ∀ p ∈ model J sd, ∀ i, User (p.2.args i) := by simp [model, mu, tau, theta, y, User, Fin.forall_fin_two]
theorem refers (sd : ℕ → ℝ) : ∀ p ∈ model J sd, ∀ i, Refers (model J sd) (p.2.args i) := by simp [model, mu, tau, theta, y, Refers, Fin.forall_fin_two]
theorem fresh (sd : ℕ → ℝ) (ρ : ℕ → Arr FVal) (σ : Values J) : ∀ p ∈ model J sd, params (asg (arrs J) σ) (env J σ) p.2 = params (asg (arrs J) σ) ρ p.2 := by
  intro p hp
  simp only [model, List.mem_cons, List.not_mem_nil, or_false] at hp
  rcases hp with rfl | rfl | rfl | rfl <;> simp [params, mu, tau, theta, y, List.ofFn_succ, evalAt]

instance (i : ℕ) : SigmaFinite (ref J i) := by unfold ref; infer_instance

/-- The samplers give the group effects `τ 2`. -/
noncomputable def runAt (τ : Values J) (i : ℕ) (_ : Dist) (_ : List (Arr FVal)) : Arr FVal := arrs J i (τ i)

theorem envA (σ : Values J) {v x : ℕ} (h : Dict.get? (rvValues [0, 1] [10, 11] [(3, 13)]) v = some x) : env J σ x = arrs J v (σ v) := by
  have e : rvValues [0, 1] [10, 11] [(3, 13)] = [(0, 10), (1, 11), (3, 13)] := by decide
  rw [e] at h
  simp only [Dict.get?] at h
  split_ifs at h with h1 h2 h3 <;> cases h <;> (subst_vars; rfl)

theorem envB (σ : Values J) {v x : ℕ} (h : Dict.get? (rvValues [3, 2, 1, 0] [13, 12, 11, 10] []) v = some x) : env J σ x = arrs J v (σ v) := by
  have e : rvValues [3, 2, 1, 0] [13, 12, 11, 10] [] = [(3, 13), (2, 12), (1, 11), (0, 10)] := by decide
  rw [e] at h
  simp only [Dict.get?] at h
  split_ifs at h with h1 h2 h3 h4 <;> cases h <;> (subst_vars; rfl)

/-- Without values for the group effects `θ`, the joint probability averages them out: the mean over their draws is the integral of the full joint density over them. -/
example {sd : ℕ → ℝ} (hsd : ∀ i, 0 < sd i) (ρ : ℕ → Arr FVal) (ω' : Values J → ℕ → Dist → List (Arr FVal) → Arr FVal) :
    ∃ j vvs j' vvs', joint (Dict.get? (model J sd)) [0, 1] [10, 11] [(3, 13)] = .ok (some (j, vvs)) ∧ joint (Dict.get? (model J sd)) [3, 2, 1, 0] [13, 12, 11, 10] [] = .ok (some (j', vvs')) ∧
      ∀ σ : Values J, σ 1 ∉ null J 1 → sampleE (arrs J) (law J) ρ [(2, theta)] σ (fun τ => dens (evalJoint kernel (env J τ) (runAt J τ) j)) =
        refE (ref J) [(2, theta)] σ (fun τ => dens (evalJoint kernel (env J τ) (ω' τ) j')) := by
  obtain ⟨j, vvs, j', vvs', h1, h2, h3⟩ := C133_arrays_average (arrs J) kernel (law J) (ref J) ρ (order J sd) (user J sd) (refers J sd) (rvs := [0, 1]) (clones := [10, 11]) (rvs' := [3, 2, 1, 0])
    (clones' := [13, 12, 11, 10]) (realized := [(3, 13)]) rfl rfl (by intro v; simp [model, Dict.keys]; tauto) ⟨0, by simp⟩ (by intro v; simp [model]; tauto) (env J) (env J)
    (fun σ v x h => envA J σ h) (fun σ v x h => envB J σ h) (fresh J sd ρ) (fresh J sd ρ)
  refine ⟨j, vvs, j', vvs', h1, h2, fun σ hσ => ?_⟩
  have := h3 (runAt J) ω' (fun τ p _ => rfl) (null J) (null_zero J) σ (by
    intro p hp
    simp only [withValue, model, List.mem_filter, List.mem_cons, List.not_mem_nil, or_false] at hp
    rcases hp.1 with rfl | rfl | rfl | rfl
    · simp [null]
    · exact hσ
    · simp [null]
    · simp [null]) (validAt J hsd ρ σ)
  simpa [withoutValue, model, Dict.keys] using this

/-- And with the other variables integrated over, it is the density of their values. -/
example {sd : ℕ → ℝ} (hsd : ∀ i, 0 < sd i) (ρ : ℕ → Arr FVal) :
    ∃ j vvs, joint (Dict.get? (model J sd)) [0, 1] [10, 11] [(3, 13)] = .ok (some (j, vvs)) ∧
      ∀ (σ₀ : Values J) (φ : Values J → ENNReal), Measurable φ → (∀ τ τ' : Values J, (∀ i, i ≠ 2 → τ i = τ' i) → φ τ = φ τ') →
        refE (ref J) [(0, mu), (1, tau), (3, y J sd)] σ₀ (fun σ => sampleE (arrs J) (law J) ρ [(2, theta)] σ (fun τ => dens (evalJoint kernel (env J τ) (runAt J τ) j)) * φ σ) =
          sampleE (arrs J) (law J) ρ (model J sd) σ₀ φ := by
  obtain ⟨j, vvs, h1, h2⟩ := C133_arrays_marginal (arrs J) kernel (law J) (ref J) ρ (order J sd) (user J sd) (refers J sd) (rvs := [0, 1]) (clones := [10, 11]) (realized := [(3, 13)])
    rfl (by intro v; simp [model, Dict.keys]; tauto) ⟨0, by simp⟩ (env J) (fun σ v x h => envA J σ h) (fresh J sd ρ) (density_measurable J sd ρ)
  refine ⟨j, vvs, h1, fun σ₀ φ hφ hi => ?_⟩
  have e1 : withoutValue (model J sd) [0, 1] [(3, 13)] = [(2, theta)] := by simp [withoutValue, model, Dict.keys]
  have e2 : withValue (model J sd) [0, 1] [(3, 13)] = [(0, mu), (1, tau), (3, y J sd)] := by simp [withValue, model, Dict.keys]
  have := h2 (runAt J) (fun τ p _ => rfl) (null J) (null_zero J) σ₀ (validAt J hsd ρ σ₀) φ hφ (by rw [e1]; intro τ τ' h; exact hi τ τ' fun i hi => h i (by simpa using hi))
  rwa [e1, e2] at this

/-- The posterior of the parameters and the group effects given the observations. -/
example {sd : ℕ → ℝ} (hsd : ∀ i, 0 < sd i) (ρ : ℕ → Arr FVal) (ω : ℕ → Dist → List (Arr FVal) → Arr FVal) :
    ∃ j vvs, joint (Dict.get? (model J sd)) [2, 1, 0] [12, 11, 10] [(3, 13)] = .ok (some (j, vvs)) ∧
      ∀ (σ₀ : Values J) (φ : Values J → ENNReal), Measurable φ →
        sampleE (arrs J) (law J) ρ (model J sd) σ₀ (averageE (ref J) [(0, mu), (1, tau), (2, theta)] (fun σ => dens (evalJoint kernel (env J σ) ω j)) φ) =
          sampleE (arrs J) (law J) ρ (model J sd) σ₀ φ := by
  have henv : ∀ (σ : Values J) v x, Dict.get? (rvValues [2, 1, 0] [12, 11, 10] [(3, 13)]) v = some x → env J σ x = arrs J v (σ v) := by
    intro σ v x h
    have e : rvValues [2, 1, 0] [12, 11, 10] [(3, 13)] = [(2, 12), (1, 11), (0, 10), (3, 13)] := by decide
    rw [e] at h
    simp only [Dict.get?] at h
    split_ifs at h with h1 h2 h3 h4 <;> cases h <;> (subst_vars; rfl)
  obtain ⟨j, vvs, h1, h2⟩ := C130_arrays_partial (arrs J) kernel (law J) (ref J) ρ ω (l := model J sd) (by simp [model]) (order J sd) (user J sd) (rvs := [2, 1, 0]) (clones := [12, 11, 10])
    (realized := [(3, 13)]) rfl (by intro v; simp [model, Dict.keys]; tauto) (by simp [model, mu, tau, theta, y, Mentions, Fin.forall_fin_two]) (env J) henv (fresh J sd ρ)
  have ht : (model J sd).filter (fun _ => true) = model J sd := by simp
  obtain ⟨j', vvs', h1', h2'⟩ := joint_product_given (arrs J) kernel ρ (order J sd) (user J sd) (refers J sd) (rvs := [2, 1, 0]) (clones := [12, 11, 10]) (realized := [(3, 13)]) rfl
    (q := fun _ => true) (by simp [model]) (by intro v; simp [model, Dict.keys]; tauto) (env J) henv (fresh J sd ρ)
  rw [h1] at h1'
  cases h1'
  refine ⟨j, vvs, h1, fun σ₀ φ hφ => ?_⟩
  have e1 : (model J sd).filter (fun p => p.1 ∉ Dict.keys [(3, 13)]) = [(0, mu), (1, tau), (2, theta)] := by simp [model, Dict.keys]
  have := (h2 _ rfl (by
    have e : (fun σ : Values J => dens (evalJoint kernel (env J σ) ω j)) =
        fun σ : Values J => ((model J sd).map fun p => dens (arrayJoint (kernel p.2.dist (arrs J p.1 (σ p.1)) (params (asg (arrs J) σ) ρ p.2)))).prod := by
      funext σ
      refine (h2' σ ω (by simp [Draws])).trans ?_
      simp [model, densAt]
    rw [e]
    exact density_measurable J sd ρ) σ₀ (valid J hsd ρ σ₀)).1 φ hφ
  rwa [e1] at this

end Verif.ArrGraph.Schools
