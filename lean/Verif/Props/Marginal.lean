import Verif.Spec.Marginal
import Verif.Props.Posterior

/-! # Variables without values: the average of the joint probability over their draws (C133) -/

namespace Verif.Graph
open Verif Cond MeasureTheory

variable {Di : Type}

theorem DependencyOrder.filter {l : List (ℕ × RVDef Di)} (h : DependencyOrder l) (q : ℕ × RVDef Di → Bool) : DependencyOrder (l.filter q) := by
  induction l with
  | nil => trivial
  | cons p l ih =>
    obtain ⟨id, r⟩ := p
    rw [List.filter_cons]
    split
    · exact ⟨h.1, fun p hp => h.2.1 p (List.mem_of_mem_filter hp), ih h.2.2⟩
    · exact ih h.2.2

theorem params_congr {σ σ' : ℕ → ℝ} {ρ : ℕ → FVal} {r : RVDef Di} (h : ∀ i id, Mentions id (r.args i) → σ id = σ' id) : params (asg σ) ρ r = params (asg σ') ρ r := by
  simp only [params]
  congr 1
  funext i
  exact evalAt_congr _ fun id hm => by simp only [asg, h i id hm]

/-- The values of the variables to come do not matter. -/
theorem valid_congr {kernel : Di → FVal → List FVal → Except Err FVal} {law : Di → List FVal → Measure ℝ} {ref : Di → Measure ℝ} {ρ : ℕ → FVal} :
    ∀ (l : List (ℕ × RVDef Di)) {σ σ' : ℕ → ℝ}, DependencyOrder l → (∀ i, i ∉ l.map Prod.fst → σ' i = σ i) → Valid kernel law ref ρ l σ → Valid kernel law ref ρ l σ'
  | [], _, _, _, _, _ => trivial
  | (id, r) :: l, σ, σ', ho, hs, hv => by
    have hp : params (asg σ') ρ r = params (asg σ) ρ r := params_congr fun i id' hm => hs id' fun hmem => by
      rw [List.map_cons, List.mem_cons] at hmem
      rcases hmem with rfl | hmem
      · exact ho.1 i hm
      · obtain ⟨p, hp, rfl⟩ := List.mem_map.1 hmem
        exact (ho.2.1 p hp).2 i hm
    rw [Valid, hp]
    refine ⟨hv.1, fun x hx => valid_congr l ho.2.2 (fun i hi => ?_) (hv.2 x hx)⟩
    by_cases h : i = id
    · subst h; simp
    · rw [Function.update_of_ne h, Function.update_of_ne h]
      exact hs i (by simp [h, hi])

/-- Density of `p` at the values `τ`. -/
noncomputable def densAt (kernel : Di → FVal → List FVal → Except Err FVal) (ρ : ℕ → FVal) (τ : ℕ → ℝ) (p : ℕ × RVDef Di) : ENNReal :=
  dens (kernel p.2.dist (.fin (τ p.1)) (params (asg τ) ρ p.2))

theorem sampleE_congr {law : Di → List FVal → Measure ℝ} {ρ : ℕ → FVal} (l : List (ℕ × RVDef Di)) (σ : ℕ → ℝ) {φ ψ : (ℕ → ℝ) → ENNReal}
    (h : ∀ σ', (∀ i, i ∉ l.map Prod.fst → σ' i = σ i) → φ σ' = ψ σ') : sampleE law ρ l σ φ = sampleE law ρ l σ ψ := by
  induction l generalizing σ with
  | nil => exact h σ fun _ _ => rfl
  | cons p l ih =>
    obtain ⟨id, r⟩ := p
    simp only [sampleE]
    refine lintegral_congr fun x => ih _ fun σ' hσ' => h σ' fun i hi => ?_
    simp only [List.map_cons, List.mem_cons, not_or] at hi
    rw [hσ' i hi.2, Function.update_of_ne hi.1]

/-- Nothing, on average over anything. -/
theorem sampleE_zero {law : Di → List FVal → Measure ℝ} {ρ : ℕ → FVal} : ∀ (l : List (ℕ × RVDef Di)) (σ : ℕ → ℝ), sampleE law ρ l σ (fun _ => 0) = 0
  | [], _ => rfl
  | (id, r) :: l, σ => by simp [sampleE, sampleE_zero l]

theorem refE_zero {ref : Di → Measure ℝ} : ∀ (l : List (ℕ × RVDef Di)) (σ : ℕ → ℝ), refE ref l σ (fun _ => 0) = 0
  | [], _ => rfl
  | (id, r) :: l, σ => by simp [refE, refE_zero l]

/-- The density of a variable does not depend on the values of later ones. -/
theorem densAt_congr {kernel : Di → FVal → List FVal → Except Err FVal} {ρ : ℕ → FVal} {id : ℕ} {r : RVDef Di} {l : List (ℕ × RVDef Di)} (ho : DependencyOrder ((id, r) :: l)) {σ τ : ℕ → ℝ}
    (h : ∀ i, i ∉ l.map Prod.fst → τ i = σ i) : densAt kernel ρ τ (id, r) = dens (kernel r.dist (.fin (σ id)) (params (asg σ) ρ r)) := by
  have hid : id ∉ l.map Prod.fst := fun hm => by
    obtain ⟨p, hp, hpid⟩ := List.mem_map.1 hm
    exact (ho.2.1 p hp).1 hpid
  rw [densAt, show τ id = σ id from h id hid, params_congr (σ' := σ) fun i id' hm => h id' fun hmem => by
    obtain ⟨p, hp, rfl⟩ := List.mem_map.1 hmem
    exact (ho.2.1 p hp).2 i hm]

theorem not_mem_filter {l : List (ℕ × RVDef Di)} (q : ℕ × RVDef Di → Bool) {i : ℕ} (h : i ∉ l.map Prod.fst) : i ∉ (l.filter q).map Prod.fst := fun hm => h ((List.filter_sublist.map _).subset hm)

/-- Drawing the variables that satisfy `q` one after the other, given the values of the others, is integrating their densities. -/
theorem sampleE_free (kernel : Di → FVal → List FVal → Except Err FVal) (law : Di → List FVal → Measure ℝ) (ref : Di → Measure ℝ) (ρ : ℕ → FVal) (q : ℕ × RVDef Di → Bool) :
    ∀ (l : List (ℕ × RVDef Di)) (φ : (ℕ → ℝ) → ENNReal) (σ : ℕ → ℝ), DependencyOrder l → Valid kernel law ref ρ l σ →
      sampleE law ρ (l.filter q) σ (fun τ => ((l.filter fun p => !q p).map (densAt kernel ρ τ)).prod * φ τ) =
        refE ref (l.filter q) σ (fun τ => (l.map (densAt kernel ρ τ)).prod * φ τ)
  | [], φ, σ, _, _ => rfl
  | (id, r) :: l, φ, σ, ho, hv => by
    have hid : id ∉ l.map Prod.fst := fun hm => by
      obtain ⟨p, hp, hpid⟩ := List.mem_map.1 hm
      exact (ho.2.1 p hp).1 hpid
    cases hq : q (id, r) with
    | false =>
      have e1 : ((id, r) :: l).filter q = l.filter q := by rw [List.filter_cons, hq]; rfl
      have e2 : (((id, r) :: l).filter fun p => !q p) = (id, r) :: l.filter fun p => !q p := by rw [List.filter_cons, hq]; rfl
      rw [e1, e2]
      by_cases h0 : dens (kernel r.dist (.fin (σ id)) (params (asg σ) ρ r)) = 0
      · have hz : ∀ τ : ℕ → ℝ, (∀ i, i ∉ (l.filter q).map Prod.fst → τ i = σ i) → densAt kernel ρ τ (id, r) = 0 := fun τ hτ => by
          rw [densAt_congr ho (σ := σ) fun i hi => hτ i (not_mem_filter q hi), h0]
        rw [sampleE_congr _ σ (ψ := fun _ => 0) fun τ hτ => by simp [hz τ hτ], sampleE_zero, refE_congr _ σ (ψ := fun _ => 0) fun τ hτ => by simp [hz τ hτ], refE_zero]
      · have hv' : Valid kernel law ref ρ l σ := by
          have := hv.2 (σ id) h0
          rwa [Function.update_eq_self] at this
        have := sampleE_free kernel law ref ρ q l (fun τ => densAt kernel ρ τ (id, r) * φ τ) σ ho.2.2 hv'
        simp only [List.map_cons, List.prod_cons]
        convert this using 3 <;> ring
    | true =>
      have e1 : ((id, r) :: l).filter q = (id, r) :: l.filter q := by rw [List.filter_cons, hq]; rfl
      have e2 : (((id, r) :: l).filter fun p => !q p) = l.filter fun p => !q p := by rw [List.filter_cons, hq]; rfl
      obtain ⟨good, hval⟩ := hv
      have hprob := good.prob
      rw [e1, e2, sampleE, refE]
      set f : ℝ → ENNReal := fun x => dens (kernel r.dist (.fin x) (params (asg σ) ρ r)) with hf
      have hfin : ∀ᵐ x ∂(ref r.dist), f x < ⊤ := by
        refine ae_lt_top good.meas ?_
        have : (law r.dist (params (asg σ) ρ r)) Set.univ = 1 := measure_univ
        rw [good.dens, withDensity_apply _ MeasurableSet.univ, Measure.restrict_univ] at this
        rw [hf, this]; exact ENNReal.one_ne_top
      have hdens : law r.dist (params (asg σ) ρ r) = (ref r.dist).withDensity f := good.dens
      rw [hdens, lintegral_withDensity_eq_lintegral_mul_non_measurable _ good.meas hfin]
      refine lintegral_congr_ae ?_
      filter_upwards [hfin] with x hx
      rw [Pi.mul_apply]
      have e3 : refE ref (l.filter q) (Function.update σ id x) (fun τ => (((id, r) :: l).map (densAt kernel ρ τ)).prod * φ τ) =
          refE ref (l.filter q) (Function.update σ id x) (fun τ => f x * ((l.map (densAt kernel ρ τ)).prod * φ τ)) := by
        refine refE_congr _ _ fun τ hτ => ?_
        have hp : params (asg (Function.update σ id x)) ρ r = params (asg σ) ρ r := params_congr fun i id' hm => Function.update_of_ne (by rintro rfl; exact ho.1 i hm) _ _
        rw [List.map_cons, List.prod_cons, mul_assoc, densAt_congr ho (σ := Function.update σ id x) fun i hi => hτ i (not_mem_filter q hi), Function.update_self, hp]
      rw [e3, refE_const_mul _ _ hx.ne]
      show f x * _ = f x * _
      by_cases h0 : f x = 0
      · rw [h0, zero_mul, zero_mul]
      · rw [sampleE_free kernel law ref ρ q l φ _ ho.2.2 (hval x h0)]

/-- Parameters, when the variables without values are drawn. -/
theorem evalGiven_draws {l free : List (ℕ × RVDef Di)} (huser : ∀ p ∈ l, ∀ i, User (p.2.args i)) (href : ∀ p ∈ l, ∀ i, Refers l (p.2.args i)) {vals : ℕ → Option FVal} {ρ ρ' : ℕ → FVal}
    {ω : ℕ → Di → List FVal → FVal} {τ : ℕ → ℝ} (hfresh : ∀ p ∈ l, params (asg τ) ρ' p.2 = params (asg τ) ρ p.2) (hω : Draws ρ free τ ω)
    (hvals : ∀ p ∈ l, vals p.1 = some (.fin (τ p.1)) ∨ vals p.1 = none ∧ p ∈ free) (e : Expr Di) (hu : User e) (hr : Refers l e) : evalGiven vals ρ' ω e = evalAt (asg τ) ρ' e := by
  induction e with
  | const x => rfl
  | inp i => rfl
  | app n f args ih =>
    simp only [evalGiven, evalAt]
    congr 1
    funext i
    exact ih i (hu i) (hr i)
  | rv id dist n args ih =>
    rcases hvals _ hr with h | ⟨h, hf⟩
    · simp only at h
      simp only [evalGiven, evalAt, h, asg]
    · simp only at h
      simp only [evalGiven, evalAt, h]
      have e1 : (fun i => evalGiven vals ρ' ω (args i)) = fun i => evalAt (asg τ) ρ' (args i) := funext fun i => ih i (huser _ hr i) (href _ hr i)
      rw [e1]
      have := hω _ hf
      rw [← hfresh _ hr] at this
      exact this
  | valued r v => exact hu.elim

/-- What `joint_logprob` returns, as a product over the variables with values. -/
theorem joint_product_given (kernel : Di → FVal → List FVal → Except Err FVal)
    (ρ : ℕ → FVal) {l : List (ℕ × RVDef Di)} (hord : DependencyOrder l) (huser : ∀ p ∈ l, ∀ i, User (p.2.args i)) (href : ∀ p ∈ l, ∀ i, Refers l (p.2.args i))
    {rvs clones : List ℕ} {realized : Dict ℕ ℕ} (hc : clones.length = rvs.length) {q : ℕ × RVDef Di → Bool} (hne : (l.filter q) ≠ [])
    (hmem : ∀ v, (v ∈ rvs ∨ v ∈ Dict.keys realized) ↔ v ∈ (l.filter q).map Prod.fst)
    (env : (ℕ → ℝ) → ℕ → FVal) (henv : ∀ σ v x, Dict.get? (rvValues rvs clones realized) v = some x → env σ x = .fin (σ v))
    (hfresh : ∀ σ, ∀ p ∈ l, params (asg σ) (env σ) p.2 = params (asg σ) ρ p.2) :
    ∃ j vvs, joint (Dict.get? l) rvs clones realized = .ok (some (j, vvs)) ∧
      ∀ σ ω, Draws ρ (l.filter fun p => !q p) σ ω → dens (evalJoint kernel (env σ) ω j) = ((l.filter q).map (densAt kernel ρ σ)).prod := by
  have hnd := nodup_ids hord
  have hnd' := nodup_ids (hord.filter q)
  have hget : ∀ p ∈ l, Dict.get? l p.1 = some p.2 := fun p hp => Dict.get?_of_mem hnd hp
  have hsome : ∀ v, v ∈ rvs ∨ v ∈ Dict.keys realized → (Dict.get? l v).isSome := by
    intro v hv
    obtain ⟨p, hp, rfl⟩ := List.mem_map.1 ((hmem v).1 hv)
    rw [hget p (List.mem_of_mem_filter hp)]; rfl
  obtain ⟨terms, vvs, hcond⟩ := conditional_returns hc hsome
  have hcond' : conditionalLogprob (backend (Dict.get? l) (rvValues rvs clones realized)) rvs clones realized = .ok (terms, vvs) := hcond
  obtain ⟨hB, hK, hS⟩ := backend_contract (Dict.get? l) (rvValues rvs clones realized)
  obtain ⟨hkn, hkm⟩ := C02_one_term_each hB hc hcond'
  have hkp : (Dict.keys terms).Perm ((l.filter q).map Prod.fst) := by
    refine (List.perm_ext_iff_of_nodup hkn hnd').2 fun v => ?_
    rw [hkm, hmem]
  have htne : terms ≠ [] := by
    rintro rfl
    have := hkp.length_eq
    simp only [Dict.keys, List.map_nil, List.length_nil, List.length_map] at this
    exact hne (List.length_eq_zero_iff.1 this.symm)
  obtain ⟨j, hj, hdens⟩ := dens_evalJoint kernel htne hcond
  refine ⟨j, vvs, hj, fun σ ω hω => ?_⟩
  rw [hdens]
  have hvals : ∀ p ∈ l, valueOf (rvValues rvs clones realized) (env σ) p.1 = some (.fin (σ p.1)) ∨
      valueOf (rvValues rvs clones realized) (env σ) p.1 = none ∧ p ∈ l.filter fun p => !q p := by
    intro p hp
    rw [valueOf]
    cases hy : Dict.get? (rvValues rvs clones realized) p.1 with
    | some y => exact .inl (congrArg some (henv σ _ _ hy))
    | none =>
      refine .inr ⟨rfl, List.mem_filter.2 ⟨hp, ?_⟩⟩
      cases hq : q p with
      | false => rfl
      | true =>
        have : p.1 ∈ Dict.keys (rvValues rvs clones realized) := by
          rw [rvValues, Dict.mem_keys_update, Dict.mem_keys_ofList, List.map_fst_zip hc.ge]
          exact (hmem _).2 (List.mem_map.2 ⟨p, List.mem_filter.2 ⟨hp, hq⟩, rfl⟩)
        obtain ⟨y, hy'⟩ := Dict.get?_isSome.2 this
        rw [hy] at hy'
        cases hy'
  have hkey : ∀ p ∈ terms, dens (p.2.eval kernel (env σ) ω) =
      (match Dict.get? l p.1 with
        | some r => densAt kernel ρ σ (p.1, r)
        | none => 0) := by
    intro p hp
    have hpk : p.1 ∈ Dict.keys terms := List.mem_map.2 ⟨p, hp, rfl⟩
    obtain ⟨s, hs, hse⟩ := List.mem_map.1 (hkp.subset hpk)
    have hs' := List.mem_of_mem_filter hs
    have hrv : p.1 ∈ rvs ∨ p.1 ∈ Dict.keys realized := (hkm _).1 hpk
    have hdef : Dict.get? l p.1 = some s.2 := by rw [← hse]; exact hget s hs'
    obtain ⟨x, t, hx, ht, hev⟩ := C07_conditional_on_values kernel (fun v r hvr i => by
      exact huser _ (Dict.mem_of_get? hvr) i) hc hcond hrv hdef
    have hpt : t = p.2 := by
      rw [Dict.get?_of_mem hkn (show (p.1, p.2) ∈ terms from hp)] at ht
      exact (Option.some.inj ht).symm
    rw [hdef, ← hpt, hev, henv σ _ _ hx]
    simp only [densAt]
    congr 2
    rw [← hfresh σ s hs']
    simp only [params, paramsGiven]
    congr 1
    funext i
    exact evalGiven_draws huser href (hfresh σ) hω hvals _ (huser s hs' i) (href s hs' i)
  rw [List.map_congr_left hkey]
  have e1 : (terms.map fun p => match Dict.get? l p.1 with
        | some r => densAt kernel ρ σ (p.1, r)
        | none => 0) = (Dict.keys terms).map fun v => match Dict.get? l v with
        | some r => densAt kernel ρ σ (v, r)
        | none => 0 := by rw [Dict.keys, List.map_map]; rfl
  rw [e1, (hkp.map _).prod_eq, List.map_map]
  congr 1
  refine List.map_congr_left fun p hp => ?_
  simp [hget p (List.mem_of_mem_filter hp)]

theorem withValue_mem {l : List (ℕ × RVDef Di)} {rvs : List ℕ} {realized : Dict ℕ ℕ} (hin : ∀ v, v ∈ rvs ∨ v ∈ Dict.keys realized → v ∈ l.map Prod.fst) (v : ℕ) :
    (v ∈ rvs ∨ v ∈ Dict.keys realized) ↔ v ∈ (withValue l rvs realized).map Prod.fst := by
  constructor
  · intro h
    obtain ⟨p, hp, rfl⟩ := List.mem_map.1 (hin v h)
    exact List.mem_map.2 ⟨p, List.mem_filter.2 ⟨hp, by simpa using h⟩, rfl⟩
  · intro h
    obtain ⟨p, hp, rfl⟩ := List.mem_map.1 h
    simpa using (List.mem_filter.1 hp).2

theorem withValue_ne {l : List (ℕ × RVDef Di)} {rvs : List ℕ} {realized : Dict ℕ ℕ} (hin : ∀ v, v ∈ rvs ∨ v ∈ Dict.keys realized → v ∈ l.map Prod.fst) {v : ℕ} (h : v ∈ rvs ∨ v ∈ Dict.keys realized) :
    withValue l rvs realized ≠ [] := by
  intro he
  have := (withValue_mem hin v).1 h
  simp [he] at this

/-- **C133** Some variables of a model are requested or realized, the others have no value.  The joint log-probability then contains draws of the latter, made given the values of the former.  Averaged over these draws (`sampleE` over the
variables without value, the others having their values in `σ`), `exp` of the joint log-probability is what is left of `exp` of the joint log-probability of all variables (`rvs'`) when the values of the variables without value are integrated out.
`ω τ` is the run of the samplers that gives the draws in `τ`. -/
theorem C133_average (kernel : Di → FVal → List FVal → Except Err FVal) (law : Di → List FVal → Measure ℝ) (ref : Di → Measure ℝ)
    (ρ : ℕ → FVal) {l : List (ℕ × RVDef Di)} (hord : DependencyOrder l) (huser : ∀ p ∈ l, ∀ i, User (p.2.args i)) (href : ∀ p ∈ l, ∀ i, Refers l (p.2.args i))
    {rvs clones rvs' clones' : List ℕ} {realized : Dict ℕ ℕ} (hc : clones.length = rvs.length) (hc' : clones'.length = rvs'.length)
    (hin : ∀ v, v ∈ rvs ∨ v ∈ Dict.keys realized → v ∈ l.map Prod.fst) (hsome : ∃ v, v ∈ rvs ∨ v ∈ Dict.keys realized) (hall : ∀ v, v ∈ rvs' ↔ v ∈ l.map Prod.fst)
    (env env' : (ℕ → ℝ) → ℕ → FVal) (henv : ∀ σ v x, Dict.get? (rvValues rvs clones realized) v = some x → env σ x = .fin (σ v))
    (henv' : ∀ σ v x, Dict.get? (rvValues rvs' clones' []) v = some x → env' σ x = .fin (σ v))
    (hfresh : ∀ σ, ∀ p ∈ l, params (asg σ) (env σ) p.2 = params (asg σ) ρ p.2) (hfresh' : ∀ σ, ∀ p ∈ l, params (asg σ) (env' σ) p.2 = params (asg σ) ρ p.2) :
    ∃ j vvs j' vvs', joint (Dict.get? l) rvs clones realized = .ok (some (j, vvs)) ∧ joint (Dict.get? l) rvs' clones' [] = .ok (some (j', vvs')) ∧
      ∀ ω ω' : (ℕ → ℝ) → ℕ → Di → List FVal → FVal, (∀ τ, Draws ρ (withoutValue l rvs realized) τ (ω τ)) → ∀ σ, Valid kernel law ref ρ l σ →
        sampleE law ρ (withoutValue l rvs realized) σ (fun τ => dens (evalJoint kernel (env τ) (ω τ) j)) =
          refE ref (withoutValue l rvs realized) σ (fun τ => dens (evalJoint kernel (env' τ) (ω' τ) j')) := by
  obtain ⟨v, hv⟩ := hsome
  obtain ⟨j, vvs, hj, hp⟩ := joint_product_given kernel ρ hord huser href hc (q := fun p => decide (p.1 ∈ rvs ∨ p.1 ∈ Dict.keys realized)) (withValue_ne hin hv) (withValue_mem hin) env henv hfresh
  have ht : l.filter (fun _ => true) = l := by simp
  obtain ⟨j', vvs', hj', hp'⟩ := joint_product_given kernel ρ hord huser href hc' (q := fun _ => true) (realized := [])
    (by rw [ht]; rintro rfl; simpa using hin v hv) (fun v => by rw [ht, ← hall]; simp [Dict.keys]) env' henv' hfresh'
  refine ⟨j, vvs, j', vvs', hj, hj', fun ω ω' hω σ hval => ?_⟩
  have := sampleE_free kernel law ref ρ (fun p => !decide (p.1 ∈ rvs ∨ p.1 ∈ Dict.keys realized)) l (fun _ => 1) σ hord hval
  simp only [mul_one, Bool.not_not] at this
  rw [withoutValue]
  convert this using 2
  · funext τ
    exact hp τ (ω τ) (hω τ)
  · funext τ
    rw [hp' τ (ω' τ) (fun p hp => by simp at hp), ht]

theorem refE_mul_indep {ref : Di → Measure ℝ} [∀ d, SigmaFinite (ref d)] {l : List (ℕ × RVDef Di)} (hn : (l.map Prod.fst).Nodup) {g φ : (ℕ → ℝ) → ENNReal} (hg : Measurable g) (hφ : Measurable φ)
    (hi : ∀ τ τ' : ℕ → ℝ, (∀ i, i ∉ l.map Prod.fst → τ i = τ' i) → φ τ = φ τ') (σ : ℕ → ℝ) : refE ref l σ (fun τ => g τ * φ τ) = refE ref l σ g * φ σ := by
  have hμ : ∀ p ∈ l, refOf ref l p.1 = ref p.2.dist := fun p hp => by rw [refOf, Dict.get?_of_mem hn (show (p.1, p.2) ∈ l from hp)]
  rw [refE_eq_lmarginal (μ := refOf ref l) (show Measurable fun τ => g τ * φ τ from hg.mul hφ) l σ hn hμ, refE_eq_lmarginal (μ := refOf ref l) hg l σ hn hμ, lmarginal, lmarginal,
    ← lintegral_mul_const _ (show Measurable fun y => g (Function.updateFinset σ (l.map Prod.fst).toFinset y) from hg.comp measurable_updateFinset)]
  refine lintegral_congr fun y => ?_
  rw [hi (Function.updateFinset σ _ y) σ fun i h => ?_]
  rw [Function.updateFinset, dif_neg (by simpa using h)]

/-- **C133** (density) As a function of the values of the variables that have one, the average over the draws of the others of `exp` of the joint log-probability is the density of the former in the model: for every function `φ` of their values,
integrating `φ` against it gives the expectation of `φ` when the whole model is sampled. -/
theorem C133_marginal (kernel : Di → FVal → List FVal → Except Err FVal) (law : Di → List FVal → Measure ℝ) (ref : Di → Measure ℝ) [∀ d, SigmaFinite (ref d)]
    (ρ : ℕ → FVal) {l : List (ℕ × RVDef Di)} (hord : DependencyOrder l) (huser : ∀ p ∈ l, ∀ i, User (p.2.args i)) (href : ∀ p ∈ l, ∀ i, Refers l (p.2.args i))
    {rvs clones : List ℕ} {realized : Dict ℕ ℕ} (hc : clones.length = rvs.length)
    (hin : ∀ v, v ∈ rvs ∨ v ∈ Dict.keys realized → v ∈ l.map Prod.fst) (hsome : ∃ v, v ∈ rvs ∨ v ∈ Dict.keys realized)
    (env : (ℕ → ℝ) → ℕ → FVal) (henv : ∀ σ v x, Dict.get? (rvValues rvs clones realized) v = some x → env σ x = .fin (σ v))
    (hfresh : ∀ σ, ∀ p ∈ l, params (asg σ) (env σ) p.2 = params (asg σ) ρ p.2)
    (hmeas : Measurable fun σ : ℕ → ℝ => (l.map fun p => dens (kernel p.2.dist (.fin (σ p.1)) (params (asg σ) ρ p.2))).prod) :
    ∃ j vvs, joint (Dict.get? l) rvs clones realized = .ok (some (j, vvs)) ∧
      ∀ ω : (ℕ → ℝ) → ℕ → Di → List FVal → FVal, (∀ τ, Draws ρ (withoutValue l rvs realized) τ (ω τ)) → ∀ σ₀, Valid kernel law ref ρ l σ₀ →
        ∀ φ : (ℕ → ℝ) → ENNReal, Measurable φ → (∀ τ τ' : ℕ → ℝ, (∀ i, i ∉ (withoutValue l rvs realized).map Prod.fst → τ i = τ' i) → φ τ = φ τ') →
          refE ref (withValue l rvs realized) σ₀ (fun σ => sampleE law ρ (withoutValue l rvs realized) σ (fun τ => dens (evalJoint kernel (env τ) (ω τ) j)) * φ σ) = sampleE law ρ l σ₀ φ := by
  obtain ⟨v, hv⟩ := hsome
  obtain ⟨j, vvs, hj, hp⟩ := joint_product_given kernel ρ hord huser href hc (q := fun p => decide (p.1 ∈ rvs ∨ p.1 ∈ Dict.keys realized)) (withValue_ne hin hv) (withValue_mem hin) env henv hfresh
  refine ⟨j, vvs, hj, fun ω hω σ₀ hval φ hφ hi => ?_⟩
  set g : (ℕ → ℝ) → ENNReal := fun σ => (l.map (densAt kernel ρ σ)).prod with hg
  have hgm : Measurable g := hmeas
  have hn := nodup_ids hord
  have hμ : ∀ p ∈ l, refOf ref l p.1 = ref p.2.dist := fun p hp => by rw [refOf, Dict.get?_of_mem hn (show (p.1, p.2) ∈ l from hp)]
  obtain ⟨hs, hd⟩ := toFinset_split Prod.fst l hn fun p => !decide (p.1 ∈ rvs ∨ p.1 ∈ Dict.keys realized)
  simp only [Bool.not_not] at hs hd
  have hnW : ((withoutValue l rvs realized).map Prod.fst).Nodup := hn.sublist (List.filter_sublist.map _)
  have hnV : ((withValue l rvs realized).map Prod.fst).Nodup := hn.sublist (List.filter_sublist.map _)
  have e1 : refE ref (withValue l rvs realized) σ₀ (fun σ => sampleE law ρ (withoutValue l rvs realized) σ (fun τ => dens (evalJoint kernel (env τ) (ω τ) j)) * φ σ) =
      refE ref (withValue l rvs realized) σ₀ (fun σ => refE ref (withoutValue l rvs realized) σ fun τ => g τ * φ τ) := by
    refine refE_congr _ _ fun σ hσ => ?_
    rw [refE_mul_indep hnW hgm hφ hi]
    congr 1
    have hval' : Valid kernel law ref ρ l σ := valid_congr l hord (fun i h => hσ i fun h' => h ((List.filter_sublist.map _).subset h')) hval
    have := sampleE_free kernel law ref ρ (fun p => !decide (p.1 ∈ rvs ∨ p.1 ∈ Dict.keys realized)) l (fun _ => 1) σ hord hval'
    simp only [mul_one, Bool.not_not] at this
    rw [withoutValue]
    convert this using 2
    funext τ
    exact hp τ (ω τ) (hω τ)
  have hgφ : Measurable fun τ => g τ * φ τ := hgm.mul hφ
  have e2 : (fun σ => refE ref (withoutValue l rvs realized) σ fun τ => g τ * φ τ) = (∫⋯∫⁻_((withoutValue l rvs realized).map Prod.fst).toFinset, (fun τ => g τ * φ τ) ∂(refOf ref l)) :=
    funext fun σ => refE_eq_lmarginal (μ := refOf ref l) hgφ _ σ hnW fun p hp => hμ p (List.mem_of_mem_filter hp)
  rw [e1, e2, refE_eq_lmarginal (μ := refOf ref l) (hgφ.lmarginal _) _ σ₀ hnV fun p hp => hμ p (List.mem_of_mem_filter hp)]
  rw [← refE_eq_sampleE kernel law ref ρ φ l σ₀ hord hval]
  show _ = refE ref l σ₀ fun τ => g τ * φ τ
  rw [refE_eq_lmarginal (μ := refOf ref l) hgφ l σ₀ hn hμ, hs, lmarginal_union _ _ hgφ hd]
  rfl

end Verif.Graph

/-! `M ~ N(0, 1)`, `Y ~ N(M, 1)`, and only `Y` has a value. -/

namespace Verif.Graph.MarginalDemo
open Verif Cond MeasureTheory ProbabilityTheory PosteriorDemo

/-- Value variable `11` for `Y`. -/
def at1 (σ : ℕ → ℝ) (i : ℕ) : FVal := if i = 11 then .fin (σ 1) else .nan

theorem refers : ∀ p ∈ pair, ∀ i, Refers pair (p.2.args i) := by simp [pair, M, N, Refers, Fin.forall_fin_two]

theorem inside : ∀ v, v ∈ [1] ∨ v ∈ Dict.keys ([] : Dict ℕ ℕ) → v ∈ pair.map Prod.fst := by simp [Dict.keys, pair]

theorem values : ∀ (σ : ℕ → ℝ) v x, Dict.get? (rvValues [1] [11] []) v = some x → at1 σ x = .fin (σ v) := by
  intro σ v x h
  have e : rvValues [1] [11] [] = [(1, 11)] := by decide
  rw [e] at h
  simp only [Dict.get?] at h
  split_ifs at h with h1
  · cases h; subst h1; rfl

theorem values2 : ∀ (σ : ℕ → ℝ) v x, Dict.get? (rvValues [0, 1] [10, 11] []) v = some x → at2 σ x = .fin (σ v) := by
  intro σ v x h
  have e : rvValues [0, 1] [10, 11] [] = [(0, 10), (1, 11)] := by decide
  rw [e] at h
  simp only [Dict.get?] at h
  split_ifs at h with h1 h2
  · cases h; subst h1; rfl
  · cases h; subst h2; rfl

theorem fresh1 : ∀ σ, ∀ p ∈ pair, params (asg σ) (at1 σ) p.2 = params (asg σ) (fun _ => .nan) p.2 := by
  intro σ p hp
  simp only [pair, List.mem_cons, List.not_mem_nil, or_false] at hp
  rcases hp with rfl | rfl
  · rw [paramsM, paramsM]
  · rw [paramsN, paramsN]

/-- A sampler that draws the value of `M`, but only from `N(0, 1)`. -/
noncomputable def draw (τ : ℕ → ℝ) (id : ℕ) (_ : Readme.Dist) (p : List FVal) : FVal := open Classical in if id = 0 ∧ p = [.fin 0, .fin 1] then .fin (τ 0) else .nan

theorem free : withoutValue pair [1] [] = [(0, M)] := by simp [withoutValue, pair, Dict.keys]

theorem draws (τ : ℕ → ℝ) : Draws (fun _ => .nan) (withoutValue pair [1] []) τ (draw τ) := by
  intro p hp
  rw [free, List.mem_singleton] at hp
  subst hp
  rw [paramsM, draw, if_pos ⟨rfl, rfl⟩]

/-- The average over the draws of `M` is the integral over `M` of the joint density. -/
example : ∃ j vvs j' vvs', joint (Dict.get? pair) [1] [11] [] = .ok (some (j, vvs)) ∧ joint (Dict.get? pair) [0, 1] [10, 11] [] = .ok (some (j', vvs')) ∧
    ∀ σ : ℕ → ℝ, ∫⁻ m, dens (evalJoint Readme.kernel (at1 (Function.update σ 0 m)) (draw (Function.update σ 0 m)) j) ∂(Readme.law .normal [.fin 0, .fin 1]) =
      ∫⁻ m, dens (evalJoint Readme.kernel (at2 (Function.update σ 0 m)) (fun _ _ _ => .nan) j') := by
  obtain ⟨j, vvs, j', vvs', hj, hj', h⟩ := C133_average Readme.kernel Readme.law (fun _ => volume) (fun _ => .nan) order user refers (rvs := [1]) (clones := [11]) (rvs' := [0, 1]) (clones' := [10, 11]) (realized := []) rfl rfl
    inside ⟨1, by simp⟩ (by simp [pair]) at1 at2 values values2 fresh1 fresh
  refine ⟨j, vvs, j', vvs', hj, hj', fun σ => ?_⟩
  have := h draw (fun _ _ _ _ => .nan) draws σ (validPair _ _)
  rw [free] at this
  simp only [sampleE, refE, paramsM] at this
  exact this

/-- And it is the density of `Y`. -/
example : ∃ j vvs, joint (Dict.get? pair) [1] [11] [] = .ok (some (j, vvs)) ∧
    ∀ σ : ℕ → ℝ, ∀ s : Set ℝ, MeasurableSet s →
      refE (fun _ => volume) [(1, N)] σ (fun σ => sampleE Readme.law (fun _ => .nan) [(0, M)] σ (fun τ => dens (evalJoint Readme.kernel (at1 τ) (draw τ) j)) * s.indicator 1 (σ 1)) =
        sampleE Readme.law (fun _ => .nan) pair σ (fun τ => s.indicator 1 (τ 1)) := by
  obtain ⟨j, vvs, hj, h⟩ := C133_marginal Readme.kernel Readme.law (fun _ => volume) (fun _ => .nan) order user refers (rvs := [1]) (clones := [11]) (realized := []) rfl inside ⟨1, by simp⟩ at1 values fresh1 (by
    simp only [pair, List.map_cons, List.map_nil, List.prod_cons, List.prod_nil, mul_one, paramsM, paramsN]
    exact (congrArg Measurable (funext fun σ : ℕ → ℝ => congrArg₂ _ (dens_normal _ _) (dens_normal _ _))).mpr measurable_value)
  refine ⟨j, vvs, hj, fun σ s hs => ?_⟩
  have := h draw draws σ (validPair _ _) (fun τ => s.indicator 1 (τ 1)) ((measurable_const.indicator hs).comp (measurable_pi_apply 1)) (fun τ τ' ht => by rw [ht 1 (by rw [free]; simp)])
  rw [free, show withValue pair [1] [] = [(1, N)] by simp [withValue, pair, Dict.keys]] at this
  exact this

end Verif.Graph.MarginalDemo
