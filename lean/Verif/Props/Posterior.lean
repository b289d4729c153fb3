import Verif.Spec.Posterior
import Verif.Lemmas.Posterior
import Verif.Props.Graph
import Verif.Props.FullDensity
import Verif.Props.NonFinite

/-! # Realized values: the joint log-probability as a function of the other values (C130) -/

namespace Verif.Graph
open Verif Cond MeasureTheory

variable {Di : Type}

/-- Iterated integrals in any order. -/
theorem refE_eq_lmarginal {ref : Di → Measure ℝ} {μ : ℕ → Measure ℝ} [∀ i, SigmaFinite (μ i)] {φ : (ℕ → ℝ) → ENNReal} (hφ : Measurable φ) :
    ∀ (l : List (ℕ × RVDef Di)) (σ : ℕ → ℝ), (l.map Prod.fst).Nodup → (∀ p ∈ l, μ p.1 = ref p.2.dist) → refE ref l σ φ = (∫⋯∫⁻_(l.map Prod.fst).toFinset, φ ∂μ) σ
  | [], σ, _, _ => by simp [refE]
  | (id, r) :: l, σ, hn, hμ => by
    rw [List.map_cons, List.nodup_cons] at hn
    rw [List.map_cons, List.toFinset_cons, lmarginal_insert _ hφ (by simpa using hn.1), refE, ← hμ (id, r) (by simp)]
    refine lintegral_congr fun x => ?_
    exact refE_eq_lmarginal hφ l _ hn.2 fun p hp => hμ p (List.mem_cons_of_mem _ hp)

/-- The total probability is at most one. -/
theorem sampleE_one_le (kernel : Di → FVal → List FVal → Except Err FVal) (law : Di → List FVal → Measure ℝ) (ref : Di → Measure ℝ) (ρ : ℕ → FVal) :
    ∀ (l : List (ℕ × RVDef Di)) (σ : ℕ → ℝ), Valid kernel law ref ρ l σ → sampleE law ρ l σ (fun _ => 1) ≤ 1
  | [], _, _ => le_refl _
  | (id, r) :: l, σ, h => by
    obtain ⟨⟨hp, hm, hd⟩, h2⟩ := h
    have hae : ∀ᵐ x ∂(law r.dist (params (asg σ) ρ r)), sampleE law ρ l (Function.update σ id x) (fun _ => 1) ≤ 1 := by
      rw [hd, ae_withDensity_iff hm]
      exact Filter.Eventually.of_forall fun x hx => sampleE_one_le kernel law ref ρ l _ (h2 x hx)
    rw [sampleE]
    refine (lintegral_mono_ae hae).trans ?_
    simp

/-- The measures of the variables, by their identities. -/
noncomputable def refOf (ref : Di → Measure ℝ) (l : List (ℕ × RVDef Di)) (i : ℕ) : Measure ℝ :=
  match Dict.get? l i with
  | some r => ref r.dist
  | none => 0

instance refOf_sigmaFinite (ref : Di → Measure ℝ) [∀ d, SigmaFinite (ref d)] (l : List (ℕ × RVDef Di)) (i : ℕ) : SigmaFinite (refOf ref l i) := by
  rw [refOf]
  split <;> infer_instance

/-- A list is made of the members that satisfy `q` and the others. -/
theorem toFinset_split {α : Type} (f : α → ℕ) (l : List α) (hn : (l.map f).Nodup) (q : α → Bool) :
    (l.map f).toFinset = ((l.filter fun p => !q p).map f).toFinset ∪ ((l.filter q).map f).toFinset ∧
    Disjoint ((l.filter fun p => !q p).map f).toFinset ((l.filter q).map f).toFinset := by
  constructor
  · ext i
    simp only [List.mem_toFinset, List.mem_map, Finset.mem_union, List.mem_filter]
    constructor
    · rintro ⟨p, hp, rfl⟩
      cases h : q p
      · exact Or.inl ⟨p, ⟨hp, by simp [h]⟩, rfl⟩
      · exact Or.inr ⟨p, ⟨hp, h⟩, rfl⟩
    · rintro (⟨p, ⟨hp, -⟩, rfl⟩ | ⟨p, ⟨hp, -⟩, rfl⟩) <;> exact ⟨p, hp, rfl⟩
  · rw [Finset.disjoint_left]
    intro i h1 h2
    simp only [List.mem_toFinset, List.mem_map, List.mem_filter] at h1 h2
    obtain ⟨p, ⟨hp, hq⟩, rfl⟩ := h1
    obtain ⟨p', ⟨hp', hq'⟩, he⟩ := h2
    rw [List.inj_on_of_nodup_map hn hp' hp he] at hq'
    simp [hq'] at hq

open Classical in
/-- **C130** Let every variable of the model be requested or have a realized value.  As a function of the values of the variables that are not realized, `exp` of the value of `joint_logprob` is, up to a constant factor, the density of
their conditional distribution given the realized values: averages weighted by it have the expectations that conditional expectations have (for every function `φ` of all variables), and the constant factor is almost surely positive and finite. -/
theorem C130_posterior_partial (kernel : Di → FVal → List FVal → Except Err FVal) (law : Di → List FVal → Measure ℝ) (ref : Di → Measure ℝ) [∀ d, SigmaFinite (ref d)]
    (ρ : ℕ → FVal) (ω : ℕ → Di → List FVal → FVal) {l : List (ℕ × RVDef Di)} (hne : l ≠ []) (hord : DependencyOrder l) (huser : ∀ p ∈ l, ∀ i, User (p.2.args i))
    {rvs clones : List ℕ} {realized : Dict ℕ ℕ} (hc : clones.length = rvs.length) (hmem : ∀ v, (v ∈ rvs ∨ v ∈ Dict.keys realized) ↔ v ∈ l.map Prod.fst)
    (hclosed : ∀ p ∈ l, ∀ i id, Mentions id (p.2.args i) → id ∈ l.map Prod.fst)
    (env : (ℕ → ℝ) → ℕ → FVal) (henv : ∀ σ v x, Dict.get? (rvValues rvs clones realized) v = some x → env σ x = .fin (σ v))
    (hfresh : ∀ σ, ∀ p ∈ l, params (asg σ) (env σ) p.2 = params (asg σ) ρ p.2) :
    ∃ j vvs, joint (Dict.get? l) rvs clones realized = .ok (some (j, vvs)) ∧
      ∀ g : (ℕ → ℝ) → ENNReal, (g = fun σ => dens (evalJoint kernel (env σ) ω j)) → Measurable g → ∀ σ₀ : ℕ → ℝ, Valid kernel law ref ρ l σ₀ →
        (∀ φ : (ℕ → ℝ) → ENNReal, Measurable φ →
          sampleE law ρ l σ₀ (averageE ref (l.filter fun p => p.1 ∉ Dict.keys realized) g φ) = sampleE law ρ l σ₀ φ) ∧
        sampleE law ρ l σ₀ (fun σ => if refE ref (l.filter fun p => p.1 ∉ Dict.keys realized) σ g = 0 ∨ refE ref (l.filter fun p => p.1 ∉ Dict.keys realized) σ g = ⊤ then 1 else 0) = 0 := by
  obtain ⟨j, vvs, hj, h⟩ := C08_realized_density kernel law ref ρ ω hne hord huser hc hmem hclosed env henv hfresh
  refine ⟨j, vvs, hj, fun g hg hm σ₀ hv => ?_⟩
  have h' : ∀ φ, refE ref l σ₀ (fun σ => g σ * φ σ) = sampleE law ρ l σ₀ φ := fun φ => by rw [hg]; exact h σ₀ hv φ
  have hn := nodup_ids hord
  have hμ : ∀ p ∈ l, refOf ref l p.1 = ref p.2.dist := fun p hp => by rw [refOf, Dict.get?_of_mem hn (show (p.1, p.2) ∈ l from hp)]
  obtain ⟨hs, hd⟩ := toFinset_split Prod.fst l hn fun p => decide (p.1 ∉ Dict.keys realized)
  set F := ((l.filter fun p => decide (p.1 ∉ Dict.keys realized)).map Prod.fst).toFinset with hF
  set O := ((l.filter fun p => !decide (p.1 ∉ Dict.keys realized)).map Prod.fst).toFinset with hO
  have eAll : ∀ φ, Measurable φ → refE ref l σ₀ φ = (∫⋯∫⁻_O ∪ F, φ ∂(refOf ref l)) σ₀ := fun φ hφ => by
    rw [refE_eq_lmarginal (μ := refOf ref l) hφ l σ₀ hn hμ, hs]
  have eF : ∀ φ, Measurable φ → ∀ σ, refE ref (l.filter fun p => p.1 ∉ Dict.keys realized) σ φ = (∫⋯∫⁻_F, φ ∂(refOf ref l)) σ := fun φ hφ σ =>
    refE_eq_lmarginal (μ := refOf ref l) hφ _ σ (hn.sublist (List.filter_sublist.map _)) fun p hp => hμ p (List.mem_of_mem_filter hp)
  have hfin : (∫⋯∫⁻_O ∪ F, g ∂(refOf ref l)) σ₀ ≠ ⊤ := by
    rw [← eAll g hm]
    have := h' fun _ => 1
    simp only [mul_one] at this
    rw [this]
    exact ((sampleE_one_le kernel law ref ρ l σ₀ hv).trans_lt ENNReal.one_lt_top).ne
  constructor
  · intro φ hφ
    have hgφ : Measurable fun σ => g σ * φ σ := hm.mul hφ
    have ea : averageE ref (l.filter fun p => p.1 ∉ Dict.keys realized) g φ = fun σ => (∫⋯∫⁻_F, (fun σ => g σ * φ σ) ∂(refOf ref l)) σ / (∫⋯∫⁻_F, g ∂(refOf ref l)) σ := by
      funext σ
      rw [averageE, eF _ hgφ, eF _ hm]
    have hq : Measurable fun σ => g σ * ((∫⋯∫⁻_F, (fun σ => g σ * φ σ) ∂(refOf ref l)) σ / (∫⋯∫⁻_F, g ∂(refOf ref l)) σ) :=
      hm.mul ((hgφ.lmarginal _).div (hm.lmarginal _))
    rw [← h', ← h', ea, eAll _ hq, eAll _ hgφ]
    exact Posterior.lmarginal_average hd hm hφ hfin
  · have hZ : Measurable (∫⋯∫⁻_F, g ∂(refOf ref l)) := hm.lmarginal _
    have hi : Measurable fun x => if (∫⋯∫⁻_F, g ∂(refOf ref l)) x = 0 ∨ (∫⋯∫⁻_F, g ∂(refOf ref l)) x = ⊤ then (1 : ENNReal) else 0 :=
      Measurable.ite ((hZ (measurableSet_singleton 0)).union (hZ (measurableSet_singleton ⊤))) measurable_const measurable_const
    simp only [eF _ hm]
    rw [← h', eAll _ (show Measurable fun x => g x * _ from hm.mul hi)]
    exact Posterior.lmarginal_normaliser hd hm hfin

end Verif.Graph

namespace Verif.Full
open Verif Cond MeasureTheory

variable {Di : Type} [IR.Normals Di]

omit [IR.Normals Di] in
theorem treeE_one_le {reg : Registry Di} {W : World Di} {val : Expr Di → FVal} (t : RTree Di) (h : t.Ok reg W val) : treeE W val t (fun _ => 1) ≤ 1 := by
  induction t with
  | rv s =>
    have := h.good.prob
    simp [treeE]
  | elem op n i args t ih => exact ih h.1
  | clip lo hi s =>
    have := h.1.good.prob
    simp [treeE]
  | round r s =>
    have := h.1.good.prob
    simp [treeE]
  | mix idx k comps ih =>
    obtain ⟨⟨i, hi, hok⟩, -⟩ := h
    rw [treeE, hi, chosen_eq]
    exact ih i hok

/-- The total of the density is at most one. -/
theorem refE_total_le {reg : Registry Di} {W : World Di} {hasCdf : Di → Bool} {defs : ℕ → Option (Expr Di)} {R : ℕ → Prop} {ρ : ℕ → FVal} (l : List (Item Di)) (seen : List ℕ) (τ : ℕ → ℝ)
    (hnd : (seen ++ l.map (·.v)).Nodup) (hlist : Listed defs W.kd hasCdf R l seen) (hvalid : Valid reg W R ρ l τ) :
    refE W R ρ l τ (fun τ' => (l.map (factor reg W.kd R ρ τ')).prod) ≤ 1 := by
  induction l generalizing seen τ with
  | nil => simp [refE]
  | cons it l ih =>
    obtain ⟨⟨e, he, htree⟩, hdet, hlist'⟩ := hlist
    obtain ⟨hok, hval'⟩ := hvalid
    have hd := htree.described (fun _ => rfl) hok
    rw [List.map_cons] at hnd
    have hvs : it.v ∉ seen := fun hm => (List.nodup_append.1 hnd).2.2 _ hm _ (by simp) rfl
    have hvl : ∀ v, v ∈ seen ∨ v = it.v → v ∉ l.map (·.v) := by
      intro v hv hm
      rcases hv with hv | rfl
      · exact (List.nodup_append.1 hnd).2.2 _ hv _ (by simp only [List.mem_cons]; exact .inr hm) rfl
      · exact (List.nodup_cons.1 (List.nodup_append.1 hnd).2.1).1 hm
    have e1 : refE W R ρ (it :: l) τ (fun τ' => ((it :: l).map (factor reg W.kd R ρ τ')).prod) =
        ∫⁻ y in it.tree.range W (readAt R (Graph.asg τ) ρ), dens (it.tree.lp reg W.kd (readAt R (Graph.asg τ) ρ) (.fin y)) *
          refE W R ρ l (Function.update τ it.v y) (fun τ' => (l.map (factor reg W.kd R ρ τ')).prod) ∂(it.tree.ref W (readAt R (Graph.asg τ) ρ)) := by
      simp only [refE]
      refine setLIntegral_congr_fun hd.set fun y hy => ?_
      show refE W R ρ l (Function.update τ it.v y) _ = _
      rw [← refE_const_mul _ _ (hd.fin y hy)]
      refine refE_congr _ _ fun τ' hτ' => ?_
      rw [List.map_cons, List.prod_cons]
      congr 1
      have hτv : τ' it.v = y := by rw [hτ' it.v (hvl _ (.inr rfl)), Function.update_self]
      rw [factor, hτv]
      have hag : ∀ v, v ∈ seen → Graph.asg τ' v = Graph.asg τ v := by
        intro v hv
        show FVal.fin (τ' v) = .fin (τ v)
        rw [hτ' v (hvl v (.inl hv)), Function.update_of_ne (by rintro rfl; exact hvs hv)]
      rw [RTree.lp_congr reg W.kd (hdet.imp fun a ha => readAt_congr ha hag)]
    rw [e1]
    refine (setLIntegral_mono' (g := fun y => dens (it.tree.lp reg W.kd (readAt R (Graph.asg τ) ρ) (.fin y)) * 1) hd.set fun y hy => ?_).trans ?_
    · refine mul_le_mul_right ?_ _
      exact ih (seen ++ [it.v]) _ (by simpa using hnd) hlist' (hval' y hy)
    · rw [← hd.eq]
      exact treeE_one_le _ hok

omit [IR.Normals Di] in
theorem sigmaFinite_mixedRef (c : Bool) {a : Set ℝ} (h : a.Countable) : SigmaFinite (mixedRef c a) := by
  have h1 : SigmaFinite (atomsOn a) := by
    refine Measure.sigmaFinite_of_countable (S := insert aᶜ ((fun x => {x}) '' a)) ((h.image _).insert _) ?_ ?_
    · rintro s (rfl | ⟨x, -, rfl⟩)
      · rw [atomsOn, Measure.restrict_apply h.measurableSet.compl]; simp
      · rw [atomsOn, Measure.restrict_apply (measurableSet_singleton x)]
        exact (measure_mono Set.inter_subset_left).trans_lt (by simp)
    · rw [Set.sUnion_insert, Set.sUnion_image, Set.biUnion_of_singleton, Set.compl_union_self]
  rw [mixedRef]
  cases c <;> simp <;> infer_instance

/-- The measure that the item of a variable is integrated against. -/
noncomputable def refAt (W : World Di) (R : ℕ → Prop) (ρ : ℕ → FVal) (l : List (Item Di)) (i : ℕ) : Measure ℝ :=
  match l.find? fun it => it.v == i with
  | some it => (it.tree.ref W (readAt R (Graph.asg fun _ => 0) ρ)).restrict (it.tree.range W (readAt R (Graph.asg fun _ => 0) ρ))
  | none => 0

omit [IR.Normals Di] in
theorem refAt_sigmaFinite {W : World Di} {R : ℕ → Prop} {ρ : ℕ → FVal} {l : List (Item Di)} (h : FixedRange W R ρ l) (i : ℕ) : SigmaFinite (refAt W R ρ l i) := by
  rw [refAt]
  split
  · rename_i it hit
    obtain ⟨c, a, s, ha, hs, hf⟩ := h it (List.mem_of_find?_eq_some hit)
    obtain ⟨h1, h2, h3⟩ := hf fun _ => 0
    rw [RTree.ref, h1, h2]
    have := sigmaFinite_mixedRef c ha
    infer_instance
  · infer_instance

omit [IR.Normals Di] in
theorem refAt_eq {W : World Di} {R : ℕ → Prop} {ρ : ℕ → FVal} {l : List (Item Di)} (h : FixedRange W R ρ l) (hn : (l.map (·.v)).Nodup) {it : Item Di} (hit : it ∈ l) (τ : ℕ → ℝ) :
    refAt W R ρ l it.v = (it.tree.ref W (readAt R (Graph.asg τ) ρ)).restrict (it.tree.range W (readAt R (Graph.asg τ) ρ)) := by
  have hf : l.find? (fun it' => it'.v == it.v) = some it := by
    cases hc : l.find? (fun it' => it'.v == it.v) with
    | none => exact absurd (List.find?_eq_none.1 hc it hit) (by simp)
    | some it' =>
      have h1 := List.mem_of_find?_eq_some hc
      have h2 : it'.v = it.v := by simpa using List.find?_some hc
      rw [List.inj_on_of_nodup_map hn h1 hit h2]
  rw [refAt, hf]
  obtain ⟨c, a, s, ha, hs, hτ⟩ := h it hit
  simp only [RTree.ref, (hτ τ).1, (hτ τ).2.1, (hτ τ).2.2, (hτ fun _ => 0).1, (hτ fun _ => 0).2.1, (hτ fun _ => 0).2.2]

omit [IR.Normals Di] in
/-- Iterated integrals in any order. -/
theorem refE_eq_lmarginal {W : World Di} {R : ℕ → Prop} {ρ : ℕ → FVal} {μ : ℕ → Measure ℝ} [∀ i, SigmaFinite (μ i)] {φ : (ℕ → ℝ) → ENNReal} (hφ : Measurable φ) :
    ∀ (l : List (Item Di)) (τ : ℕ → ℝ), (l.map (·.v)).Nodup → (∀ it ∈ l, ∀ τ, μ it.v = (it.tree.ref W (readAt R (Graph.asg τ) ρ)).restrict (it.tree.range W (readAt R (Graph.asg τ) ρ))) →
      refE W R ρ l τ φ = (∫⋯∫⁻_(l.map (·.v)).toFinset, φ ∂μ) τ
  | [], τ, _, _ => by simp [refE]
  | it :: l, τ, hn, hμ => by
    rw [List.map_cons, List.nodup_cons] at hn
    rw [List.map_cons, List.toFinset_cons, lmarginal_insert _ hφ (by simpa using hn.1), refE, ← hμ it (by simp) τ]
    refine lintegral_congr fun x => ?_
    exact refE_eq_lmarginal hφ l _ hn.2 fun p hp => hμ p (List.mem_cons_of_mem _ hp)

open Classical in
/-- **C130** (functions) The same for models with invertible functions, clipping, rounding and stacks, where the values that the variables can take, and where they have atoms, do not depend on the values of other variables. -/
theorem C130_functions_partial (reg : Registry Di) (W : World Di) (hasCdf : Di → Bool) (hN : ∀ dist, IR.Normals.isNormal dist = true → hasCdf dist = true) (ρ : ℕ → FVal) (ω : ℕ → Di → List FVal → FVal) {defs : ℕ → Option (Expr Di)} (hwf : WellFormed defs)
    {l : List (Item Di)} (hne : l ≠ []) (hnd : (l.map (·.v)).Nodup) (hsrc : ((l.flatMap (·.tree.sources)).map (·.id)).Nodup) (hlist : Listed defs W.kd hasCdf (· ∈ l.map (·.v)) l [])
    {rvs clones : List ℕ} {realized : Dict ℕ ℕ} (hc : clones.length = rvs.length) (hmem : ∀ v, (v ∈ rvs ∨ v ∈ Dict.keys realized) ↔ v ∈ l.map (·.v)) {S : ℕ → Bool} (hrun : Run W.kd (outputs defs (rvValues rvs clones realized)) S)
    (env : (ℕ → ℝ) → ℕ → FVal) (henv : ∀ τ v x, Dict.get? (rvValues rvs clones realized) v = some x → env τ x = .fin (τ v))
    (hinp : ∀ τ v e, (v ∈ rvs ∨ v ∈ Dict.keys realized) → defs v = some e → ∀ i, UsesInput i e → env τ i = ρ i) (hfix : FixedRange W (· ∈ l.map (·.v)) ρ l) :
    ∃ j vvs, joint hasCdf S defs rvs clones realized = .ok (some (j, vvs)) ∧
      ∀ g : (ℕ → ℝ) → ENNReal, (g = fun τ => dens (evalJoint reg W.kd (env τ) ω j)) → Measurable g → ∀ σ₀ τ₀ : ℕ → ℝ, Valid reg W (· ∈ l.map (·.v)) ρ l τ₀ →
        (∀ φ : (ℕ → ℝ) → ENNReal, Measurable φ →
          sampleE W.law ρ (l.flatMap (·.tree.sources)) σ₀ (fun σ => averageE W (· ∈ l.map (·.v)) ρ (l.filter fun it => it.v ∉ Dict.keys realized) g φ (values defs ρ (l.map (·.v)) τ₀ σ)) =
            sampleE W.law ρ (l.flatMap (·.tree.sources)) σ₀ fun σ => φ (values defs ρ (l.map (·.v)) τ₀ σ)) ∧
        sampleE W.law ρ (l.flatMap (·.tree.sources)) σ₀ (fun σ =>
          if refE W (· ∈ l.map (·.v)) ρ (l.filter fun it => it.v ∉ Dict.keys realized) (values defs ρ (l.map (·.v)) τ₀ σ) g = 0 ∨
            refE W (· ∈ l.map (·.v)) ρ (l.filter fun it => it.v ∉ Dict.keys realized) (values defs ρ (l.map (·.v)) τ₀ σ) g = ⊤ then 1 else 0) = 0 := by
  obtain ⟨j, vvs, hj, h⟩ := C100_realized_density reg W hasCdf hN ρ ω hwf hne hnd hsrc hlist hc hmem hrun env henv hinp
  obtain ⟨j', vvs', hj', hf⟩ := joint_factors reg W hasCdf hN ρ ω hwf hne hnd hlist hc hmem hrun env henv hinp
  rw [hj] at hj'
  cases hj'
  refine ⟨j, vvs, hj, fun g hg hm σ₀ τ₀ hv => ?_⟩
  have h' := fun ψ => h σ₀ τ₀ hv ψ
  simp only [show ∀ τ, dens (evalJoint reg W.kd (env τ) ω j) = g τ from fun τ => by rw [hg]] at h' hf
  set R : ℕ → Prop := (· ∈ l.map (·.v)) with hR
  set μ := refAt W R ρ l with hμd
  have : ∀ i, SigmaFinite (μ i) := refAt_sigmaFinite hfix
  have hμ : ∀ it ∈ l, ∀ τ, μ it.v = (it.tree.ref W (readAt R (Graph.asg τ) ρ)).restrict (it.tree.range W (readAt R (Graph.asg τ) ρ)) := fun it hit τ => refAt_eq hfix hnd hit τ
  obtain ⟨hs, hd⟩ := Graph.toFinset_split (·.v) l hnd fun it => decide (it.v ∉ Dict.keys realized)
  set F := ((l.filter fun it => decide (it.v ∉ Dict.keys realized)).map (·.v)).toFinset with hF
  set O := ((l.filter fun it => !decide (it.v ∉ Dict.keys realized)).map (·.v)).toFinset with hO
  have eAll : ∀ φ, Measurable φ → refE W R ρ l τ₀ φ = (∫⋯∫⁻_O ∪ F, φ ∂μ) τ₀ := fun φ hφ => by
    rw [refE_eq_lmarginal (μ := μ) hφ l τ₀ hnd hμ, hs]
  have eF : ∀ φ, Measurable φ → ∀ τ, refE W R ρ (l.filter fun it => it.v ∉ Dict.keys realized) τ φ = (∫⋯∫⁻_F, φ ∂μ) τ := fun φ hφ τ =>
    refE_eq_lmarginal (μ := μ) hφ _ τ (hnd.sublist (List.filter_sublist.map _)) fun it hit => hμ it (List.mem_of_mem_filter hit)
  have hfin : (∫⋯∫⁻_O ∪ F, g ∂μ) τ₀ ≠ ⊤ := by
    rw [← eAll g hm, funext hf]
    exact ((refE_total_le l [] τ₀ (by simpa using hnd) hlist hv).trans_lt ENNReal.one_lt_top).ne
  constructor
  · intro φ hφ
    have hgφ : Measurable fun σ => g σ * φ σ := hm.mul hφ
    have ea : averageE W R ρ (l.filter fun it => it.v ∉ Dict.keys realized) g φ = fun σ => (∫⋯∫⁻_F, (fun σ => g σ * φ σ) ∂μ) σ / (∫⋯∫⁻_F, g ∂μ) σ := by
      funext σ
      rw [averageE, eF _ hgφ, eF _ hm]
    have hq : Measurable fun σ => g σ * ((∫⋯∫⁻_F, (fun σ => g σ * φ σ) ∂μ) σ / (∫⋯∫⁻_F, g ∂μ) σ) :=
      hm.mul ((hgφ.lmarginal _).div (hm.lmarginal _))
    rw [← h', ← h', ea, eAll _ hq, eAll _ hgφ]
    exact Posterior.lmarginal_average hd hm hφ hfin
  · have hZ : Measurable (∫⋯∫⁻_F, g ∂μ) := hm.lmarginal _
    have hi : Measurable fun x => if (∫⋯∫⁻_F, g ∂μ) x = 0 ∨ (∫⋯∫⁻_F, g ∂μ) x = ⊤ then (1 : ENNReal) else 0 :=
      Measurable.ite ((hZ (measurableSet_singleton 0)).union (hZ (measurableSet_singleton ⊤))) measurable_const measurable_const
    have h2 := h' fun x => if (∫⋯∫⁻_F, g ∂μ) x = 0 ∨ (∫⋯∫⁻_F, g ∂μ) x = ⊤ then (1 : ENNReal) else 0
    simp only [eF _ hm]
    rw [← h2, eAll _ (show Measurable fun x => g x * _ from hm.mul hi)]
    exact Posterior.lmarginal_normaliser hd hm hfin

end Verif.Full

/-! `M ~ N(0, 1)`, `Y ~ N(M, 1)`, with the value of `Y` realized. -/

namespace Verif.Graph.PosteriorDemo
open Verif Cond MeasureTheory ProbabilityTheory Graph.Readme

noncomputable def M : RVDef Dist := ⟨.normal, 2, ![.const (.fin 0), .const (.fin 1)]⟩
noncomputable def N : RVDef Dist := ⟨.normal, 2, ![.rv 0 .normal 2 M.args, .const (.fin 1)]⟩
noncomputable def pair : List (ℕ × RVDef Dist) := [(0, M), (1, N)]

/-- Value variable `10` for `M`, realized value `11` for `Y`. -/
def at2 (σ : ℕ → ℝ) (i : ℕ) : FVal := if i = 10 then .fin (σ 0) else if i = 11 then .fin (σ 1) else .nan

theorem dens_normal (m y : ℝ) : dens (normalLogprob (.fin y) (.fin m) (.fin 1)) = gaussianPDF m 1 y := by
  rw [normal_eval y m one_pos, dens_log (gaussianPDFReal_pos _ _ _ (toNNReal_sq_ne one_pos)), gaussianPDF]
  congr 2
  ext
  simp

theorem paramsM (σ : ℕ → ℝ) (ρ : ℕ → FVal) : params (asg σ) ρ M = [.fin 0, .fin 1] := by simp [params, M, List.ofFn_succ, evalAt]
theorem paramsN (σ : ℕ → ℝ) (ρ : ℕ → FVal) : params (asg σ) ρ N = [.fin (σ 0), .fin 1] := by simp [params, N, List.ofFn_succ, evalAt, asg]

theorem good (m : ℝ) : GoodAt (Readme.kernel .normal) (Readme.law .normal) volume [.fin m, .fin 1] := by
  have : IsProbabilityMeasure (Readme.law .normal [.fin m, .fin 1]) := inferInstanceAs (IsProbabilityMeasure (gaussianReal m _))
  refine goodAt_of_isLogDensity (C09_normal m one_pos).1 ?_
  show Measurable fun y : ℝ => dens (normalLogprob (.fin y) (.fin m) (.fin 1))
  simp only [dens_normal]
  exact measurable_gaussianPDF _ _

theorem validPair (ρ : ℕ → FVal) (σ : ℕ → ℝ) : Valid Readme.kernel Readme.law (fun _ => volume) ρ pair σ := by
  refine ⟨?_, fun x _ => ⟨?_, fun _ _ => trivial⟩⟩
  · rw [paramsM]; exact good 0
  · rw [paramsN]; exact good _

theorem order : DependencyOrder pair := by simp [DependencyOrder, pair, M, N, Mentions, Fin.forall_fin_two]
theorem user : ∀ p ∈ pair, ∀ i, User (p.2.args i) := by simp [pair, M, N, User, Fin.forall_fin_two]
theorem members : ∀ v, (v ∈ [0] ∨ v ∈ Dict.keys [(1, 11)]) ↔ v ∈ pair.map Prod.fst := by simp [Dict.keys, pair]
theorem closed : ∀ p ∈ pair, ∀ i id, Mentions id (p.2.args i) → id ∈ pair.map Prod.fst := by simp [pair, M, N, Mentions, Fin.forall_fin_two]
theorem values : ∀ (σ : ℕ → ℝ) v x, Dict.get? (rvValues [0] [10] [(1, 11)]) v = some x → at2 σ x = .fin (σ v) := by
  intro σ v x h
  have e : rvValues [0] [10] [(1, 11)] = [(0, 10), (1, 11)] := by decide
  rw [e] at h
  simp only [Dict.get?] at h
  split_ifs at h with h1 h2
  · cases h; subst h1; rfl
  · cases h; subst h2; rfl
theorem fresh : ∀ σ, ∀ p ∈ pair, params (asg σ) (at2 σ) p.2 = params (asg σ) (fun _ => .nan) p.2 := by
  intro σ p hp
  simp only [pair, List.mem_cons, List.not_mem_nil, or_false] at hp
  rcases hp with rfl | rfl
  · rw [paramsM, paramsM]
  · rw [paramsN, paramsN]

/-- The joint log-probability of the two. -/
theorem value (ω : ℕ → Dist → List FVal → FVal) : ∃ j vvs, joint (Dict.get? pair) [0] [10] [(1, 11)] = .ok (some (j, vvs)) ∧
    ∀ σ, dens (evalJoint Readme.kernel (at2 σ) ω j) = gaussianPDF 0 1 (σ 0) * gaussianPDF (σ 0) 1 (σ 1) := by
  obtain ⟨j, vvs, hj, h⟩ := joint_product Readme.kernel (fun _ => .nan) ω (by simp [pair]) order user (rvs := [0]) (clones := [10]) (realized := [(1, 11)]) rfl members closed at2 values fresh
  refine ⟨j, vvs, hj, fun σ => ?_⟩
  rw [h]
  simp only [pair, List.map_cons, List.map_nil, List.prod_cons, List.prod_nil, mul_one, paramsM, paramsN]
  exact congrArg₂ _ (dens_normal _ _) (dens_normal _ _)

theorem measurable_value : Measurable fun σ : ℕ → ℝ => gaussianPDF 0 1 (σ 0) * gaussianPDF (σ 0) 1 (σ 1) := by
  refine ((measurable_gaussianPDF 0 1).comp (measurable_pi_apply 0)).mul ?_
  refine Measurable.ennreal_ofReal ?_
  unfold gaussianPDFReal
  fun_prop

/-- The value of `Y` is realized, and the density of `M` given it follows. -/
example : ∃ j vvs, joint (Dict.get? pair) [0] [10] [(1, 11)] = .ok (some (j, vvs)) ∧
    ∀ σ₀ : ℕ → ℝ, ∀ φ : (ℕ → ℝ) → ENNReal, Measurable φ →
      sampleE Readme.law (fun _ => .nan) pair σ₀ (averageE (fun _ => volume) [(0, M)] (fun σ => dens (evalJoint Readme.kernel (at2 σ) (fun _ _ _ => .nan) j)) φ) =
        sampleE Readme.law (fun _ => .nan) pair σ₀ φ := by
  obtain ⟨j, vvs, hj, h⟩ := C130_posterior_partial Readme.kernel Readme.law (fun _ => volume) (fun _ => .nan) (fun _ _ _ => .nan) (by simp [pair]) order user (rvs := [0]) (clones := [10]) (realized := [(1, 11)]) rfl
    members closed at2 values fresh
  obtain ⟨j', vvs', hj', h'⟩ := value fun _ _ _ => .nan
  rw [hj] at hj'
  cases hj'
  refine ⟨j, vvs, hj, fun σ₀ φ hφ => ?_⟩
  have := (h _ rfl (by simp only [h']; exact measurable_value) σ₀ (validPair _ _)).1 φ hφ
  have e : (pair.filter fun p => p.1 ∉ Dict.keys [(1, 11)]) = [(0, M)] := by simp [pair, Dict.keys]
  convert this using 3
  exact e.symm

/-- **C130** (wrong) The joint log-probability with realized values is not the log of a density of the other variables, as its documentation says (joint_logprob.py:282-285): for no realized value of `Y` is the integral of its exponential one. -/
theorem C130_normalised_wrong : ∃ j vvs, joint (Dict.get? pair) [0] [10] [(1, 11)] = .ok (some (j, vvs)) ∧
    ∀ σ : ℕ → ℝ, refE (fun _ => volume) [(0, M)] σ (fun τ => dens (evalJoint Readme.kernel (at2 τ) (fun _ _ _ => .nan) j)) < 1 := by
  obtain ⟨j, vvs, hj, h⟩ := value fun _ _ _ => .nan
  refine ⟨j, vvs, hj, fun σ => ?_⟩
  simp only [h, refE, Function.update_self, Function.update_of_ne (show (1 : ℕ) ≠ 0 by decide)]
  have hb : ∀ m y : ℝ, gaussianPDF m 1 y ≤ ENNReal.ofReal (1 / 2) := by
    intro m y
    refine ENNReal.ofReal_le_ofReal ?_
    rw [gaussianPDFReal]
    have h1 : Real.exp (-(y - m) ^ 2 / (2 * ((1 : NNReal) : ℝ))) ≤ 1 := Real.exp_le_one_iff.2 (by
      have := sq_nonneg (y - m)
      simp only [NNReal.coe_one]
      linarith)
    have h2 : (Real.sqrt (2 * Real.pi * ((1 : NNReal) : ℝ)))⁻¹ ≤ 1 / 2 := by
      have : (2 : ℝ) ≤ Real.sqrt (2 * Real.pi * ((1 : NNReal) : ℝ)) := Real.le_sqrt_of_sq_le (by
        have := Real.two_le_pi
        simp only [NNReal.coe_one]
        linarith)
      rw [one_div]
      exact inv_anti₀ two_pos this
    calc _ ≤ (1 / 2 : ℝ) * 1 := mul_le_mul h2 h1 (Real.exp_pos _).le (by norm_num)
      _ = _ := by norm_num
  refine (lintegral_mono fun x => mul_le_mul_right (hb x (σ 1)) _).trans_lt ?_
  rw [lintegral_mul_const _ (measurable_gaussianPDF 0 1), lintegral_gaussianPDF_eq_one 0 one_ne_zero, one_mul]
  rw [ENNReal.ofReal_lt_one]
  norm_num

end Verif.Graph.PosteriorDemo

/-! `S ~ N(0, 1)`, `V ~ N(S, 1)`, with the value of `E = exp(V)` realized. -/

namespace Verif.Full.PosteriorDemo
open Verif Cond MeasureTheory ProbabilityTheory Set

noncomputable def S : Expr Bool := .rv 0 true 2 ![.const (.fin 0), .const (.fin 1)]
noncomputable def V : Expr Bool := .rv 1 true 2 ![S, .const (.fin 1)]
noncomputable def E : Expr Bool := .app 2 .float (.elem .exp) 1 ![V]
noncomputable def defs : ℕ → Option (Expr Bool) := Dict.get? [(0, S), (1, V), (2, E)]
noncomputable def tS : RTree Bool := .rv ⟨0, true, 2, ![.const (.fin 0), .const (.fin 1)]⟩
noncomputable def tE : RTree Bool := .elem .exp 1 0 ![V] (.rv ⟨1, true, 2, ![S, .const (.fin 1)]⟩)
noncomputable def items : List (Item Bool) := [⟨0, tS⟩, ⟨2, tE⟩]
def R : ℕ → Prop := fun v => v = 0 ∨ v = 2

theorem R_eq : (· ∈ items.map (·.v)) = R := by
  funext v
  simp [items, R]

theorem wf : WellFormed defs := by
  have hS : Closed defs S := ⟨rfl, by simp [Fin.forall_fin_two, Closed]⟩
  have hV : Closed defs V := ⟨rfl, fun i => by fin_cases i; exacts [hS, trivial]⟩
  have hE : Closed defs E := ⟨rfl, fun i => by fin_cases i; exact hV⟩
  intro v e h
  have := Dict.mem_of_get? h
  simp only [List.mem_cons, Prod.mk.injEq, List.not_mem_nil, or_false] at this
  rcases this with ⟨rfl, rfl⟩ | ⟨rfl, rfl⟩ | ⟨rfl, rfl⟩
  exacts [⟨rfl, hS⟩, ⟨rfl, hV⟩, ⟨rfl, hE⟩]

theorem listed : Listed defs DemoJoint.world.kd (fun _ => true) (· ∈ items.map (·.v)) items [] := by
  rw [R_eq]
  refine ⟨⟨S, rfl, .rv ..⟩, ?_, ⟨E, rfl, ?_⟩, ?_, trivial⟩
  · intro i
    fin_cases i <;> trivial
  · refine .elem (args := ![V]) 0 .exp ?_ (by simp [kindOf, V, DemoJoint.world]) rfl (.rv ..)
    rintro ⟨id', h', hr⟩
    cases h'
    simp [R] at hr
  · refine ⟨fun j hj => absurd (Subsingleton.elim (α := Fin 1) j 0) hj, fun i => ?_⟩
    fin_cases i
    · exact ⟨.inl rfl, by simp⟩
    · trivial

theorem readS (τ : ℕ → ℝ) (ρ : ℕ → FVal) : readAt R (Graph.asg τ) ρ S = .fin (τ 0) := if_pos (Or.inl rfl)

theorem paramsS (val : Expr Bool → FVal) (h : ∀ x, val (.const x) = x) : Source.params val ⟨0, true, 2, ![.const (.fin 0), .const (.fin 1)]⟩ = [.fin 0, .fin 1] := by
  simp [Source.params, List.ofFn_succ, h]

theorem paramsV (τ : ℕ → ℝ) (ρ : ℕ → FVal) : Source.params (readAt R (Graph.asg τ) ρ) ⟨1, true, 2, ![S, .const (.fin 1)]⟩ = [.fin (τ 0), .fin 1] := by
  simp [Source.params, List.ofFn_succ, readS, readAt]

theorem valid (ρ : ℕ → FVal) (τ : ℕ → ℝ) : Valid DemoJoint.reg DemoJoint.world (· ∈ items.map (·.v)) ρ items τ := by
  rw [R_eq]
  refine ⟨?_, fun x _ => ⟨⟨?_, trivial, .inl ?_⟩, fun _ _ => trivial⟩⟩
  · show SourceOk _ _ _ (Source.params _ _)
    rw [paramsS _ fun _ => rfl]; exact DemoJoint.normal_ok 0
  · show SourceOk _ _ _ (Source.params _ _)
    rw [paramsV]; exact DemoJoint.normal_ok _
  · simp [RTree.atoms, rvAtoms, DemoJoint.world]

theorem fixed (ρ : ℕ → FVal) : FixedRange DemoJoint.world (· ∈ items.map (·.v)) ρ items := by
  rw [R_eq]
  intro it hit
  simp only [items, List.mem_cons, List.not_mem_nil, or_false] at hit
  rcases hit with rfl | rfl
  · exact ⟨true, ∅, univ, countable_empty, MeasurableSet.univ, fun τ => ⟨rfl, by simp [tS, RTree.atoms, rvAtoms, DemoJoint.world], rfl⟩⟩
  · refine ⟨true, ∅, Ioi 0, countable_empty, measurableSet_Ioi, fun τ => ⟨rfl, by simp [tE, RTree.atoms, rvAtoms, DemoJoint.world], ?_⟩⟩
    rw [tE, RTree.range, RTree.range]
    show (elemLayer (readAt R (Graph.asg τ) ρ) .exp 1 0 ![V]).fn constVal '' univ = _
    have : (elemLayer (readAt R (Graph.asg τ) ρ) .exp 1 0 ![V]).fn constVal = Real.exp := by
      funext x
      simp [IR.Layer.fn, IR.Layer.out, elemLayer, IR.Op.eval, List.ofFn_succ, realOf]
    rw [this, image_univ, Real.range_exp]

theorem termE (m : ℝ) (v : FVal) : elemLp .exp [Arg.meas] (fun x => normalLogprob x (.fin m) (.fin 1)) v = measurableElemwiseLogprob .exp (fun x => normalLogprob x (.fin m) (.fin 1)) v := rfl

theorem termE_pos (m : ℝ) {y : ℝ} (hy : 0 < y) : dens (elemLp .exp [Arg.meas] (fun x => normalLogprob x (.fin m) (.fin 1)) (.fin y)) = gaussianPDF m 1 (Real.log y) * ENNReal.ofReal y⁻¹ := by
  rw [termE]
  have h1 : measurableElemwiseLogprob .exp (fun x => normalLogprob x (.fin m) (.fin 1)) (.fin y) =
      .ok (.fin (Real.log (gaussianPDFReal m ((1 : ℝ) ^ 2).toNNReal (Real.log y)) + -Real.log y)) := by
    simp only [measurableElemwiseLogprob, RVTransform.exp, FVal.log_fin_pos hy, normal_eval _ m one_pos, bind, Except.bind, pure, Except.pure, FVal.neg_fin]
    rfl
  have hp := gaussianPDFReal_pos m _ (Real.log y) (toNNReal_sq_ne one_pos)
  rw [h1, ← Real.log_inv, ← Real.log_mul hp.ne' (inv_ne_zero hy.ne'), dens_log (mul_pos hp (inv_pos.2 hy)), ENNReal.ofReal_mul hp.le, gaussianPDF]
  congr 3
  ext
  simp

theorem termE_neg (m : ℝ) {y : ℝ} (hy : y ≤ 0) : dens (elemLp .exp [Arg.meas] (fun x => normalLogprob x (.fin m) (.fin 1)) (.fin y)) = 0 := by
  rw [termE]
  rcases hy.lt_or_eq with h | rfl
  · simp only [measurableElemwiseLogprob, RVTransform.exp, FVal.log_fin_neg h, bind, Except.bind, FVal.neg_nan, FVal.add_nan, pure, Except.pure]
    rcases normalLogprob .nan (.fin m) (.fin 1) with e | x <;> rfl
  · have : normalLogprob .ninf (.fin m) (.fin 1) = .ok .ninf := (NonFinite.C110_normal m one_pos).2
    simp only [measurableElemwiseLogprob, RVTransform.exp, FVal.log_zero, this, bind, Except.bind, pure, Except.pure]
    rfl

/-- Value variable `10` for `S`, realized value `12` for `E`. -/
def env (τ : ℕ → ℝ) (i : ℕ) : FVal := if i = 10 then .fin (τ 0) else if i = 12 then .fin (τ 2) else .nan

theorem members : ∀ v, (v ∈ [0] ∨ v ∈ Dict.keys [(2, 12)]) ↔ v ∈ items.map (·.v) := by simp [Dict.keys, items]

theorem values_env : ∀ (τ : ℕ → ℝ) v x, Dict.get? (rvValues [0] [10] [(2, 12)]) v = some x → env τ x = .fin (τ v) := by
  intro τ v x h
  have e : rvValues [0] [10] [(2, 12)] = [(0, 10), (2, 12)] := by decide
  rw [e] at h
  simp only [Dict.get?] at h
  split_ifs at h with h1 h2
  · cases h; subst h1; rfl
  · cases h; subst h2; rfl

theorem no_inputs : ∀ (τ : ℕ → ℝ) v e, (v ∈ [0] ∨ v ∈ Dict.keys [(2, 12)]) → defs v = some e → ∀ i, UsesInput i e → env τ i = .nan := by
  intro τ v e _ he i hi
  have hS : ∀ i, ¬ UsesInput i S := by simp [S, UsesInput, Fin.exists_fin_two]
  have hV : ∀ i, ¬ UsesInput i V := by simp [V, UsesInput, Fin.exists_fin_two, hS]
  have hE : ∀ i, ¬ UsesInput i E := by simp [E, UsesInput, Fin.exists_fin_succ, hV]
  have := Dict.mem_of_get? he
  simp only [List.mem_cons, Prod.mk.injEq, List.not_mem_nil, or_false] at this
  rcases this with ⟨-, rfl⟩ | ⟨-, rfl⟩ | ⟨-, rfl⟩
  exacts [absurd hi (hS i), absurd hi (hV i), absurd hi (hE i)]

/-- The density is a measurable function. -/
theorem factors_eq (ρ : ℕ → FVal) (τ : ℕ → ℝ) : (items.map (factor DemoJoint.reg DemoJoint.world.kd R ρ τ)).prod =
    gaussianPDF 0 1 (τ 0) * (Ioi (0 : ℝ)).indicator (fun y => gaussianPDF (τ 0) 1 (Real.log y) * ENNReal.ofReal y⁻¹) (τ 2) := by
  simp only [items, List.map_cons, List.map_nil, List.prod_cons, List.prod_nil, mul_one, factor]
  congr 1
  · show dens (DemoJoint.reg.kernel true (.fin (τ 0)) (Source.params _ ⟨0, true, 2, ![.const (.fin 0), .const (.fin 1)]⟩)) = _
    rw [paramsS _ fun _ => rfl]
    exact Graph.PosteriorDemo.dens_normal 0 (τ 0)
  · show dens (elemLp .exp (List.ofFn fun i : Fin 1 => if i = 0 then Arg.meas else .other _) (fun x => DemoJoint.reg.kernel true x (Source.params _ ⟨1, true, 2, ![S, .const (.fin 1)]⟩)) (.fin (τ 2))) = _
    rw [paramsV]
    rcases le_or_gt (τ 2) 0 with h | h
    · rw [indicator_of_notMem (by simpa using h)]; exact termE_neg (τ 0) h
    · rw [indicator_of_mem (mem_Ioi.2 h)]; exact termE_pos (τ 0) h

theorem measurable_factors : Measurable fun τ : ℕ → ℝ => gaussianPDF 0 1 (τ 0) * (Ioi (0 : ℝ)).indicator (fun y => gaussianPDF (τ 0) 1 (Real.log y) * ENNReal.ofReal y⁻¹) (τ 2) := by
  refine ((measurable_gaussianPDF 0 1).comp (measurable_pi_apply 0)).mul ?_
  have : (fun τ : ℕ → ℝ => (Ioi (0 : ℝ)).indicator (fun y => gaussianPDF (τ 0) 1 (Real.log y) * ENNReal.ofReal y⁻¹) (τ 2)) =
      {τ : ℕ → ℝ | τ 2 ∈ Ioi (0 : ℝ)}.indicator fun τ => ENNReal.ofReal (gaussianPDFReal (τ 0) 1 (Real.log (τ 2))) * ENNReal.ofReal (τ 2)⁻¹ := by
    funext τ
    by_cases h : τ 2 ∈ Ioi (0 : ℝ)
    · rw [indicator_of_mem h, indicator_of_mem (by exact h)]; rfl
    · rw [indicator_of_notMem h, indicator_of_notMem (by exact h)]
  rw [this]
  refine Measurable.indicator ?_ (measurable_pi_apply 2 measurableSet_Ioi)
  unfold gaussianPDFReal
  fun_prop

example : ∃ S', Run DemoJoint.world.kd (outputs defs (rvValues [0] [10] [(2, 12)])) S' ∧ ∃ j vvs, joint (fun _ => true) S' defs [0] [10] [(2, 12)] = .ok (some (j, vvs)) ∧
    ∀ σ₀ τ₀ : ℕ → ℝ, ∀ φ : (ℕ → ℝ) → ENNReal, Measurable φ →
      sampleE DemoJoint.world.law (fun _ => .nan) (items.flatMap (·.tree.sources)) σ₀ (fun σ => averageE DemoJoint.world (· ∈ items.map (·.v)) (fun _ => .nan) [⟨0, tS⟩]
          (fun τ => dens (evalJoint DemoJoint.reg DemoJoint.world.kd (env τ) (fun _ _ _ => .nan) j)) φ (values defs (fun _ => .nan) (items.map (·.v)) τ₀ σ)) =
        sampleE DemoJoint.world.law (fun _ => .nan) (items.flatMap (·.tree.sources)) σ₀ fun σ => φ (values defs (fun _ => .nan) (items.map (·.v)) τ₀ σ) := by
  obtain ⟨S', hrun⟩ := exists_run DemoJoint.world.kd (outputs defs (rvValues [0] [10] [(2, 12)]))
  have hsrc : ((items.flatMap (·.tree.sources)).map (·.id)).Nodup := by simp [items, RTree.sources, tS, tE]
  obtain ⟨j, vvs, hj, h⟩ := C130_functions_partial DemoJoint.reg DemoJoint.world (fun _ => true) (fun _ _ => rfl) (fun _ => .nan) (fun _ _ _ => .nan) wf (l := items) (by simp [items]) (by simp [items]) hsrc listed
    (rvs := [0]) (clones := [10]) (realized := [(2, 12)]) rfl members hrun env values_env no_inputs (fixed _)
  obtain ⟨j', vvs', hj', hf⟩ := joint_factors DemoJoint.reg DemoJoint.world (fun _ => true) (fun _ _ => rfl) (fun _ => .nan) (fun _ _ _ => .nan) wf (l := items) (by simp [items]) (by simp [items]) listed
    (rvs := [0]) (clones := [10]) (realized := [(2, 12)]) rfl members hrun env values_env no_inputs
  rw [hj] at hj'
  cases hj'
  refine ⟨S', hrun, j, vvs, hj, fun σ₀ τ₀ φ hφ => ?_⟩
  rw [R_eq] at hf
  have := (h _ rfl (by simp only [hf, factors_eq]; exact measurable_factors) σ₀ τ₀ (valid _ _)).1 φ hφ
  have e : (items.filter fun it => it.v ∉ Dict.keys [(2, 12)]) = [⟨0, tS⟩] := by simp [items, Dict.keys]
  convert this using 4
  exact e.symm

end Verif.Full.PosteriorDemo

/-! `S` and `X` are standard normal, with the value of `Y = clip(X, S, inf)` realized. -/

namespace Verif.Full.PosteriorClip
open Verif Cond MeasureTheory ProbabilityTheory Set

noncomputable def S : Expr Bool := .rv 0 true 2 ![.const (.fin 0), .const (.fin 1)]
noncomputable def X : Expr Bool := .rv 1 true 2 ![.const (.fin 0), .const (.fin 1)]
noncomputable def Y : Expr Bool := .app 2 .float .clip 3 ![X, S, .const .pinf]
noncomputable def defs : ℕ → Option (Expr Bool) := Dict.get? [(0, S), (1, X), (2, Y)]
noncomputable def tS : RTree Bool := .rv ⟨0, true, 2, ![.const (.fin 0), .const (.fin 1)]⟩
noncomputable def tY : RTree Bool := .clip (some S) (some (.const .pinf)) ⟨1, true, 2, ![.const (.fin 0), .const (.fin 1)]⟩
noncomputable def items : List (Item Bool) := [⟨0, tS⟩, ⟨2, tY⟩]
def R : ℕ → Prop := fun v => v = 0 ∨ v = 2

theorem R_eq : (· ∈ items.map (·.v)) = R := by
  funext v
  simp [items, R]

theorem wf : WellFormed defs := by
  have hS : Closed defs S := ⟨rfl, by simp [Fin.forall_fin_two, Closed]⟩
  have hX : Closed defs X := ⟨rfl, by simp [Fin.forall_fin_two, Closed]⟩
  have hY : Closed defs Y := ⟨rfl, fun i => by fin_cases i; exacts [hX, hS, trivial]⟩
  intro v e h
  have := Dict.mem_of_get? h
  simp only [List.mem_cons, Prod.mk.injEq, List.not_mem_nil, or_false] at this
  rcases this with ⟨rfl, rfl⟩ | ⟨rfl, rfl⟩ | ⟨rfl, rfl⟩
  exacts [⟨rfl, hS⟩, ⟨rfl, hX⟩, ⟨rfl, hY⟩]

theorem listed : Listed defs DemoJoint.world.kd (fun _ => true) (· ∈ items.map (·.v)) items [] := by
  rw [R_eq]
  refine ⟨⟨S, rfl, .rv ..⟩, ?_, ⟨Y, rfl, ?_⟩, ?_, trivial⟩
  · intro i
    fin_cases i <;> trivial
  · have := IsTree.clip (R := R) (kd := DemoJoint.world.kd) (hasCdf := fun _ => true) (id := 2) (k := .float) (args := ![X, S, .const .pinf]) (id' := 1) (dist := true) rfl (by simp [R]) rfl
    have e1 : boundOf 1 S = some S := if_neg (by simp [S, nodeId])
    have e2 : boundOf (Di := Bool) 1 (.const .pinf) = some (.const .pinf) := if_neg (by simp [nodeId])
    simp only [Matrix.cons_val_one, Matrix.cons_val_zero, Matrix.cons_val] at this
    rw [e1, e2] at this
    exact this
  · refine ⟨fun e he => ?_, fun e he => ?_, fun i => ?_⟩
    · cases he; exact ⟨.inl rfl, by simp⟩
    · cases he; trivial
    · fin_cases i <;> trivial

/-- Value variable `10` for `S`, realized value `12` for `Y`. -/
def env (τ : ℕ → ℝ) (i : ℕ) : FVal := if i = 10 then .fin (τ 0) else if i = 12 then .fin (τ 2) else .nan

theorem no_inputs : ∀ (τ : ℕ → ℝ) v e, (v ∈ [0] ∨ v ∈ Dict.keys [(2, 12)]) → defs v = some e → ∀ i, UsesInput i e → env τ i = .nan := by
  intro τ v e _ he i hi
  have hS : ∀ i, ¬ UsesInput i S := by simp [S, UsesInput, Fin.exists_fin_two]
  have hX : ∀ i, ¬ UsesInput i X := by simp [X, UsesInput, Fin.exists_fin_two]
  have hY : ∀ i, ¬ UsesInput i Y := by simp [Y, UsesInput, Fin.exists_fin_succ, hS, hX]
  have := Dict.mem_of_get? he
  simp only [List.mem_cons, Prod.mk.injEq, List.not_mem_nil, or_false] at this
  rcases this with ⟨-, rfl⟩ | ⟨-, rfl⟩ | ⟨-, rfl⟩
  exacts [absurd hi (hS i), absurd hi (hX i), absurd hi (hY i)]

open Classical in
/-- The value of `Y` is that of `S`: `X` has been clipped. -/
noncomputable def clipped (τ : ℕ → ℝ) : ENNReal := if τ 0 = τ 2 then 1 else 0

/-- **C130** (wrong) With a clipped variable whose bound is random, the joint log-probability is not even up to a constant factor the log of a density of the other variables given the realized value: `X` is clipped with positive
probability, and then the bound `S` equals the realized value, but weighted averages over `S` give this the probability zero, whatever the realized value. -/
theorem C130_clip_wrong : ∃ S', Run DemoJoint.world.kd (outputs defs (rvValues [0] [10] [(2, 12)])) S' ∧ ∃ j vvs, joint (fun _ => true) S' defs [0] [10] [(2, 12)] = .ok (some (j, vvs)) ∧
    (∀ τ : ℕ → ℝ, averageE DemoJoint.world (· ∈ items.map (·.v)) (fun _ => .nan) [⟨0, tS⟩] (fun τ => dens (evalJoint DemoJoint.reg DemoJoint.world.kd (env τ) (fun _ _ _ => .nan) j)) clipped τ = 0) ∧
    ∀ σ₀ τ₀ : ℕ → ℝ, sampleE DemoJoint.world.law (fun _ => .nan) (items.flatMap (·.tree.sources)) σ₀ (fun σ => clipped (values defs (fun _ => .nan) (items.map (·.v)) τ₀ σ)) ≠ 0 := by
  obtain ⟨S', hrun⟩ := exists_run DemoJoint.world.kd (outputs defs (rvValues [0] [10] [(2, 12)]))
  obtain ⟨j, vvs, hj, -⟩ := joint_factors DemoJoint.reg DemoJoint.world (fun _ => true) (fun _ _ => rfl) (fun _ => .nan) (fun _ _ _ => .nan) wf (l := items) (by simp [items]) (by simp [items]) listed
    (rvs := [0]) (clones := [10]) (realized := [(2, 12)]) rfl (by simp [Dict.keys, items]) hrun env PosteriorDemo.values_env no_inputs
  refine ⟨S', hrun, j, vvs, hj, fun τ => ?_, fun σ₀ τ₀ => ?_⟩
  · rw [averageE]
    simp only [refE]
    have e : (RTree.ref DemoJoint.world (readAt (· ∈ items.map (·.v)) (Graph.asg τ) fun _ => .nan) tS) = volume := DemoJoint.refReal
    have e2 : (RTree.range DemoJoint.world (readAt (· ∈ items.map (·.v)) (Graph.asg τ) fun _ => .nan) tS) = univ := rfl
    rw [e, e2, Measure.restrict_univ]
    rw [lintegral_eq_zero_of_ae_eq_zero, ENNReal.zero_div]
    have : ∀ᵐ x : ℝ, x ≠ τ 2 := by simp [ae_iff]
    filter_upwards [this] with x hx
    simp only [clipped, Function.update_self, Function.update_of_ne (show (2 : ℕ) ≠ 0 by decide), if_neg hx, mul_zero, Pi.zero_apply]
  · have e : items.flatMap (·.tree.sources) = [⟨0, true, 2, ![.const (.fin 0), .const (.fin 1)]⟩, ⟨1, true, 2, ![.const (.fin 0), .const (.fin 1)]⟩] := rfl
    have hlaw : ∀ (σ : ℕ → ℝ) (i : ℕ), DemoJoint.world.law true (Source.params (evalAt (Graph.asg σ) fun _ => .nan) ⟨i, true, 2, ![.const (.fin 0), .const (.fin 1)]⟩) = gaussianReal 0 ((1 : ℝ) ^ 2).toNNReal := by
      intro σ i
      have : Source.params (Di := Bool) (evalAt (Graph.asg σ) fun _ => .nan) ⟨i, true, 2, ![.const (.fin 0), .const (.fin 1)]⟩ = [.fin 0, .fin 1] := by
        simp [Source.params, List.ofFn_succ, evalAt]
      rw [this]; rfl
    rw [e]
    simp only [sampleE, hlaw]
    have hval : ∀ s x : ℝ, clipped (values defs (fun _ => .nan) (items.map (·.v)) τ₀ (Function.update (Function.update σ₀ 0 s) 1 x)) = (Iic s).indicator (fun _ => 1) x := by
      intro s x
      have h0 : values defs (fun _ => .nan) (items.map (·.v)) τ₀ (Function.update (Function.update σ₀ 0 s) 1 x) 0 = s := by
        have : evalAt (Graph.asg (Function.update (Function.update σ₀ 0 s) 1 x)) (fun _ => .nan) S = .fin s := rfl
        simp only [values, if_pos (show (0 : ℕ) ∈ items.map (·.v) by simp [items]), show defs 0 = some S from rfl, this, realOf]
      have h2 : values defs (fun _ => .nan) (items.map (·.v)) τ₀ (Function.update (Function.update σ₀ 0 s) 1 x) 2 = max s x := by
        have : evalAt (Graph.asg (Function.update (Function.update σ₀ 0 s) 1 x)) (fun _ => .nan) Y = clipEval (.fin x) (.fin s) .pinf := rfl
        simp only [values, if_pos (show (2 : ℕ) ∈ items.map (·.v) by simp [items]), show defs 2 = some Y from rfl, this]
        have hg : FVal.switch (FVal.gt (.fin x) .pinf) FVal.pinf (FVal.fin x) = FVal.fin x := by simp [FVal.switch, FVal.gt, FVal.lt]
        rw [clipEval, hg]
        rcases lt_or_ge x s with h | h
        · rw [max_eq_left h.le, FVal.switch, if_pos (by simpa using h)]; rfl
        · rw [max_eq_right h, FVal.switch, if_neg (by simpa using h)]; rfl
      rw [clipped, h0, h2]
      by_cases h : x ≤ s
      · rw [if_pos (max_eq_left h).symm, indicator_of_mem (mem_Iic.2 h)]
      · rw [if_neg (fun h' => h (by rw [h']; exact le_max_right _ _)), indicator_of_notMem (by simpa using h)]
    simp only [hval, lintegral_indicator_const measurableSet_Iic, one_mul]
    have hpos : ∀ s : ℝ, gaussianReal 0 ((1 : ℝ) ^ 2).toNNReal (Iic s) ≠ 0 := fun s => gaussian_ne_zero 0 (σ := 1) one_pos (by simp)
    have hm : Measurable fun s : ℝ => gaussianReal 0 ((1 : ℝ) ^ 2).toNNReal (Iic s) := Monotone.measurable fun a b h => measure_mono (Iic_subset_Iic.2 h)
    rw [ne_eq, lintegral_eq_zero_iff hm]
    intro h
    have : (gaussianReal 0 ((1 : ℝ) ^ 2).toNNReal) univ = 0 := by
      rw [Filter.EventuallyEq, ae_iff] at h
      convert h
      symm
      rw [eq_univ_iff_forall]
      exact fun s => hpos s
    simp at this

end Verif.Full.PosteriorClip
