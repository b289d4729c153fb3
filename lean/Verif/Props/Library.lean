import Verif.Lemmas.Library
import Verif.Props.Cdf
import Verif.Props.ArrGraph
import Verif.Props.Posterior

/-! # C134: the distributions of the library in models -/

namespace Verif.Library
open Verif Cond FVal MeasureTheory ProbabilityTheory Set

/-- **C134** (densities) For every distribution of numbers that the library implements and all parameters in its range, the log-probability describes the law: on the support it is never NaN, never raises and is not `+inf`, its
exponential is the density of the law, and off the support it is `-inf` at almost every value. -/
theorem C134_densities {d : Lib} {p : List FVal} (h : d.Domain p) : Full.SourceOk registry world d p ∧ ∀ᵐ x ∂d.ref, x ∉ d.supp p → IsNegInf (d.logprob (fin x) p) := all_described h

example := C134_densities (Lib.Domain.wald (m := 2) (l := 3) two_pos three_pos)
example := C134_densities (Lib.Domain.hypergeometric (g := 3) (b := 4) (n := 5) (by norm_num))

/-- The triangular and logistic laws have the usual distribution functions. -/
theorem C134_distribution_functions : (∀ {a c b : ℝ}, a ≤ c → c ≤ b → a < b → ∀ x, Lib.law .triangular [fin a, fin c, fin b] (Iic x) = ENNReal.ofReal (triangularCDF a c b x)) ∧
    ∀ (m : ℝ) {s : ℝ}, 0 < s → ∀ x, Lib.law .logistic [fin m, fin s] (Iic x) = ENNReal.ofReal (1 / (1 + Real.exp (-(x - m) / s))) :=
  ⟨fun h1 h2 h3 x => triangular_iic h1 h2 h3 x, fun m _ h x => logistic_iic m h x⟩

theorem mass_cdf {lp lc : ℤ → Except Err FVal} {q : ℤ → ℝ} (hm : IsLogMass lp q) (hc : ∀ k : ℤ, IsLogSum (lc k) lp k) (k : ℤ) : Clean (lc k) ∧ dens (lc k) = massLaw q (Iic (k : ℝ)) := by
  classical
  refine ⟨(hc k).1, (hc k).2.trans ?_⟩
  rw [massLaw_apply _ measurableSet_Iic]
  refine tsum_congr fun j => ?_
  by_cases h : (j : ℝ) ≤ k
  · rw [if_pos h, if_pos (show (j : ℝ) ∈ Iic (k : ℝ) from h)]; exact hm.mass j
  · rw [if_neg h, if_neg (show (j : ℝ) ∉ Iic (k : ℝ) from h)]

/-- **C134** (log-CDFs) The four distributions with a log-CDF: it describes the distribution function of the same law. -/
theorem C134_logcdfs {d : Lib} {p : List FVal} (h : d.Domain p) (hc : d.hasCdf = true) :
    (d.kind = .float → Full.FloatCdfOk registry world d p ∧ ∀ x ∈ d.supp p, d.law p (Iic x) ≠ 0) ∧ (d.kind = .int → Full.IntCdfOk registry world d p) := by
  have hd := all_described h
  cases h with
  | @uniform a b hab =>
    refine ⟨fun _ => ⟨⟨(C10_uniform hab).1, (C44_uniform_logcdf hab).1⟩, fun x hx h0 => ?_⟩, by rintro ⟨⟩⟩
    have h1 := ((C44_uniform_logcdf hab).1.cdf x).trans h0
    have := ((C44_uniform_logcdf hab).2.1 x).1 (negInf_of_dens ((C44_uniform_logcdf hab).1.clean x) h1)
    exact absurd hx.1 (not_lt.2 this)
  | @normal m s hs =>
    exact ⟨fun _ => ⟨⟨(C09_normal m hs).1, (C43_normal_logcdf m hs).1⟩, fun x _ => gaussian_ne_zero m hs (by simp)⟩, by rintro ⟨⟩⟩
  | @poisson m hm =>
    refine ⟨by rintro ⟨⟩, fun _ => ⟨fun k => ⟨(C31_poisson hm).clean k, ((C31_poisson hm).mass k).trans (massLaw_singleton _ k).symm⟩, mass_cdf (C31_poisson hm) fun k => C45_poisson_logcdf hm k, ?_⟩⟩
    rintro _ ⟨k, rfl⟩; exact nat_integers rfl
  | @geometric q h0 h1 =>
    exact ⟨by rintro ⟨⟩, fun _ => ⟨fun k => ⟨(C33_geometric h0 h1).clean k, ((C33_geometric h0 h1).mass k).trans (massLaw_singleton _ k).symm⟩, mass_cdf (C33_geometric h0 h1) fun k => C46_geometric_logcdf h0 h1 k,
      fun x ⟨k, hk, _⟩ => nat_integers hk⟩⟩
  | _ => cases hc

example := (C134_logcdfs (Lib.Domain.geometric (p := 1 / 3) (by norm_num) (by norm_num)) rfl).2 rfl
example := (C134_logcdfs (Lib.Domain.uniform (a := 1) (b := 2) (by norm_num)) rfl).1 rfl

theorem inDomain_ok {val : Full.Expr Lib → FVal} : ∀ {t : Full.RTree Lib}, InDomain val t → t.Ok registry world val
  | .rv s, h => (all_described h).1
  | .elem op n idx args t, h => ⟨inDomain_ok h.1, h.2⟩
  | .clip lo hi s, h => by
    obtain ⟨h1, h2, h3, h4, h5, h6⟩ := h
    refine ⟨(all_described h1).1, h3, h4, h5, ?_⟩
    rcases hk : s.dist.kind with _ | _ | _
    · exact .inl ⟨hk, ((C134_logcdfs h1 h2).1 hk).1⟩
    · exact .inr ⟨hk, (C134_logcdfs h1 h2).2 hk, h6 hk⟩
    · exfalso
      revert hk
      cases s.dist <;> rintro ⟨⟩
  | .round _ s, h => by
    obtain ⟨h1, h2, h3⟩ := h
    exact ⟨(all_described h1).1, h3, ((C134_logcdfs h1 h2).1 h3).1.lc, ((C134_logcdfs h1 h2).1 h3).2⟩
  | .mix idx k comps, h => by
    obtain ⟨⟨i, h1, h2⟩, h3⟩ := h
    exact ⟨⟨i, h1, inDomain_ok h2⟩, fun j s hs => (all_described (h3 j s hs)).1.good.prob⟩

theorem validModel_valid {R : ℕ → Prop} {ρ : ℕ → FVal} : ∀ {l : List (Full.Item Lib)} {τ : ℕ → ℝ}, ValidModel R ρ l τ → Full.Valid registry world R ρ l τ
  | [], _, _ => trivial
  | _ :: _, _, h => ⟨inDomain_ok h.1, fun y hy => validModel_valid (h.2 y hy)⟩

/-- **C134** (joint densities) The joint density theorem for models made of the library's distributions, with hypotheses on the model only: as long as all parameters that can be reached are in range, the exponential of
`joint_logprob` is the joint density of the variables, each with its law. -/
theorem C134_joint_density (ρ : ℕ → FVal) (ω : ℕ → Lib → List FVal → FVal) {defs : ℕ → Option (Full.Expr Lib)} (hwf : Full.WellFormed defs) {l : List (Full.Item Lib)} (hne : l ≠ []) (hnd : (l.map (·.v)).Nodup)
    (hsrc : ((l.flatMap (·.tree.sources)).map (·.id)).Nodup) (hlist : Full.Listed defs Lib.kind Lib.hasCdf (· ∈ l.map (·.v)) l []) {rvs clones : List ℕ} {realized : Dict ℕ ℕ} (hc : clones.length = rvs.length)
    (hmem : ∀ v, (v ∈ rvs ∨ v ∈ Dict.keys realized) ↔ v ∈ l.map (·.v)) {S : ℕ → Bool} (hrun : Full.Run Lib.kind (Full.outputs defs (rvValues rvs clones realized)) S)
    (env : (ℕ → ℝ) → ℕ → FVal) (henv : ∀ τ v x, Dict.get? (rvValues rvs clones realized) v = some x → env τ x = .fin (τ v))
    (hinp : ∀ τ v e, (v ∈ rvs ∨ v ∈ Dict.keys realized) → defs v = some e → ∀ i, Full.UsesInput i e → env τ i = ρ i) :
    ∃ j vvs, Full.joint Lib.hasCdf S defs rvs clones realized = .ok (some (j, vvs)) ∧
      ∀ σ₀ τ₀ : ℕ → ℝ, ValidModel (· ∈ l.map (·.v)) ρ l τ₀ → ∀ ψ : (ℕ → ℝ) → ENNReal,
        Full.refE world (· ∈ l.map (·.v)) ρ l τ₀ (fun τ => dens (Full.evalJoint registry Lib.kind (env τ) ω j) * ψ τ) =
          Full.sampleE Lib.law ρ (l.flatMap (·.tree.sources)) σ₀ fun σ => ψ (Full.values defs ρ (l.map (·.v)) τ₀ σ) := by
  obtain ⟨j, vvs, h1, h2⟩ := Full.C100_realized_density registry world Lib.hasCdf (fun d h => by rw [of_decide_eq_true h]; rfl) ρ ω hwf hne hnd hsrc hlist hc hmem hrun env henv hinp
  exact ⟨j, vvs, h1, fun σ₀ τ₀ hv ψ => h2 σ₀ τ₀ (validModel_valid hv) ψ⟩

/-! ## Arrays -/

section arrays
open ArrGraph

theorem rvAtoms_countable (k : Full.Kind) : (Full.rvAtoms k).Countable := by
  rw [Full.rvAtoms]; split_ifs
  exacts [countable_empty, integers_countable]

theorem sigmaFinite_ref (k : Full.Kind) : SigmaFinite (mixedRef (k == .float) (Full.rvAtoms k)) := Full.sigmaFinite_mixedRef _ (rvAtoms_countable k)

theorem dens_ae {d : Lib} {p : List FVal} (h : d.Domain p) : (fun x : ℝ => dens (d.logprob (fin x) p)) =ᵐ[d.ref] (d.supp p).indicator fun x => dens (d.logprob (fin x) p) := by
  filter_upwards [(all_described h).2] with x hx
  by_cases hs : x ∈ d.supp p
  · rw [indicator_of_mem hs]
  · rw [indicator_of_notMem hs, negInf_dens (hx hs)]

theorem law_dens {d : Lib} {p : List FVal} (h : d.Domain p) : d.law p = d.ref.withDensity fun x => dens (d.logprob (fin x) p) :=
  (all_described h).1.good.dens.trans (withDensity_congr_ae (dens_ae h).symm)

theorem law_supp {d : Lib} {p : List FVal} (h : d.Domain p) : ∀ᵐ x ∂d.law p, x ∈ d.supp p := by
  have hg := (all_described h).1.good
  have hm : Measurable ((d.supp p).indicator fun x : ℝ => dens (d.logprob (fin x) p)) := hg.meas
  rw [show d.law p = d.ref.withDensity ((d.supp p).indicator fun x => dens (d.logprob (fin x) p)) from hg.dens, ae_withDensity_iff hm]
  refine .of_forall fun x hx => ?_
  by_contra hn
  exact hx (indicator_of_notMem hn _)

/-- **C134** (arrays) For every distribution, arrays of any shape, and parameters that fit into it and are in range at every entry: the exponential of the sum over the log-probability array is the density of independent
entries, each with the law at its parameters. -/
theorem C134_arrays {d : Lib} {s : List ℕ} {p : List (Arr FVal)} (hfit : Fit s p) (h : ∀ k : Fin (entries s), d.Domain (paramsAt p (coord k))) :
    GoodAt (numbers s) (elemwiseLogprob d.logprob) (Measure.pi fun k : Fin (entries s) => d.law (paramsAt p (coord k))) (Measure.pi fun _ => d.ref) p := by
  have hsf : SigmaFinite d.ref := sigmaFinite_ref _
  refine goodAt_pi (d := fun k x => dens (d.logprob (fin x) (paramsAt p (coord k)))) (fun k => (all_described (h k)).1.good.prob) (fun k => ⟨_, (all_described (h k)).1.good.meas, dens_ae (h k)⟩) (fun k => law_dens (h k)) fun x => ?_
  have hs : bshape ((numbers s x).shape :: p.map Arr.shape) = some s := hfit
  rw [elemwiseLogprob, hs]
  simp only
  refine (dens_entries _ s).trans (Finset.prod_congr rfl fun i _ => ?_)
  rw [entryLogprob, entryAt, show (numbers s x).shape = s from rfl, project_self (coord_inRange i), numbers_get]
  rfl

theorem validArrays_valid {shape : ℕ → List ℕ} {kinds : ℕ → Full.Kind} {ρ : ℕ → Arr FVal} : ∀ {l : List (ℕ × RVDef Lib)} {σ : ∀ i, Fin (entries (shape i)) → ℝ}, (∀ p ∈ l, kinds p.1 = p.2.dist.kind) → ValidArrays shape ρ l σ →
    Valid (fun i => numbers (shape i)) (fun d => elemwiseLogprob d.logprob) (arrayLaw shape) (arrayRef shape kinds) ρ l σ
  | [], _, _, _ => trivial
  | (id, r) :: l, σ, hk, ⟨h1, h2, h3⟩ => by
    refine ⟨?_, ?_⟩
    · have := C134_arrays h1 h2
      rw [Lib.ref, ← hk _ List.mem_cons_self] at this
      exact this
    · have hp : ∀ k : Fin (entries (shape id)), IsProbabilityMeasure (r.dist.law (paramsAt (params (asg (fun i => numbers (shape i)) σ) ρ r) (coord k))) := fun k => (all_described (h2 k)).1.good.prob
      have : ∀ᵐ x ∂(arrayLaw shape id r.dist (params (asg (fun i => numbers (shape i)) σ) ρ r)), ∀ k, x k ∈ r.dist.supp (paramsAt (params (asg (fun i => numbers (shape i)) σ) ρ r) (coord k)) :=
        ae_all_iff.2 fun k => (Measure.quasiMeasurePreserving_eval _ k).ae (law_supp (h2 k))
      filter_upwards [this] with x hx
      exact validArrays_valid (fun p hp => hk p (List.mem_cons_of_mem _ hp)) (h3 x hx)

/-- **C134** (joint densities of arrays) For models with array variables of the library's distributions, given in dependency order, the hypotheses are on the model only: as long as all parameters that can be reached fit and are in
range, the exponential of `joint_logprob` is the joint density of the variables. -/
theorem C134_arrays_joint_density (shape : ℕ → List ℕ) {kinds : ℕ → Full.Kind} (ρ : ℕ → Arr FVal) (ω : ℕ → Lib → List (Arr FVal) → Arr FVal) {l : List (ℕ × RVDef Lib)} (hne : l ≠ []) (hord : DependencyOrder l)
    (hkind : ∀ p ∈ l, kinds p.1 = p.2.dist.kind) (huser : ∀ p ∈ l, ∀ i, User (p.2.args i)) {rvs clones : List ℕ} {realized : Dict ℕ ℕ} (hc : clones.length = rvs.length)
    (hall : ∀ v, v ∈ l.map Prod.fst ↔ v ∈ rvs ∨ v ∈ Dict.keys realized) (hclosed : ∀ p ∈ l, ∀ i id, Mentions id (p.2.args i) → id ∈ l.map Prod.fst)
    (env : (∀ i, Fin (entries (shape i)) → ℝ) → ℕ → Arr FVal) (henv : ∀ σ v x, Dict.get? (rvValues rvs clones realized) v = some x → env σ x = numbers (shape v) (σ v))
    (hfresh : ∀ σ, ∀ p ∈ l, params (asg (fun i => numbers (shape i)) σ) (env σ) p.2 = params (asg (fun i => numbers (shape i)) σ) ρ p.2) :
    ∃ j vvs, joint (Dict.get? l) rvs clones realized = .ok (some (j, vvs)) ∧
      ∀ σ₀ : ∀ i, Fin (entries (shape i)) → ℝ, ValidArrays shape ρ l σ₀ → ∀ φ : (∀ i, Fin (entries (shape i)) → ℝ) → ENNReal,
        refE (arrayRef shape kinds) l σ₀ (fun σ => dens (evalJoint (fun d : Lib => elemwiseLogprob d.logprob) (env σ) ω j) * φ σ) = sampleE (fun i => numbers (shape i)) (arrayLaw shape) ρ l σ₀ φ := by
  obtain ⟨j, vvs, h1, -, h2⟩ := C106_joint_density (fun i => numbers (shape i)) (fun d : Lib => elemwiseLogprob d.logprob) (arrayLaw shape) (arrayRef shape kinds) ρ ω hne hord huser hc hall hclosed env henv hfresh
  exact ⟨j, vvs, h1, fun σ₀ hv φ => h2 σ₀ (validArrays_valid hkind hv) φ⟩

end arrays

end Verif.Library
