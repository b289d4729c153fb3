import Verif.Spec.SharedSource
import Verif.Model.SharedSource
import Verif.Props.Elemwise
import Verif.Props.Graph
import Verif.Props.Scan
import Mathlib.Probability.Independence.Basic
import Mathlib.Probability.Independence.InfinitePi
import Mathlib.MeasureTheory.Constructions.Polish.Basic
import Mathlib.MeasureTheory.Measure.Prod

/-! # C84: several derived variables -/

namespace Verif
open MeasureTheory ProbabilityTheory

theorem measurable_arg (a : Arg) : Measurable fun x => a.real x := by
  cases a with
  | meas => exact measurable_id
  | other v => cases v <;> exact measurable_const

theorem measurable_node (n : ElemNode) : Measurable n.fn := by
  cases n with
  | add l =>
    show Measurable fun x => (l.map (Arg.real x)).sum
    induction l with
    | nil => exact measurable_const
    | cons a l ih => simp only [List.map_cons, List.sum_cons]; exact (measurable_arg a).add ih
  | mul l =>
    show Measurable fun x => (l.map (Arg.real x)).prod
    induction l with
    | nil => exact measurable_const
    | cons a l ih => simp only [List.map_cons, List.prod_cons]; exact (measurable_arg a).mul ih
  | sub a b => exact (measurable_arg a).sub (measurable_arg b)
  | div a b => exact (measurable_arg a).div (measurable_arg b)
  | exp a => exact Real.measurable_exp.comp (measurable_arg a)
  | log a => exact Real.measurable_log.comp (measurable_arg a)
  | reciprocal a => exact measurable_const.div (measurable_arg a)

theorem measurable_tower : ∀ ns : List ElemNode, Measurable (towerFn ns)
  | [] => measurable_id
  | n :: ns => (measurable_tower ns).comp (measurable_node n)

theorem mul_boxE {c : ENNReal} (hc : c ≠ ⊤) (ss : List (Set ℝ)) (φ : List ℝ → ENNReal) : boxE ss (fun xs => c * φ xs) = c * boxE ss φ := by
  induction ss generalizing φ with
  | nil => rfl
  | cons s ss ih =>
    simp only [boxE]
    rw [← lintegral_const_mul' _ _ hc]
    exact lintegral_congr fun x => ih _

/-- Independent variables are in their sets with the product of the probabilities. -/
theorem indep_list {Ω : Type*} [MeasurableSpace Ω] {P : Measure Ω} [IsProbabilityMeasure P] {X : ℕ → Ω → ℝ} (hind : iIndepFun X P) (l : List (ℕ × Set ℝ))
    (hnd : (l.map Prod.fst).Nodup) (hm : ∀ q ∈ l, MeasurableSet q.2) : P {ω | ∀ q ∈ l, X q.1 ω ∈ q.2} = (l.map fun q => P (X q.1 ⁻¹' q.2)).prod := by
  classical
  have h1 := hind.measure_inter_preimage_eq_mul (l.map Prod.fst).toFinset (sets := fun k => (l.lookup k).getD Set.univ) (fun k _ => by
    rcases h : l.lookup k with _ | B
    · simp
    · simpa using hm _ (mem_of_lookup h))
  have e1 : (⋂ k ∈ (l.map Prod.fst).toFinset, X k ⁻¹' ((l.lookup k).getD Set.univ)) = {ω | ∀ q ∈ l, X q.1 ω ∈ q.2} := by
    ext ω
    simp only [Set.mem_iInter, List.mem_toFinset, Set.mem_preimage, Set.mem_setOf_eq]
    constructor
    · intro h q hq
      have := h q.1 (List.mem_map_of_mem hq)
      rwa [lookup_of_mem hnd (a := q.1) (b := q.2) hq] at this
    · intro h k hk
      rcases hl : l.lookup k with _ | B
      · simp
      · exact h (k, B) (mem_of_lookup hl)
  rw [e1] at h1
  rw [h1, List.prod_toFinset _ hnd, List.map_map]
  congr 1
  refine List.map_congr_left fun q hq => ?_
  simp only [Function.comp_apply]
  rw [lookup_of_mem hnd (a := q.1) (b := q.2) hq]
  rfl

theorem tower_not_pinf {ns : List ElemNode} {D : Set ℝ} (hok : TowerOk ns D) (hD : MeasurableSet D) {lp : FVal → Except Err FVal} {μ : Measure ℝ}
    (hlp : IsLogDensityOn (fun x => lp (.fin x)) D μ) (hfin : ∀ x ∈ D, lp (.fin x) ≠ .ok .pinf) {lp' : FVal → Except Err FVal} (he : derivedLogprob ns lp = some lp') :
    ∀ y ∈ towerFn ns '' D, lp' (.fin y) ≠ .ok .pinf := by
  induction ns generalizing D lp μ with
  | nil =>
    cases he
    rintro _ ⟨x, hx, rfl⟩
    exact hfin x hx
  | cons n ns ih =>
    obtain ⟨ts, hts, hgood⟩ := node_good hok.1
    obtain ⟨h1, h2, -, h4⟩ := hgood lp μ hD hlp
    simp only [derivedLogprob, hts, Option.bind_some] at he
    have := ih hok.2 h2 h1 (h4 hfin) he
    rintro _ ⟨x, hx, rfl⟩
    exact this _ ⟨n.fn x, ⟨x, hx, rfl⟩, rfl⟩

/-- The terms, when no two requested variables share a source. -/
noncomputable def soloTerm (lp : ℕ → FVal → Except Err FVal) (p : ℕ × List ElemNode) : Except Err (FVal → Except Err FVal) :=
  match derivedLogprob p.2 (lp p.1) with
  | none => .error .densityNotFound
  | some lp' => .ok lp'

noncomputable def soloJoint (lp : ℕ → FVal → Except Err FVal) (rvs : List (ℕ × List ElemNode)) (values : List FVal) : Except Err FVal :=
  match rvs.mapM (soloTerm lp) with
  | .error e => .error e
  | .ok terms => Graph.sumE (List.zipWith (fun t v => t v) terms values)

theorem derivedTerm_solo (lp : ℕ → FVal → Except Err FVal) {rvs : List (ℕ × List ElemNode)} {p : ℕ × List ElemNode} (hp : p ∈ rvs) (hnd : rvs.Nodup)
    (h : p.2 = [] ∨ (p.1, []) ∉ rvs) : derivedTerm lp rvs p = soloTerm lp p := by
  rw [derivedTerm, soloTerm, if_neg (by tauto)]
  cases derivedLogprob p.2 (lp p.1) with
  | none => rfl
  | some l =>
    simp only
    rw [if_neg (List.nodup_iff_forall_not_duplicate.mp hnd p)]

theorem derivedTerms_solo (lp : ℕ → FVal → Except Err FVal) {rvs : List (ℕ × List ElemNode)} (hnd : rvs.Nodup)
    (h : ∀ p ∈ rvs, p.2 = [] ∨ (p.1, []) ∉ rvs) : derivedTerms lp rvs = rvs.mapM (soloTerm lp) := by
  have key : ∀ l : List (ℕ × List ElemNode), (∀ p ∈ l, p ∈ rvs) → l.mapM (derivedTerm lp rvs) = l.mapM (soloTerm lp) := by
    intro l
    induction l with
    | nil => intro _; rfl
    | cons p l ih =>
      intro hl
      rw [List.mapM_cons, List.mapM_cons, derivedTerm_solo lp (hl p (by simp)) hnd (h p (hl p (by simp))), ih fun q hq => hl q (by simp [hq])]
  exact key rvs fun _ h => h

theorem derivedTerms_distinct (lp : ℕ → FVal → Except Err FVal) {rvs : List (ℕ × List ElemNode)} (hnd : (rvs.map Prod.fst).Nodup) : derivedTerms lp rvs = rvs.mapM (soloTerm lp) := by
  refine derivedTerms_solo lp (List.Nodup.of_map _ hnd) fun p hp => or_iff_not_imp_right.mpr fun h => ?_
  have := List.inj_on_of_nodup_map hnd hp (not_not.mp h) rfl
  rw [this]

theorem derivedJoint_distinct (lp : ℕ → FVal → Except Err FVal) {rvs : List (ℕ × List ElemNode)} (hnd : (rvs.map Prod.fst).Nodup) (values : List FVal) :
    derivedJoint lp rvs values = soloJoint lp rvs values := by
  rw [derivedJoint, derivedTerms_distinct lp hnd, soloJoint]
  rfl

/-- **C84** (different sources) Any number of variables, each an invertible elementwise function of its own one of independent random variables: the joint log-probability returns,
and `exp` of it is their joint density: its integral over every product of sets is the probability that the variables are in their sets.
Missing: variables that share a source, for which it is false (`C84_shared_source_wrong`). -/
theorem C84_distinct_sources_partial {Ω : Type*} [MeasurableSpace Ω] {P : Measure Ω} [IsProbabilityMeasure P] {X : ℕ → Ω → ℝ} (hX : ∀ k, Measurable (X k)) (hind : iIndepFun X P)
    {D : ℕ → Set ℝ} {lp : ℕ → FVal → Except Err FVal} {rvs : List (ℕ × List ElemNode)} (hnd : (rvs.map Prod.fst).Nodup) (hD : ∀ p ∈ rvs, MeasurableSet (D p.1))
    (hlp : ∀ p ∈ rvs, IsLogDensityOn (fun x => lp p.1 (.fin x)) (D p.1) (P.map (X p.1))) (hok : ∀ p ∈ rvs, TowerOk p.2 (D p.1))
    (hfin : ∀ p ∈ rvs, ∀ x ∈ D p.1, lp p.1 (.fin x) ≠ .ok .pinf)
    {sets : List (Set ℝ)} (hs : List.Forall₂ (fun p s => MeasurableSet s ∧ s ⊆ towerFn p.2 '' D p.1) rvs sets) :
    boxE sets (fun ys => dens (derivedJoint lp rvs (ys.map .fin))) = P {ω | List.Forall₂ (fun p s => towerFn p.2 (X p.1 ω) ∈ s) rvs sets} := by
  simp only [derivedJoint_distinct lp hnd]
  have key : ∀ (rvs : List (ℕ × List ElemNode)) (sets : List (Set ℝ)), (∀ p ∈ rvs, MeasurableSet (D p.1)) →
      (∀ p ∈ rvs, IsLogDensityOn (fun x => lp p.1 (.fin x)) (D p.1) (P.map (X p.1))) → (∀ p ∈ rvs, TowerOk p.2 (D p.1)) →
      (∀ p ∈ rvs, ∀ x ∈ D p.1, lp p.1 (.fin x) ≠ .ok .pinf) →
      List.Forall₂ (fun p s => MeasurableSet s ∧ s ⊆ towerFn p.2 '' D p.1) rvs sets →
      boxE sets (fun ys => dens (soloJoint lp rvs (ys.map .fin))) = ((List.zip rvs sets).map fun q => P (X q.1.1 ⁻¹' (towerFn q.1.2 ⁻¹' q.2))).prod := by
    intro rvs sets hD hlp hok hfin hs
    induction hs with
    | nil => simp [boxE, soloJoint, pure, Except.pure, Graph.sumE, dens, FVal.toDens]
    | @cons p s rvs sets h hs ih =>
      obtain ⟨lp', h1, h2⟩ := C56_elementwise_density_partial (hok p (by simp)) (hD p (by simp)) (hlp p (by simp))
      have ih' := ih (fun q hq => hD q (by simp [hq])) (fun q hq => hlp q (by simp [hq])) (fun q hq => hok q (by simp [hq])) (fun q hq => hfin q (by simp [hq]))
      have hp : soloTerm lp p = .ok lp' := by simp [soloTerm, h1]
      have e1 : ∀ y ys, dens (soloJoint lp (p :: rvs) ((y :: ys).map .fin)) = dens (lp' (.fin y)) * dens (soloJoint lp rvs (ys.map .fin)) := by
        intro y ys
        simp only [soloJoint, List.mapM_cons, hp, bind, Except.bind]
        rcases ht : rvs.mapM (soloTerm lp) with e | terms
        · simp [dens]
        · simp [pure, Except.pure, Graph.dens_sumE]
      simp only [boxE, e1]
      have e2 : ∀ y ∈ s, boxE sets (fun ys => dens (lp' (.fin y)) * dens (soloJoint lp rvs (ys.map .fin))) =
          dens (lp' (.fin y)) * boxE sets (fun ys => dens (soloJoint lp rvs (ys.map .fin))) := by
        intro y hy
        refine mul_boxE ?_ _ _
        have h3 := tower_not_pinf (hok p (by simp)) (hD p (by simp)) (hlp p (by simp)) (hfin p (by simp)) h1 y (h.2 hy)
        rcases hv : lp' (.fin y) with e | v
        · simp [dens]
        · cases v <;> simp_all [dens, FVal.toDens]
      rw [setLIntegral_congr_fun h.1 e2, ih', lintegral_mul_const']
      · rw [h2.law s h.2 h.1, List.zip_cons_cons, List.map_cons, List.prod_cons, Measure.map_map (measurable_tower _) (hX _),
          Measure.map_apply ((measurable_tower _).comp (hX _)) h.1, Set.preimage_comp]
      · have : ∀ l : List ((ℕ × List ElemNode) × Set ℝ), (l.map fun q => P (X q.1.1 ⁻¹' (towerFn q.1.2 ⁻¹' q.2))).prod ≠ ⊤ := by
          intro l
          induction l with
          | nil => simp
          | cons q l ih => rw [List.map_cons, List.prod_cons]; exact ENNReal.mul_ne_top (measure_ne_top _ _) ih
        exact this _
  rw [key rvs sets hD hlp hok hfin hs]
  have hlen := hs.length_eq
  have h3 := indep_list hind ((List.zip rvs sets).map fun q => (q.1.1, towerFn q.1.2 ⁻¹' q.2)) (by
      rw [List.map_map]
      have : (Prod.fst ∘ fun q : (ℕ × List ElemNode) × Set ℝ => (q.1.1, towerFn q.1.2 ⁻¹' q.2)) = Prod.fst ∘ Prod.fst := rfl
      rw [this, ← List.map_map, List.map_fst_zip hlen.le]
      exact hnd) (by
      intro q hq
      obtain ⟨q', hq', rfl⟩ := List.mem_map.1 hq
      exact measurable_tower _ ((List.forall₂_iff_zip.1 hs).2 hq').1)
  rw [List.map_map] at h3
  refine Eq.trans ?_ (h3.symm.trans ?_)
  · rfl
  · congr 1
    ext ω
    simp only [Set.mem_setOf_eq, List.forall₂_iff_zip, List.mem_map, forall_exists_index, and_imp]
    constructor
    · intro h
      exact ⟨hlen, fun {a b} hab => h _ _ hab rfl⟩
    · rintro ⟨-, h⟩ q q' hq' rfl
      exact h hq'

/-- `exp(X₀)`, `X₂` and `3 - 2 * X₁` for independent standard normal variables. -/
example (a b : ℝ) (ha : 0 < a) : boxE [Set.Ioc a b, Set.univ, Set.Iio b] (fun ys => dens (derivedJoint (fun _ v => normalLogprob v (.fin 0) (.fin 1))
      [(0, [.exp .meas]), (2, []), (1, [.mul [.other (.fin 2), .meas], .sub (.other (.fin 3)) .meas])] (ys.map .fin))) =
    Measure.infinitePi (fun _ : ℕ => gaussianReal 0 (1 ^ 2 : ℝ).toNNReal) {ω | List.Forall₂ (fun (p : ℕ × List ElemNode) s => towerFn p.2 (ω p.1) ∈ s)
      [(0, [.exp .meas]), (2, []), (1, [.mul [.other (.fin 2), .meas], .sub (.other (.fin 3)) .meas])] [Set.Ioc a b, Set.univ, Set.Iio b]} := by
  have hl : IsLogDensityOn (fun x => normalLogprob (.fin x) (.fin 0) (.fin 1)) Set.univ (gaussianReal 0 (1 ^ 2 : ℝ).toNNReal) := (C09_normal 0 one_pos).1.on (by simp)
  refine C84_distinct_sources_partial (P := Measure.infinitePi (fun _ : ℕ => gaussianReal 0 (1 ^ 2 : ℝ).toNNReal)) (X := fun k ω => ω k) (fun k => measurable_pi_apply k)
    (iIndepFun_infinitePi (X := fun _ x => x) fun _ => measurable_id) (D := fun _ => Set.univ) (by decide) (fun _ _ => MeasurableSet.univ) ?_ ?_ ?_ ?_
  · intro p _
    rw [Measure.infinitePi_map_eval]
    exact hl
  · simp only [List.mem_cons, List.not_mem_nil, or_false, forall_eq_or_imp, forall_eq]
    exact ⟨⟨.exp _, trivial⟩, trivial, .mul (.there (by norm_num) (.here (l := []) (by simp))) (by simp), .rsub _ _, trivial⟩
  · intro p _ x _
    simp [normal_eval x 0 one_pos]
  · refine .cons ⟨measurableSet_Ioc, fun y hy => ⟨Real.log y, trivial, by simp [towerFn, ElemNode.fn, Arg.real, Real.exp_log (ha.trans hy.1)]⟩⟩
      (.cons ⟨MeasurableSet.univ, fun y _ => ⟨y, trivial, rfl⟩⟩ (.cons ⟨measurableSet_Iio, fun y _ => ⟨(3 - y) / 2, trivial, ?_⟩⟩ .nil))
    simp only [towerFn, ElemNode.fn, Arg.real, List.map_cons, List.map_nil, List.prod_cons, List.prod_nil]
    ring

/-- A curve has no area. -/
theorem curve_null {G H : ℝ → ℝ} (hG : Measurable G) (hH : Measurable H) {D : Set ℝ} (hD : MeasurableSet D) (hinj : Set.InjOn G D) :
    MeasurableSet ((fun x => (G x, H x)) '' D) ∧ (volume : Measure (ℝ × ℝ)) ((fun x => (G x, H x)) '' D) = 0 := by
  have hm : MeasurableSet ((fun x => (G x, H x)) '' D) :=
    hD.image_of_measurable_injOn (hG.prodMk hH) fun a ha b hb hab => hinj ha hb (congrArg Prod.fst hab)
  refine ⟨hm, ?_⟩
  rw [Measure.volume_eq_prod, Measure.prod_apply hm]
  refine (lintegral_congr fun a => ?_).trans lintegral_zero
  refine Set.Subsingleton.measure_zero ?_ _
  rintro b ⟨x, hx, hxb⟩ c ⟨y, hy, hyc⟩
  simp only [Prod.mk.injEq] at hxb hyc
  have := hinj hx hy (hxb.1.trans hyc.1.symm)
  rw [← hxb.2, ← hyc.2, this]

theorem node_injOn {n : ElemNode} {D : Set ℝ} (h : n.Ok D) : Set.InjOn n.fn D := by
  intro a ha b hb hab
  cases h with
  | add h hlen =>
    obtain ⟨-, cs, -, -, -, h5⟩ := h.spec
    simp only [ElemNode.fn, (h5 _).1] at hab
    exact add_right_cancel hab
  | mul h hlen =>
    obtain ⟨-, cs, -, h3, -, h5⟩ := h.spec
    simp only [ElemNode.fn, (h5 _).2] at hab
    exact mul_right_cancel₀ (List.prod_ne_zero fun h0 => h3 0 h0 rfl) hab
  | sub c => simpa [ElemNode.fn, Arg.real] using hab
  | rsub c => simpa [ElemNode.fn, Arg.real] using hab
  | div hc =>
    simp only [ElemNode.fn, Arg.real] at hab
    exact (div_left_inj' hc).1 hab
  | rdiv hc hD =>
    simp only [ElemNode.fn, Arg.real] at hab
    rw [div_eq_mul_inv, div_eq_mul_inv] at hab
    exact inv_injective (mul_left_cancel₀ hc hab)
  | exp => exact Real.exp_injective (by simpa [ElemNode.fn, Arg.real] using hab)
  | log hD => exact Real.log_injOn_pos (hD ha) (hD hb) (by simpa [ElemNode.fn, Arg.real] using hab)
  | reciprocal hD => simpa [ElemNode.fn, Arg.real] using hab

theorem towerOk_injOn : ∀ {ns : List ElemNode} {D : Set ℝ}, TowerOk ns D → Set.InjOn (towerFn ns) D
  | [], _, _ => fun _ _ _ _ h => h
  | _ :: _, _, h => (towerOk_injOn h.2).comp (node_injOn h.1) (Set.mapsTo_image _ _)

/-- Two functions of one variable, one of them injective, have no joint density. -/
theorem curve_no_density {D : Set ℝ} (hD : MeasurableSet D) {μ : Measure ℝ} [IsProbabilityMeasure μ] (hnull : μ Dᶜ = 0) {ns ms : List ElemNode} (hn : TowerOk ns D)
    (h : ℝ × ℝ → ENNReal) : μ.map (fun x => (towerFn ns x, towerFn ms x)) ≠ volume.withDensity h := by
  intro he
  obtain ⟨c1, c2⟩ := curve_null (measurable_tower ns) (measurable_tower ms) hD (towerOk_injOn hn)
  have h1 : μ.map (fun x => (towerFn ns x, towerFn ms x)) ((fun x => (towerFn ns x, towerFn ms x)) '' D) = 1 := by
    rw [Measure.map_apply ((measurable_tower ns).prodMk (measurable_tower ms)) c1]
    refine le_antisymm prob_le_one ?_
    have h2 : μ D = 1 := by
      have := prob_add_prob_compl (μ := μ) hD
      rwa [hnull, add_zero] at this
    rw [← h2]
    exact measure_mono (Set.subset_preimage_image _ _)
  rw [he] at h1
  rw [withDensity_absolutelyContinuous volume h c2] at h1
  exact zero_ne_one h1

/-- **C84** (refuted part) Two variables that are both invertible elementwise functions of the same random variable (which has no value), for every pair of different
functions: `joint_logprob` returns without an exception, although the two variables have no joint density at all. -/
theorem C84_shared_source_wrong {D : Set ℝ} (hD : MeasurableSet D) {lp : FVal → Except Err FVal} {μ : Measure ℝ} [IsProbabilityMeasure μ] (hlp : IsLogDensityOn (fun x => lp (.fin x)) D μ)
    {ns ms : List ElemNode} (hn : TowerOk ns D) (hm : TowerOk ms D) (hn0 : ns ≠ []) (hm0 : ms ≠ []) (hne : ∃ x ∈ D, towerFn ns x ≠ towerFn ms x) :
    (∃ terms, derivedTerms (fun _ => lp) [(0, ns), (0, ms)] = .ok terms) ∧
      (∀ y ∈ towerFn ns '' D, ∀ z ∈ towerFn ms '' D, ∃ v, derivedJoint (fun _ => lp) [(0, ns), (0, ms)] [.fin y, .fin z] = .ok v) ∧
      ∀ h : ℝ × ℝ → ENNReal, μ.map (fun x => (towerFn ns x, towerFn ms x)) ≠ volume.withDensity h := by
  obtain ⟨lp1, a1, a2⟩ := C56_elementwise_density_partial hn hD hlp
  obtain ⟨lp2, b1, b2⟩ := C56_elementwise_density_partial hm hD hlp
  have hnm : ns ≠ ms := by
    rintro rfl
    obtain ⟨x, -, hx⟩ := hne
    exact hx rfl
  have ht : derivedTerms (fun _ => lp) [(0, ns), (0, ms)] = .ok [lp1, lp2] := by
    rw [derivedTerms_solo _ (by simpa using hnm) (by
      intro p hp
      right
      simp only [List.mem_cons, Prod.mk.injEq, List.not_mem_nil, or_false, not_or, not_and]
      exact ⟨fun _ h => hn0 h.symm, fun _ h => hm0 h.symm⟩)]
    simp [soloTerm, a1, b1, bind, Except.bind, pure, Except.pure]
  refine ⟨⟨_, ht⟩, fun y hy z hz => ?_, curve_no_density hD hlp.null hn⟩
  obtain ⟨v, hv, -⟩ := a2.clean y hy
  obtain ⟨w, hw, -⟩ := b2.clean z hz
  simp [derivedJoint, ht, hv, hw, Graph.sumE]

/-- `exp(X)` and `X + 1` of one standard normal variable `X`. -/
example : ∀ h : ℝ × ℝ → ENNReal, (gaussianReal 0 (1 ^ 2 : ℝ).toNNReal).map (fun x => (towerFn [.exp .meas] x, towerFn [.add [.meas, .other (.fin 1)]] x)) ≠
    volume.withDensity h :=
  (C84_shared_source_wrong (D := Set.univ) MeasurableSet.univ (lp := fun v => normalLogprob v (.fin 0) (.fin 1)) ((C09_normal 0 one_pos).1.on (by simp))
    (ns := [.exp .meas]) (ms := [.add [.meas, .other (.fin 1)]]) ⟨.exp _, trivial⟩ ⟨.add (.here (l := [1]) (by simp)) (by simp), trivial⟩ (by simp) (by simp)
    ⟨1, trivial, by
      have := Real.add_one_lt_exp (one_ne_zero (α := ℝ))
      simp [towerFn, ElemNode.fn, Arg.real]
      linarith⟩).2.2

theorem constructElemwise_none {l : List Arg} (h : Arg.measCount l ≠ 1) (t : List FVal → Option RVTransform) : constructElemwise l t = none := by
  rw [constructElemwise, if_pos h]

theorem rewriteNode_none {n : ElemNode} (h : n.uses ≠ 1) : rewriteNode n = none := by
  have key : ∀ l : List Arg, Arg.measCount l = l.countP fun a => match a with
      | .meas => true
      | .other _ => false := fun l => by
    induction l with
    | nil => rfl
    | cons a l ih => cases a <;> simp_all [Arg.measCount]
  cases n with
  | add l => simp only [rewriteNode, measurableAdd]; rw [constructElemwise_none (by rw [key]; exact h)]; rfl
  | mul l => simp only [rewriteNode, measurableMul]; rw [constructElemwise_none (by rw [key]; exact h)]; rfl
  | sub a b =>
    cases a <;> cases b <;> simp_all [ElemNode.uses, ElemNode.args, rewriteNode, measurableSub, measurableMul, measurableAdd, constructElemwise, liftArg, foldArgs, Arg.others]
  | div a b =>
    cases a <;> cases b <;> simp_all [ElemNode.uses, ElemNode.args, rewriteNode, measurableTrueDivide, measurableMul, measurableReciprocal, constructElemwise, liftArg, foldArgs, Arg.others]
  | exp a => simp only [rewriteNode, measurableExp]; rw [constructElemwise_none (by rw [key]; exact h)]; rfl
  | log a => simp only [rewriteNode, measurableLog]; rw [constructElemwise_none (by rw [key]; exact h)]; rfl
  | reciprocal a => simp only [rewriteNode, measurableReciprocal]; rw [constructElemwise_none (by rw [key]; exact h)]; rfl

theorem derivedLogprob_none : ∀ {ns : List ElemNode} (_ : ∃ n ∈ ns, n.uses ≠ 1) (lp : FVal → Except Err FVal), derivedLogprob ns lp = none
  | [], h, _ => by simp at h
  | n :: ns, h, lp => by
    simp only [derivedLogprob]
    cases hr : rewriteNode n with
    | none => rfl
    | some ts =>
      refine derivedLogprob_none ?_ _
      obtain ⟨m, hm, hu⟩ := h
      rcases List.mem_cons.1 hm with rfl | hm
      · rw [rewriteNode_none hu] at hr; cases hr
      · exact ⟨m, hm, hu⟩

/-- A failing term makes the joint log-probability raise; the error is that of the first failing term. -/
theorem mapM_raises {α β : Type} (f : α → Except Err β) {l : List α} {a : α} (ha : a ∈ l) {E : Err → Prop} (h1 : ∃ e, f a = .error e) (h2 : ∀ b ∈ l, ∀ e, f b = .error e → E e) :
    ∃ e, l.mapM f = .error e ∧ E e := by
  induction l with
  | nil => cases ha
  | cons b l ih =>
    rw [List.mapM_cons]
    cases hb : f b with
    | error e => exact ⟨e, rfl, h2 b (by simp) e hb⟩
    | ok v =>
      have ha' : a ∈ l := by
        rcases List.mem_cons.1 ha with rfl | h
        · obtain ⟨e, he⟩ := h1
          rw [he] at hb
          cases hb
        · exact h
      obtain ⟨e, he, hE⟩ := ih ha' fun c hc => h2 c (by simp [hc])
      exact ⟨e, by simp only [bind, Except.bind, he], hE⟩

/-- A term raises `DensityNotFound`, or `ValueError` when its variable is requested twice. -/
theorem derivedTerm_errors {lp : ℕ → FVal → Except Err FVal} {rvs : List (ℕ × List ElemNode)} {p : ℕ × List ElemNode} {e : Err} (h : derivedTerm lp rvs p = .error e) :
    e = .densityNotFound ∨ e = .valueError ∧ List.Duplicate p rvs := by
  unfold derivedTerm at h
  split at h
  · left; cases h; rfl
  · split at h
    · left; cases h; rfl
    · split at h
      · right; cases h; exact ⟨rfl, by assumption⟩
      · cases h

/-- **C84** A requested variable that uses its source twice (`X + X`, `X / X`) or not at all in one of its nodes makes the whole joint log-probability raise `DensityNotFound`, whatever
the other requested variables (all different) and the values are. -/
theorem C84_not_derived_raises (lp : ℕ → FVal → Except Err FVal) {rvs : List (ℕ × List ElemNode)} (hnd : rvs.Nodup) {p : ℕ × List ElemNode} (hp : p ∈ rvs) (h : ∃ n ∈ p.2, n.uses ≠ 1)
    (values : List FVal) : derivedJoint lp rvs values = .error .densityNotFound := by
  obtain ⟨e, he, rfl⟩ := mapM_raises (derivedTerm lp rvs) hp (E := fun e => e = .densityNotFound) (by
      refine ⟨.densityNotFound, ?_⟩
      rw [derivedTerm]
      split
      · rfl
      · rw [derivedLogprob_none h]) (by
      intro q hq e he
      rcases derivedTerm_errors he with h | ⟨-, h⟩
      · exact h
      · exact absurd h (List.nodup_iff_forall_not_duplicate.mp hnd q))
  rw [derivedJoint, derivedTerms, he]

/-- `exp(X)` next to `exp(Y + Y)`. -/
example : derivedJoint (fun _ v => normalLogprob v (.fin 0) (.fin 1)) [(0, [.exp .meas]), (1, [.add [.meas, .meas], .exp .meas])] [.fin 1, .fin 2] = .error .densityNotFound :=
  C84_not_derived_raises _ (by simp) (p := (1, [.add [.meas, .meas], .exp .meas])) (by simp) ⟨.add [.meas, .meas], by simp, by simp [ElemNode.uses, ElemNode.args]⟩ _

/-- **C84** A requested variable that is a function of another requested variable `X` without randomness of its own makes the whole joint log-probability raise: the function
is then one of the value of `X`.  (It has no density given `X`.) -/
theorem C84_function_of_requested_raises (lp : ℕ → FVal → Except Err FVal) {rvs : List (ℕ × List ElemNode)} (hnd : rvs.Nodup) {k : ℕ} {ns : List ElemNode} (hn : ns ≠ [])
    (hX : (k, []) ∈ rvs) (hp : (k, ns) ∈ rvs) (values : List FVal) : derivedJoint lp rvs values = .error .densityNotFound := by
  obtain ⟨e, he, rfl⟩ := mapM_raises (derivedTerm lp rvs) hp (E := fun e => e = .densityNotFound) ⟨.densityNotFound, by rw [derivedTerm, if_pos ⟨hn, hX⟩]⟩ (by
      intro q hq e he
      rcases derivedTerm_errors he with h | ⟨-, h⟩
      · exact h
      · exact absurd h (List.nodup_iff_forall_not_duplicate.mp hnd q))
  rw [derivedJoint, derivedTerms, he]

/-- `X` and `exp(X)`. -/
example := C84_function_of_requested_raises (fun _ v => normalLogprob v (.fin 0) (.fin 1)) (rvs := [(0, []), (0, [.exp .meas])]) (k := 0) (ns := [.exp .meas]) (by simp) (by simp) (by simp) (by simp) [.fin 1, .fin 2]

/-- **C84** Two requested variables that are the same function of the same random variable make the whole joint log-probability raise. -/
theorem C84_same_raises (lp : ℕ → FVal → Except Err FVal) {rvs : List (ℕ × List ElemNode)} (h : ¬ rvs.Nodup) (values : List FVal) :
    ∃ e, derivedJoint lp rvs values = .error e ∧ (e = .densityNotFound ∨ e = .valueError) := by
  obtain ⟨p, hp⟩ := List.exists_duplicate_iff_not_nodup.mpr h
  obtain ⟨e, he, hE⟩ := mapM_raises (derivedTerm lp rvs) hp.mem (E := fun e => e = .densityNotFound ∨ e = .valueError) (by
      rw [derivedTerm]
      split
      · exact ⟨_, rfl⟩
      · split
        · exact ⟨_, rfl⟩
        · simp [hp]) (fun q _ e he => (derivedTerm_errors he).imp_right And.left)
  exact ⟨e, by rw [derivedJoint, derivedTerms, he], hE⟩

/-- `exp(X)` twice. -/
example := C84_same_raises (fun _ v => normalLogprob v (.fin 0) (.fin 1)) (rvs := [(0, [.exp .meas]), (0, [.exp .meas])]) (by simp) [.fin 1, .fin 2]

end Verif
