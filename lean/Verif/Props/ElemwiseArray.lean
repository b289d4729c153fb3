import Verif.Spec.ElemwiseArray
import Verif.Props.Elemwise
import Verif.Props.Indices
import Verif.Props.Repeated
import Verif.Props.MvNormal

/-! # C90: elementwise functions of array variables -/

namespace Verif
open MeasureTheory ProbabilityTheory Set

theorem bshape_self (s : List ℕ) : bshape [s, s] = some s := bshape_replicate (by simp) (by simp)

theorem op2_fits {α β γ : Type} (f : α → β → γ) {a : Arr α} {b : Arr β} {s : List ℕ} (ha : a.shape = s) (h : bshape [s, b.shape] = some s) :
    ∃ out, a.op2 f b = .ok out ∧ out.shape = s ∧ ∀ c, InRange c s → out.get c = f (a.get c) (b.entry c) := by
  refine ⟨⟨s, fun c => f (a.get (project c a.shape)) (b.get (project c b.shape))⟩, ?_, rfl, fun c hc => ?_⟩
  · simp only [Arr.op2, ha, h]
  · show f (a.get (project c a.shape)) (b.get (project c b.shape)) = _
    rw [ha, project_self hc]
    rfl

/-- What one layer does to one entry. -/
noncomputable def layerEntry (c : List ℕ) (t : ArrTransform) (g : FVal → FVal) (v : FVal) : FVal :=
  match measurableElemwiseLogprob (t.at' c) (fun v => .ok (g v)) v with
  | .ok l => l
  | .error _ => .nan

theorem layerEntry_eq (c : List ℕ) (t : ArrTransform) (g : FVal → FVal) :
    measurableElemwiseLogprob (t.at' c) (fun v => .ok (g v)) = fun v => .ok (layerEntry c t g v) := by
  funext v
  cases t <;> rfl

theorem backward_entry {t : ArrTransform} {s : List ℕ} (hfit : t.Fits s) {value : Arr FVal} (hv : value.shape = s) :
    ∃ b, t.backward value = .ok b ∧ b.shape = s ∧ ∀ c, InRange c s → (t.at' c).backward (value.get c) = .ok (b.get c) := by
  cases t with
  | loc a =>
    obtain ⟨b, h1, h2, h3⟩ := op2_fits (· - ·) hv hfit
    exact ⟨b, h1, h2, fun c hc => by rw [h3 c hc]; rfl⟩
  | scale a =>
    obtain ⟨b, h1, h2, h3⟩ := op2_fits (· / ·) hv hfit
    exact ⟨b, h1, h2, fun c hc => by rw [h3 c hc]; rfl⟩
  | exp => exact ⟨_, rfl, hv, fun c hc => rfl⟩
  | log => exact ⟨_, rfl, hv, fun c hc => rfl⟩
  | reciprocal => exact ⟨_, rfl, hv, fun c hc => rfl⟩

theorem jac_fits {t : ArrTransform} {s : List ℕ} (hfit : t.Fits s) {value : Arr FVal} (hv : value.shape = s) :
    bshape [s, (t.logJacDet value).shape] = some s ∧ ∀ c, InRange c s → (t.at' c).logJacDet (value.get c) = .ok ((t.logJacDet value).entry c) := by
  have e : ∀ c, InRange c s → ∀ f : FVal → FVal, (value.map f).entry c = f (value.get c) := fun c hc f => by
    show f (value.get (project c value.shape)) = _
    rw [hv, project_self hc]
  cases t with
  | loc a => exact ⟨by show bshape [s, value.shape] = _; rw [hv]; exact bshape_self s, fun c hc => by
      show _ = Except.ok ((value.map fun _ => 0).entry c); rw [e c hc]; rfl⟩
  | scale a => exact ⟨hfit, fun c hc => rfl⟩
  | exp => exact ⟨by show bshape [s, value.shape] = _; rw [hv]; exact bshape_self s, fun c hc => by
      show _ = Except.ok ((value.map fun v => -FVal.log v).entry c); rw [e c hc]; rfl⟩
  | log => exact ⟨by show bshape [s, value.shape] = _; rw [hv]; exact bshape_self s, fun c hc => by
      show _ = Except.ok ((value.map fun v => v).entry c); rw [e c hc]; rfl⟩
  | reciprocal => exact ⟨by show bshape [s, value.shape] = _; rw [hv]; exact bshape_self s, fun c hc => by
      show _ = Except.ok ((value.map fun v => -2 * FVal.log v).entry c); rw [e c hc]; rfl⟩

theorem EntrywiseFn.layer {s : List ℕ} {lp : Arr FVal → Except Err (Arr FVal)} {g : List ℕ → FVal → FVal} (h : EntrywiseFn s lp g) {t : ArrTransform} (hfit : t.Fits s) :
    EntrywiseFn s (arrayElemwiseLogprob t lp) fun c => layerEntry c t (g c) := by
  intro x hx
  obtain ⟨b, b1, b2, b3⟩ := backward_entry hfit hx
  obtain ⟨l, l1, l2, l3⟩ := h b b2
  obtain ⟨j1, j2⟩ := jac_fits hfit hx
  obtain ⟨out, o1, o2, o3⟩ := op2_fits (· + ·) l2 j1
  refine ⟨out, ?_, o2, fun c hc => ?_⟩
  · simp only [arrayElemwiseLogprob, b1, l1, bind, Except.bind]
    exact o1
  · rw [o3 c hc, l3 c hc]
    simp only [layerEntry, measurableElemwiseLogprob, b3 c hc, j2 c hc, bind, Except.bind, pure, Except.pure]

/-- **C90** (entry by entry) For a variable of any shape whose log-probability works entry by entry, and towers of any height of elementwise functions whose parameters fit into that
shape, the derived log-probability has the shape of the value and its entry at every coordinate is the scalar one, with the entries of the parameters at that coordinate. -/
theorem C90_entrywise {s : List ℕ} {lp : Arr FVal → Except Err (Arr FVal)} {g : List ℕ → FVal → FVal} (h : EntrywiseFn s lp g) {ts : List ArrTransform}
    (hfit : ∀ t ∈ ts, t.Fits s) {value : Arr FVal} (hv : value.shape = s) :
    ∃ out, arrayLayersLogprob ts lp value = .ok out ∧ out.shape = s ∧
      ∀ c, InRange c s → layersLogprob (ts.map (·.at' c)) (fun v => .ok (g c v)) (value.get c) = .ok (out.get c) := by
  induction ts generalizing lp g with
  | nil =>
    obtain ⟨out, h1, h2, h3⟩ := h value hv
    exact ⟨out, h1, h2, fun c hc => by rw [h3 c hc]; rfl⟩
  | cons t ts ih =>
    obtain ⟨out, h1, h2, h3⟩ := ih (h.layer (hfit t (by simp))) fun t ht => hfit t (by simp [ht])
    refine ⟨out, h1, h2, fun c hc => ?_⟩
    have := h3 c hc
    rw [← this]
    show layersLogprob (ts.map (·.at' c)) (measurableElemwiseLogprob (t.at' c) fun v => .ok (g c v)) (value.get c) = _
    rw [layerEntry_eq]

/-! ## Density -/

theorem fn_good {t : ArrTransform} {c : List ℕ} {D : Set ℝ} (h : t.OkAt c D) : Good [t.at' c] (t.fn c) D ∧ Measurable (t.fn c) := by
  cases t with
  | loc a =>
    obtain ⟨r, hr⟩ := h
    have e1 : (ArrTransform.loc a).at' c = .loc (.fin r) := by simp only [ArrTransform.at', hr]
    have e2 : (ArrTransform.loc a).fn c = fun x => x + r := by funext x; simp only [ArrTransform.fn, hr]
    rw [e1, e2]
    exact ⟨good_loc r D, by fun_prop⟩
  | scale a =>
    obtain ⟨r, hr0, hr⟩ := h
    have e1 : (ArrTransform.scale a).at' c = .scale (.fin r) := by simp only [ArrTransform.at', hr]
    have e2 : (ArrTransform.scale a).fn c = fun x => x * r := by funext x; simp only [ArrTransform.fn, hr]
    rw [e1, e2]
    exact ⟨good_scale hr0 D, by fun_prop⟩
  | exp => exact ⟨Good.layer C49_exp C50_exp (subset_univ D) (fun x _ => by simp [ArrTransform.at', RVTransform.exp, ArrTransform.fn]) Real.continuous_exp.continuousOn, Real.measurable_exp⟩
  | log => exact ⟨Good.layer C49_log C50_log h (fun x hx => by simp [ArrTransform.at', RVTransform.log, ArrTransform.fn, FVal.log_fin_pos (h hx)])
      (Real.continuousOn_log.mono fun x hx => ne_of_gt (h hx)), Real.measurable_log⟩
  | reciprocal => exact ⟨good_reciprocal h, by show Measurable fun x : ℝ => 1 / x; fun_prop⟩

/-- A layer keeps densities measurable. -/
theorem layer_measurable {t : ArrTransform} {c : List ℕ} {D : Set ℝ} (h : t.OkAt c D) {g : FVal → FVal} (hm : Measurable (D.indicator fun x => (g (.fin x)).toDens))
    (hR : MeasurableSet (t.fn c '' D)) : Measurable ((t.fn c '' D).indicator fun y => (layerEntry c t g (.fin y)).toDens) := by
  suffices H : ∃ b j : ℝ → ℝ, Measurable b ∧ Measurable j ∧ ∀ x ∈ D, b (t.fn c x) = x ∧ layerEntry c t g (.fin (t.fn c x)) = g (.fin (b (t.fn c x))) + .fin (j (t.fn c x)) by
    obtain ⟨b, j, hb, hj, hx⟩ := H
    have e : ((t.fn c '' D).indicator fun y => (layerEntry c t g (.fin y)).toDens) =
        (t.fn c '' D).indicator fun y => (D.indicator fun x => (g (.fin x)).toDens) (b y) * ENNReal.ofReal (Real.exp (j y)) := by
      funext y
      by_cases hy : y ∈ t.fn c '' D
      · rw [indicator_of_mem hy, indicator_of_mem hy]
        obtain ⟨x, hxD, rfl⟩ := hy
        obtain ⟨h1, h2⟩ := hx x hxD
        rw [h2, h1, indicator_of_mem hxD, Graph.toDens_add]
        rfl
      · rw [indicator_of_notMem hy, indicator_of_notMem hy]
    rw [e]
    exact ((hm.comp hb).mul (ENNReal.measurable_ofReal.comp (Real.measurable_exp.comp hj))).indicator hR
  cases t with
  | loc a =>
    obtain ⟨r, hr⟩ := h
    refine ⟨fun y => y - r, fun _ => 0, by fun_prop, by fun_prop, fun x hx => ?_⟩
    simp only [ArrTransform.fn, hr, layerEntry, ArrTransform.at', measurableElemwiseLogprob, RVTransform.loc, bind, Except.bind, pure, Except.pure]
    exact ⟨by ring, rfl⟩
  | scale a =>
    obtain ⟨r, hr0, hr⟩ := h
    refine ⟨fun y => y / r, fun _ => -Real.log |r|, by fun_prop, by fun_prop, fun x hx => ?_⟩
    simp only [ArrTransform.fn, hr, layerEntry, ArrTransform.at', measurableElemwiseLogprob, RVTransform.scale, bind, Except.bind, pure, Except.pure]
    refine ⟨by field_simp, ?_⟩
    rw [FVal.div_fin _ hr0, FVal.abs_fin, FVal.log_fin_pos (abs_pos.2 hr0), FVal.neg_fin]
  | exp =>
    refine ⟨Real.log, fun y => -Real.log y, Real.measurable_log, Real.measurable_log.neg, fun x hx => ?_⟩
    simp only [ArrTransform.fn, layerEntry, ArrTransform.at', measurableElemwiseLogprob, RVTransform.exp, bind, Except.bind, pure, Except.pure,
      FVal.log_fin_pos (Real.exp_pos x), Real.log_exp, FVal.neg_fin, and_self]
  | log =>
    refine ⟨Real.exp, fun y => y, Real.measurable_exp, measurable_id, fun x hx => ?_⟩
    simp only [ArrTransform.fn, layerEntry, ArrTransform.at', measurableElemwiseLogprob, RVTransform.log, bind, Except.bind, pure, Except.pure]
    exact ⟨Real.exp_log (h hx), rfl⟩
  | reciprocal =>
    refine ⟨fun y => 1 / y, fun y => -2 * Real.log y, by fun_prop, by fun_prop, fun x hx => ?_⟩
    have hx0 : (0 : ℝ) < 1 / x := one_div_pos.2 (h hx)
    simp only [ArrTransform.fn, layerEntry, ArrTransform.at', measurableElemwiseLogprob, RVTransform.reciprocal, bind, Except.bind, pure, Except.pure,
      FVal.reciprocal_fin hx0.ne', FVal.log_fin_pos hx0]
    refine ⟨by simp, ?_⟩
    congr 1

theorem tower_good {ts : List ArrTransform} {c : List ℕ} {D : Set ℝ} (hok : ArrTowerOk c ts D) (hD : MeasurableSet D) {g : FVal → FVal}
    (hm : Measurable (D.indicator fun x => (g (.fin x)).toDens)) {μ : Measure ℝ} (hlp : IsLogDensityOn (fun x => .ok (g (.fin x))) D μ) :
    ∃ g' : FVal → FVal, layersLogprob (ts.map (·.at' c)) (fun v => .ok (g v)) = (fun v => .ok (g' v)) ∧ Measurable (arrTowerFn c ts) ∧ MeasurableSet (arrTowerFn c ts '' D) ∧
      Measurable ((arrTowerFn c ts '' D).indicator fun y => (g' (.fin y)).toDens) ∧ IsLogDensityOn (fun y => .ok (g' (.fin y))) (arrTowerFn c ts '' D) (μ.map (arrTowerFn c ts)) := by
  induction ts generalizing D g μ with
  | nil =>
    have e : arrTowerFn c [] = id := rfl
    refine ⟨g, rfl, measurable_id, ?_, ?_, ?_⟩ <;> rw [e, image_id]
    · exact hD
    · exact hm
    · rw [Measure.map_id]; exact hlp
  | cons t ts ih =>
    obtain ⟨hgood, hmeas⟩ := fn_good hok.1
    obtain ⟨h1, h2, -, -⟩ := hgood (fun v => .ok (g v)) μ hD hlp
    have el : layersLogprob [t.at' c] (fun v => .ok (g v)) = fun v => .ok (layerEntry c t g v) := layerEntry_eq c t g
    rw [el] at h1
    obtain ⟨g', e1, e2, e3, e4, e5⟩ := ih hok.2 h2 (layer_measurable hok.1 hm h2) h1
    have ef : arrTowerFn c (t :: ts) = arrTowerFn c ts ∘ t.fn c := rfl
    refine ⟨g', ?_, ?_, ?_, ?_, ?_⟩
    · rw [← e1, ← el]; rfl
    · exact e2.comp hmeas
    · rw [ef, image_comp]; exact e3
    · rw [ef, image_comp]; exact e4
    · rw [ef, image_comp, ← Measure.map_map e2 hmeas]; exact e5

theorem IsLogDensityOn.eq_withDensity {g : ℝ → FVal} {R : Set ℝ} {ν : Measure ℝ} (h : IsLogDensityOn (fun y => .ok (g y)) R ν) (hR : MeasurableSet R) :
    ν = volume.withDensity (R.indicator fun y => (g y).toDens) := by
  ext s hs
  rw [withDensity_apply _ hs, setLIntegral_indicator hR]
  have := h.law (R ∩ s) inter_subset_left (hR.inter hs)
  simp only [dens] at this
  rw [this, inter_comm, measure_inter_conull h.null]

/-- The joint log-probability of a vector is the sum over its entries. -/
theorem dens_arrayJoint {n : ℕ} {out : Arr FVal} (hs : out.shape = [n]) {d : Fin n → ENNReal} (h : ∀ i : Fin n, (out.get [i]).toDens = d i) :
    dens (arrayJoint (.ok out)) = ∏ i, d i := by
  simp only [arrayJoint, dens, toDens_fsum, hs]
  rw [allCoords_vector, List.map_map, List.map_map, Finset.prod_fin_eq_prod_range, Finset.prod_eq_multiset_prod]
  show _ = ((List.range n).map _).prod
  congr 1
  refine List.map_congr_left fun i hi => ?_
  have hi' : i < n := by simpa using hi
  simp only [Function.comp_apply, hi', dif_pos, ← h]

/-- **C90** (density) Towers of elementwise functions of a vector of independent random numbers, with parameters that fit into the shape of the vector: `exp` of the joint log-probability is
the joint density of the transformed vector, on the set of values it can take.  Missing: parameters that enlarge the shape (`C90_broadcast_wrong`) and variables that are vectors
(`C90_vector_loc_wrong`, `C90_vector_scale_wrong`), where it is false. -/
theorem C90_density_partial {Ω : Type*} [MeasurableSpace Ω] {P : Measure Ω} [IsProbabilityMeasure P] {n : ℕ} {X : Fin n → Ω → ℝ} (hX : ∀ i, Measurable (X i)) (hind : iIndepFun X P)
    {lp : Arr FVal → Except Err (Arr FVal)} {g : List ℕ → FVal → FVal} (h : EntrywiseFn [n] lp g) {D : Fin n → Set ℝ} (hD : ∀ i, MeasurableSet (D i))
    (hm : ∀ i : Fin n, Measurable ((D i).indicator fun x => (g [i] (.fin x)).toDens)) (hlp : ∀ i : Fin n, IsLogDensityOn (fun x => .ok (g [i] (.fin x))) (D i) (P.map (X i)))
    {ts : List ArrTransform} (hfit : ∀ t ∈ ts, t.Fits [n]) (hok : ∀ i : Fin n, ArrTowerOk [i] ts (D i)) :
    P.map (fun ω (i : Fin n) => arrTowerFn [i] ts (X i ω)) =
      (volume.restrict (univ.pi fun i : Fin n => arrTowerFn [i] ts '' D i)).withDensity fun z => dens (arrayJoint (arrayLayersLogprob ts lp (vecArr z))) := by
  choose g' e1 e2 e3 e4 e5 using fun i : Fin n => tower_good (hok i) (hD i) (hm i) (hlp i)
  have hjoint : ∀ z : Fin n → ℝ, dens (arrayJoint (arrayLayersLogprob ts lp (vecArr z))) = ∏ i, (g' i (.fin (z i))).toDens := fun z => by
    obtain ⟨out, o1, o2, o3⟩ := C90_entrywise h hfit (value := vecArr z) rfl
    rw [o1]
    refine dens_arrayJoint o2 fun i => ?_
    have := o3 [i] (.cons i.2 .nil)
    rw [e1 i, vecArr_get z i.2] at this
    simp only [Except.ok.injEq] at this
    rw [← this]
  have hind' : iIndepFun (fun (i : Fin n) ω => arrTowerFn [i] ts (X i ω)) P := hind.comp (fun i : Fin n => arrTowerFn [i] ts) e2
  have hmeas : ∀ i : Fin n, Measurable fun ω => arrTowerFn [i] ts (X i ω) := fun i => (e2 i).comp (hX i)
  rw [(iIndepFun_iff_map_fun_eq_pi_map fun i => (hmeas i).aemeasurable).1 hind']
  have hlaw : ∀ i : Fin n, P.map (fun ω => arrTowerFn [i] ts (X i ω)) = volume.withDensity ((arrTowerFn [i] ts '' D i).indicator fun y => (g' i (.fin y)).toDens) := fun i => by
    rw [← (e5 i).eq_withDensity (e3 i), Measure.map_map (e2 i) (hX i)]
    rfl
  have hs : ∀ i : Fin n, SigmaFinite ((volume : Measure ℝ).withDensity ((arrTowerFn [i] ts '' D i).indicator fun y => (g' i (.fin y)).toDens)) := fun i => by
    rw [← hlaw i]
    have := Measure.isProbabilityMeasure_map (μ := P) (hmeas i).aemeasurable
    infer_instance
  have hset : MeasurableSet (univ.pi fun i : Fin n => arrTowerFn [i] ts '' D i) := MeasurableSet.univ_pi e3
  rw [show (fun i : Fin n => P.map fun ω => arrTowerFn [i] ts (X i ω)) = _ from funext hlaw, pi_withDensity e4, ← withDensity_indicator hset]
  congr 1
  funext z
  by_cases hz : z ∈ univ.pi fun i : Fin n => arrTowerFn [i] ts '' D i
  · rw [indicator_of_mem hz, hjoint]
    exact Finset.prod_congr rfl fun i _ => indicator_of_mem (hz i trivial) _
  · rw [indicator_of_notMem hz]
    simp only [mem_univ_pi, not_forall] at hz
    obtain ⟨i, hi⟩ := hz
    exact Finset.prod_eq_zero (Finset.mem_univ i) (indicator_of_notMem hi _)

/-! ## Where it is false -/

/-- **C90** is false when a parameter enlarges the shape: `X + a` for a random number `X` and a vector `a` with at least two entries gets a joint log-probability for every value, but
the law of that vector has no density at all. -/
theorem C90_broadcast_wrong {Ω : Type*} [MeasurableSpace Ω] {P : Measure Ω} [IsProbabilityMeasure P] {X : Ω → ℝ} (hX : Measurable X) {n : ℕ} {lp : Arr FVal → Except Err (Arr FVal)}
    {g : List ℕ → FVal → FVal} (h : EntrywiseFn [n] lp g) (a : Fin n → ℝ) {i j : Fin n} (hij : i ≠ j) :
    (∀ z : Fin n → ℝ, ∃ l, arrayJoint (arrayElemwiseLogprob (.loc (vecArr a)) lp (vecArr z)) = .ok l) ∧
      ∀ d : (Fin n → ℝ) → ENNReal, P.map (fun ω i => X ω + a i) ≠ volume.withDensity d := by
  refine ⟨fun z => ?_, fun d hd => ?_⟩
  · obtain ⟨out, h1, -, -⟩ := C90_entrywise h (ts := [.loc (vecArr a)]) (fun t ht => by cases List.mem_singleton.1 ht; exact bshape_self [n]) (value := vecArr z) rfl
    exact ⟨_, by rw [show arrayElemwiseLogprob (.loc (vecArr a)) lp (vecArr z) = .ok out from h1]; rfl⟩
  · have hm : MeasurableSet {z : Fin n → ℝ | z i - a i = z j - a j} :=
      measurableSet_eq_fun ((measurable_pi_apply i).sub_const _) ((measurable_pi_apply j).sub_const _)
    have h1 : P.map (fun ω i => X ω + a i) {z | z i - a i = z j - a j} = 1 := by
      rw [Measure.map_apply (measurable_pi_lambda _ fun i => hX.add_const _) hm]
      have : (fun ω i => X ω + a i) ⁻¹' {z : Fin n → ℝ | z i - a i = z j - a j} = Set.univ := by
        ext ω
        simp
      rw [this, measure_univ]
    have h0 : (volume : Measure (Fin n → ℝ)) {z | z i - a i = z j - a j} = 0 := by
      have := (measurePreserving_sub_right (volume : Measure (Fin n → ℝ)) a).measure_preimage
        (s := {z | z i = z j}) (measurableSet_eq_fun (measurable_pi_apply i) (measurable_pi_apply j)).nullMeasurableSet
      rw [diagonal_null hij] at this
      exact this
    rw [hd, withDensity_absolutelyContinuous volume d h0] at h1
    exact zero_ne_one h1

theorem bshape_nil_left (s : List ℕ) : bshape [[], s] = some s := by
  refine bshape_some.2 ⟨by simp [maxDims], fun d h => ?_⟩
  have e : maxDims [[], s] = s.length := by simp [maxDims]
  rw [e]
  refine ⟨fun t ht => ?_, fun _ => ⟨s, by simp, ?_⟩⟩
  · simp only [List.mem_cons, List.not_mem_nil, or_false] at ht
    rcases ht with rfl | rfl
    · left; simp [padded]
    · right; simp [padded, h]
  · simp [padded, h]

theorem bshape_nil_right (s : List ℕ) : bshape [s, []] = some s := by
  refine bshape_some.2 ⟨by simp [maxDims], fun d h => ?_⟩
  have e : maxDims [s, []] = s.length := by simp [maxDims]
  rw [e]
  refine ⟨fun t ht => ?_, fun _ => ⟨s, by simp, ?_⟩⟩
  · simp only [List.mem_cons, List.not_mem_nil, or_false] at ht
    rcases ht with rfl | rfl
    · right; simp [padded, h]
    · left; simp [padded]
  · simp [padded, h]

/-- A number as an array without axes. -/
def numArr (x : FVal) : Arr FVal := ⟨[], fun _ => x⟩

/-- `X + a` for a vector-valued variable: the log-probability of the whole vector is counted once per entry. -/
theorem vector_loc_joint {n : ℕ} {L : (Fin n → ℝ) → FVal} (a z : Fin n → ℝ) :
    dens (arrayJoint (arrayElemwiseLogprob (.loc (vecArr a)) (eventLogprob fun x => .ok (L x)) (vecArr z))) = (L (z - a)).toDens ^ n := by
  obtain ⟨b, b1, b2, b3⟩ := op2_fits (· - ·) (a := vecArr z) (b := vecArr a) rfl (bshape_self [n])
  have hb : (fun i : Fin n => match b.get [i] with | .fin x => x | _ => 0) = z - a := by
    funext i
    rw [b3 [i] (.cons i.2 .nil)]
    have : (vecArr a).entry [i] = .fin (a i) := by
      show (vecArr a).get (project [(i : ℕ)] [n]) = _
      rw [project_self (.cons i.2 .nil), vecArr_get a i.2]
    rw [this, vecArr_get z i.2]
    rfl
  have e : arrayElemwiseLogprob (.loc (vecArr a)) (eventLogprob fun x => .ok (L x)) (vecArr z) = .ok ⟨[n], fun _ => L (z - a) + 0⟩ := by
    have hbk : (ArrTransform.loc (vecArr a)).backward (vecArr z) = .ok b := b1
    have hev : eventLogprob (fun x => .ok (L x)) b = .ok (numArr (L (z - a))) := by rw [← hb]; rfl
    simp only [arrayElemwiseLogprob, hbk, hev, bind, Except.bind]
    show Arr.op2 _ (numArr (L (z - a))) ((vecArr z).map fun _ => (0 : FVal)) = _
    simp only [Arr.op2, show ((vecArr z).map fun _ => (0 : FVal)).shape = [n] from rfl, show (numArr (L (z - a))).shape = [] from rfl, bshape_nil_left]
    rfl
  rw [e, dens_arrayJoint (out := ⟨[n], fun _ => L (z - a) + 0⟩) rfl (d := fun _ => (L (z - a)).toDens) fun i => by rw [Graph.toDens_add]; simp [FVal.toDens]]
  simp

/-- **C90** is false for vector-valued variables and shifts: for a variable with at least two entries and a density below one everywhere, such as a multivariate normal with unit covariance,
`exp` of the joint log-probability of `X + a` has total mass less than one. -/
theorem C90_vector_loc_wrong {n : ℕ} (hn : 2 ≤ n) {L : (Fin n → ℝ) → FVal} {μ : Measure (Fin n → ℝ)} [IsProbabilityMeasure μ] (hL : IsLogDensityV (fun x => .ok (L x)) μ)
    {M : ENNReal} (hM : M < 1) (hb : ∀ x, (L x).toDens ≤ M) (a : Fin n → ℝ) :
    ∫⁻ z : Fin n → ℝ, dens (arrayJoint (arrayElemwiseLogprob (.loc (vecArr a)) (eventLogprob fun x => .ok (L x)) (vecArr z))) < 1 := by
  simp only [vector_loc_joint]
  have hle : ∀ z : Fin n → ℝ, (L (z - a)).toDens ^ n ≤ M * (L (z - a)).toDens := fun z => by
    obtain ⟨k, rfl⟩ : ∃ k, n = k + 1 + 1 := ⟨n - 2, by omega⟩
    rw [pow_succ]
    refine mul_le_mul' ?_ le_rfl
    calc (L (z - a)).toDens ^ (k + 1) ≤ M ^ (k + 1) := pow_le_pow_left' (hb _) _
      _ ≤ M := by rw [pow_succ]; exact mul_le_of_le_one_left' (pow_le_one' hM.le _)
  have htot : ∫⁻ z, (L (z - a)).toDens = 1 := by
    have h1 : ∫⁻ z, (L z).toDens = 1 := by
      have := hL.law univ MeasurableSet.univ
      simp only [Measure.restrict_univ, dens, measure_univ] at this
      exact this
    rw [← h1]
    exact lintegral_sub_right_eq_self (fun z => (L z).toDens) a
  calc _ ≤ ∫⁻ z, M * (L (z - a)).toDens := lintegral_mono hle
    _ = M * ∫⁻ z, (L (z - a)).toDens := lintegral_const_mul' _ _ (ne_top_of_lt hM)
    _ = M := by rw [htot, mul_one]
    _ < 1 := hM

/-- `X * s` for a vector-valued variable: the determinant of one entry only. -/
theorem vector_scale_joint {n : ℕ} {L : (Fin n → ℝ) → FVal} {s : ℝ} (hs : s ≠ 0) (z : Fin n → ℝ) :
    dens (arrayJoint (arrayElemwiseLogprob (.scale (numArr (.fin s))) (eventLogprob fun x => .ok (L x)) (vecArr z))) = (L (s⁻¹ • z)).toDens * ENNReal.ofReal |s|⁻¹ := by
  obtain ⟨b, b1, b2, b3⟩ := op2_fits (· / ·) (a := vecArr z) (b := numArr (.fin s)) rfl (bshape_nil_right [n])
  have hb : (fun i : Fin n => match b.get [i] with | .fin x => x | _ => 0) = s⁻¹ • z := by
    funext i
    rw [b3 [i] (.cons i.2 .nil), vecArr_get z i.2, show (numArr (.fin s)).entry [i] = .fin s from rfl]
    show (match (FVal.fin (z i) / FVal.fin s) with | .fin x => x | _ => 0) = _
    rw [FVal.div_fin _ hs, Pi.smul_apply, smul_eq_mul, div_eq_inv_mul]
  have e : arrayElemwiseLogprob (.scale (numArr (.fin s))) (eventLogprob fun x => .ok (L x)) (vecArr z) = .ok ⟨[], fun _ => L (s⁻¹ • z) + .fin (-Real.log |s|)⟩ := by
    have hbk : (ArrTransform.scale (numArr (.fin s))).backward (vecArr z) = .ok b := b1
    have hev : eventLogprob (fun x => .ok (L x)) b = .ok (numArr (L (s⁻¹ • z))) := by rw [← hb]; rfl
    simp only [arrayElemwiseLogprob, hbk, hev, bind, Except.bind]
    show Arr.op2 _ (numArr (L (s⁻¹ • z))) ((numArr (.fin s)).map fun x => -FVal.log (FVal.abs x)) = _
    simp only [Arr.op2, show ((numArr (.fin s)).map fun x => -FVal.log (FVal.abs x)).shape = [] from rfl, show (numArr (L (s⁻¹ • z))).shape = [] from rfl, bshape_nil_left]
    simp only [Arr.map, numArr, FVal.abs_fin, FVal.log_fin_pos (abs_pos.2 hs), FVal.neg_fin]
  rw [e]
  show (fsum [L (s⁻¹ • z) + .fin (-Real.log |s|)]).toDens = _
  rw [toDens_fsum, List.map_singleton, List.prod_singleton, Graph.toDens_add]
  congr 1
  show ENNReal.ofReal (Real.exp (-Real.log |s|)) = _
  rw [Real.exp_neg, Real.exp_log (abs_pos.2 hs)]

/-- **C90** is false for vector-valued variables and scaling: for every law with a density and a scale `s`, `exp` of the joint log-probability of `X * s` has total mass `|s| ^ (n - 1)` instead
of one. -/
theorem C90_vector_scale_wrong {n : ℕ} {L : (Fin (n + 1) → ℝ) → FVal} {μ : Measure (Fin (n + 1) → ℝ)} [IsProbabilityMeasure μ] (hL : IsLogDensityV (fun x => .ok (L x)) μ)
    {s : ℝ} (hs : s ≠ 0) :
    ∫⁻ z : Fin (n + 1) → ℝ, dens (arrayJoint (arrayElemwiseLogprob (.scale (numArr (.fin s))) (eventLogprob fun x => .ok (L x)) (vecArr z))) = ENNReal.ofReal (|s| ^ n) := by
  simp only [vector_scale_joint hs]
  have h1 : ∫⁻ z, (L z).toDens = 1 := by
    have := hL.law univ MeasurableSet.univ
    simp only [Measure.restrict_univ, dens, measure_univ] at this
    exact this
  have hs' : s⁻¹ ≠ 0 := inv_ne_zero hs
  have he : MeasurableEmbedding (fun z : Fin (n + 1) → ℝ => s⁻¹ • z) := (Homeomorph.smulOfNeZero s⁻¹ hs').measurableEmbedding
  rw [lintegral_mul_const' _ _ ENNReal.ofReal_ne_top, ← he.lintegral_map (μ := volume) (fun z => (L z).toDens), Measure.map_addHaar_smul _ hs', lintegral_smul_measure, h1]
  simp only [Module.finrank_fintype_fun_eq_card, Fintype.card_fin, smul_eq_mul, mul_one]
  rw [← ENNReal.ofReal_mul (abs_nonneg _)]
  congr 1
  rw [inv_pow, inv_inv, abs_pow, pow_succ, mul_assoc, mul_inv_cancel₀ (abs_pos.2 hs).ne', mul_one]

namespace ElemwiseArrayDemo

/-- Independent standard normals of any shape. -/
noncomputable def lp (x : Arr FVal) : Except Err (Arr FVal) := .ok (x.map (RepeatedDemo.g 0))

theorem lp_entrywise (s : List ℕ) : EntrywiseFn s lp fun _ => RepeatedDemo.g 0 := fun x hx => ⟨_, rfl, hx, fun _ _ => rfl⟩

/-- `exp(2 * X + [1, 2, 3])`. -/
noncomputable def ts : List ArrTransform := [.scale (numArr (.fin 2)), .loc (vecArr ![1, 2, 3]), .exp]

theorem ts_fits : ∀ t ∈ ts, t.Fits [3] := by
  intro t ht
  simp only [ts, List.mem_cons, List.not_mem_nil, or_false] at ht
  rcases ht with rfl | rfl | rfl
  · exact bshape_nil_right [3]
  · exact bshape_self [3]
  · trivial

example : ∃ out, arrayLayersLogprob ts lp (vecArr ![3, 4, 5]) = .ok out ∧ out.shape = [3] ∧
    ∀ c, InRange c [3] → layersLogprob (ts.map (·.at' c)) (fun v => .ok (RepeatedDemo.g 0 v)) ((vecArr ![3, 4, 5]).get c) = .ok (out.get c) :=
  C90_entrywise (lp_entrywise [3]) ts_fits rfl

theorem g_density (k : ℕ) : IsLogDensityOn (fun x => .ok (RepeatedDemo.g k (.fin x))) univ (gaussianReal 0 (1 ^ 2 : ℝ).toNNReal) := by
  have h := ((C09_normal 0 one_pos).1.on (D := univ) (by simp))
  have e : (fun x : ℝ => Except.ok (RepeatedDemo.g k (.fin x))) = fun x => normalLogprob (.fin x) (.fin 0) (.fin 1) := by
    funext x
    obtain ⟨v, hv, -⟩ := h.clean x trivial
    have hv' : normalLogprob (.fin x) (.fin 0) (.fin 1) = .ok v := hv
    simp only [RepeatedDemo.g, hv']
  rw [e]
  exact h

example : (Measure.infinitePi fun _ : Fin 3 => gaussianReal 0 (1 ^ 2 : ℝ).toNNReal).map (fun ω (i : Fin 3) => arrTowerFn [i] ts (ω i)) =
    (volume.restrict (univ.pi fun i : Fin 3 => arrTowerFn [i] ts '' univ)).withDensity fun z => dens (arrayJoint (arrayLayersLogprob ts lp (vecArr z))) :=
  C90_density_partial (P := Measure.infinitePi fun _ : Fin 3 => gaussianReal 0 (1 ^ 2 : ℝ).toNNReal) (X := fun k ω => ω k) (fun k => measurable_pi_apply k)
    (iIndepFun_infinitePi (P := fun _ : Fin 3 => gaussianReal 0 (1 ^ 2 : ℝ).toNNReal) (X := fun _ x => x) fun _ => measurable_id) (lp_entrywise [3]) (D := fun _ => univ)
    (fun _ => MeasurableSet.univ) (fun i => by rw [indicator_univ]; have := RepeatedDemo.g_dens 0; rw [this]; exact measurable_gaussianPDF _ _)
    (fun i => by rw [Measure.infinitePi_map_eval]; exact g_density 0) ts_fits
    (fun i => ⟨⟨2, by norm_num, rfl⟩, ⟨(![1, 2, 3] : Fin 3 → ℝ) i, by
      show (vecArr ![1, 2, 3]).get (project [(i : ℕ)] [3]) = _
      rw [project_self (.cons i.2 .nil), vecArr_get _ i.2]⟩, trivial, trivial⟩)

/-- `X + [1, 2]` for a standard normal number `X`. -/
example (d : (Fin 2 → ℝ) → ENNReal) : (gaussianReal 0 (1 ^ 2 : ℝ).toNNReal).map (fun ω i => ω + (![1, 2] : Fin 2 → ℝ) i) ≠ volume.withDensity d :=
  (C90_broadcast_wrong (P := gaussianReal 0 (1 ^ 2 : ℝ).toNNReal) (X := fun x => x) measurable_id (lp_entrywise [2]) ![1, 2] (i := 0) (j := 1) (by decide)).2 d

/-- The multivariate normal with unit covariance in two dimensions. -/
noncomputable def mv (x : Fin 2 → ℝ) : FVal := .fin (-((2 : ℕ) / 2 : ℝ) * Real.log (2 * Real.pi) - 1 / 2 * Real.log (1 : Matrix (Fin 2) (Fin 2) ℝ).det -
  1 / 2 * ((x - 0) ⬝ᵥ (1 : Matrix (Fin 2) (Fin 2) ℝ)⁻¹.mulVec (x - 0)))

theorem mv_density : ∃ μ : Measure (Fin 2 → ℝ), IsProbabilityMeasure μ ∧ IsLogDensityV (fun x => .ok (mv x)) μ := by
  obtain ⟨chol, h⟩ := exists_cholContract (n := 2)
  have := (C37_mvnormal h (Matrix.PosDef.one (n := Fin 2) (R := ℝ)) 0).1
  simp only [C37_mvnormal_formula h (Matrix.PosDef.one (n := Fin 2) (R := ℝ))] at this
  exact ⟨_, Measure.isProbabilityMeasure_map (by fun_prop), this⟩

theorem mv_bound (x : Fin 2 → ℝ) : (mv x).toDens ≤ ENNReal.ofReal (1 / (2 * Real.pi)) := by
  refine ENNReal.ofReal_le_ofReal ?_
  have hp : 0 < 2 * Real.pi := by positivity
  rw [← Real.exp_log (one_div_pos.2 hp), show Real.log (1 / (2 * Real.pi)) = -Real.log (2 * Real.pi) by rw [one_div, Real.log_inv]]
  refine Real.exp_le_exp.2 ?_
  simp
  linarith [mul_self_nonneg (x 0), mul_self_nonneg (x 1)]

theorem bound_lt : ENNReal.ofReal (1 / (2 * Real.pi)) < 1 := by
  rw [ENNReal.ofReal_lt_one, div_lt_one (by positivity)]
  linarith [Real.two_le_pi]

example : ∫⁻ z : Fin 2 → ℝ, dens (arrayJoint (arrayElemwiseLogprob (.loc (vecArr ![1, 2])) (eventLogprob fun x => .ok (mv x)) (vecArr z))) < 1 := by
  obtain ⟨μ, hp, hμ⟩ := mv_density
  exact C90_vector_loc_wrong le_rfl hμ bound_lt mv_bound _

example : ∫⁻ z : Fin 2 → ℝ, dens (arrayJoint (arrayElemwiseLogprob (.scale (numArr (.fin 3))) (eventLogprob fun x => .ok (mv x)) (vecArr z))) = ENNReal.ofReal (|(3 : ℝ)| ^ 1) := by
  obtain ⟨μ, hp, hμ⟩ := mv_density
  exact C90_vector_scale_wrong hμ (by norm_num)

end ElemwiseArrayDemo

end Verif
