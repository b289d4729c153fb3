import Verif.Spec.ArrDerived
import Verif.Props.ArrGraph
import Verif.Props.ElemwiseArray
import Verif.Props.ClipArray

/-! # C108: models with derived array variables -/

namespace Verif.ArrGraph
open Verif Cond MeasureTheory Set

variable {Di : Type}

theorem entryDensity_on {g : FVal → FVal} {D : Set ℝ} {law : Measure ℝ} (hD : MeasurableSet D) (hc : ∀ x ∈ D, g (.fin x) ≠ .nan) {C : Set ℝ} (hC : C.Countable)
    (h0 : ∀ v, (∀ x ∈ D ∪ C, v ≠ .fin x) → (g v).toDens = 0) (hl : law = volume.withDensity fun x => (g (.fin x)).toDens) : IsLogDensityOn (fun x => .ok (g (.fin x))) D law := by
  refine ⟨fun y hy => ⟨_, rfl, hc y hy⟩, fun s _ hs => ?_, ?_⟩
  · rw [hl, withDensity_apply _ hs]; rfl
  · have hae : ∀ᵐ x ∂(volume : Measure ℝ), x ∈ Dᶜ → (g (.fin x)).toDens = 0 := by
      filter_upwards [hC.ae_notMem volume] with x hx hxD
      refine h0 _ fun y hy h => ?_
      cases h
      exact hy.elim hxD hx
    rw [hl, withDensity_apply _ hD.compl, setLIntegral_congr_fun_ae (g := fun _ => 0) hD.compl hae]
    simp

/-- A value that is not in the image comes from nothing in the domain. -/
theorem backward_out {t : ArrTransform} {c : List ℕ} {D C : Set ℝ} (h : t.OkAt c D) {v b j : FVal} (hv : ∀ y ∈ t.fn c '' (D ∪ C), v ≠ .fin y) (hb : (t.at' c).backward v = .ok b)
    (hj : (t.at' c).logJacDet v = .ok j) : (∀ x ∈ D ∪ C, b ≠ .fin x) ∨ j.toDens = 0 := by
  by_contra hcon
  push Not at hcon
  obtain ⟨⟨x, hx, hbx⟩, hj0⟩ := hcon
  subst hbx
  cases t with
  | loc a =>
    obtain ⟨r, hr⟩ := h
    simp only [ArrTransform.at', hr, RVTransform.loc] at hb
    injection hb with hb
    cases v with
    | fin y =>
      rw [FVal.sub_fin] at hb
      refine hv y ⟨x, hx, ?_⟩ rfl
      simp only [ArrTransform.fn, hr]
      injection hb with hb
      linarith
    | nan => cases hb
    | pinf => cases hb
    | ninf => cases hb
  | scale a =>
    obtain ⟨r, hr0, hr⟩ := h
    simp only [ArrTransform.at', hr, RVTransform.scale] at hb
    injection hb with hb
    cases v with
    | fin y =>
      rw [FVal.div_fin _ hr0] at hb
      refine hv y ⟨x, hx, ?_⟩ rfl
      simp only [ArrTransform.fn, hr]
      injection hb with hb
      rw [← hb]
      field_simp
    | nan => cases hb
    | pinf =>
      have e : (FVal.pinf / .fin r : FVal) = if r < 0 then .ninf else .pinf := rfl
      rw [e] at hb
      split at hb <;> cases hb
    | ninf =>
      have e : (FVal.ninf / .fin r : FVal) = if r < 0 then .pinf else .ninf := rfl
      rw [e] at hb
      split at hb <;> cases hb
  | exp =>
    simp only [ArrTransform.at', RVTransform.exp] at hb
    injection hb with hb
    cases v with
    | fin y =>
      rcases lt_trichotomy y 0 with hy | hy | hy
      · rw [FVal.log, if_pos hy] at hb; cases hb
      · rw [FVal.log, if_neg hy.not_lt, if_pos hy] at hb; cases hb
      · rw [FVal.log_fin_pos hy] at hb
        injection hb with hb
        exact hv y ⟨x, hx, by rw [← hb]; exact Real.exp_log hy⟩ rfl
    | nan => cases hb
    | pinf => cases hb
    | ninf => cases hb
  | log =>
    simp only [ArrTransform.at', RVTransform.log] at hb
    injection hb with hb
    cases v with
    | fin y =>
      injection hb with hb
      exact hv y ⟨x, hx, by rw [← hb]; exact Real.log_exp y⟩ rfl
    | nan => cases hb
    | pinf => cases hb
    | ninf =>
      simp only [ArrTransform.at', RVTransform.log] at hj
      injection hj with hj
      subst hj
      exact hj0 rfl
  | reciprocal =>
    simp only [ArrTransform.at', RVTransform.reciprocal] at hb
    injection hb with hb
    simp only [ArrTransform.at', RVTransform.reciprocal] at hj
    injection hj with hj
    subst hj
    cases v with
    | fin y =>
      by_cases hy : y = 0
      · subst hy
        have e : FVal.reciprocal (.fin 0) = FVal.infMul 1 := if_pos rfl
        rw [e, FVal.infMul, if_pos one_pos] at hb
        cases hb
      · rw [FVal.reciprocal_fin hy] at hb
        injection hb with hb
        refine hv y ⟨x, hx, ?_⟩ rfl
        simp only [ArrTransform.fn]
        rw [← hb]
        field_simp
    | nan => cases hb
    | pinf =>
      refine hj0 ?_
      have e : (-2 * FVal.log .pinf : FVal) = FVal.infMul (-2) := rfl
      rw [e, FVal.infMul, if_neg (by norm_num), if_pos (by norm_num)]
      rfl
    | ninf =>
      exact hj0 rfl

theorem layer_zero {t : ArrTransform} {c : List ℕ} {D C : Set ℝ} (h : t.OkAt c D) {g : FVal → FVal} (h0 : ∀ v, (∀ x ∈ D ∪ C, v ≠ .fin x) → (g v).toDens = 0) (v : FVal)
    (hv : ∀ y ∈ t.fn c '' (D ∪ C), v ≠ .fin y) : (layerEntry c t g v).toDens = 0 := by
  have key : ∀ b j : FVal, (t.at' c).backward v = .ok b → (t.at' c).logJacDet v = .ok j → (g b + j).toDens = 0 := fun b j hb hj => by
    rw [Graph.toDens_add]
    rcases backward_out h hv hb hj with h1 | h1
    · rw [h0 b h1, zero_mul]
    · rw [h1, mul_zero]
  cases t <;> exact key _ _ rfl rfl

/-- An elementwise formula that is defined everywhere works entry by entry. -/
theorem elemwise_fn {k : FVal → List FVal → Except Err FVal} {s : List ℕ} {p : List (Arr FVal)} (hfit : Fit s p) {g : List ℕ → FVal → FVal}
    (hgk : ∀ c, InRange c s → ∀ v, k v (paramsAt p c) = .ok (g c v)) : EntrywiseFn s (fun x => elemwiseLogprob k x p) g := fun x hx => by
  have he : ∀ c, InRange c s → entryLogprob k x p c = .ok (g c (x.get c)) := fun c hc => by
    have e : entryAt x c = x.get c := by rw [entryAt, hx, project_self hc]
    simp only [entryLogprob, e]
    exact hgk c hc _
  have hb : bshape (x.shape :: p.map Arr.shape) = some s := by rw [hx]; exact hfit
  have hmap : (allCoords s).mapM (entryLogprob k x p) = .ok ((allCoords s).map fun c => g c (x.get c)) := mapM_ok fun c hc => he c (mem_allCoords.1 hc)
  refine ⟨⟨s, fun c => match entryLogprob k x p c with | .ok x => x | .error _ => .nan⟩, ?_, rfl, fun c hc => ?_⟩
  · simp only [elemwiseLogprob, hb, hmap]
    rfl
  · simp only [he c hc]

/-- **C108** (plain variables) An array of any shape of independent variables with an elementwise formula `k`, whose exponential at the parameters that meet an entry is the density of the
entry's law. -/
theorem C108_plain {k : FVal → List FVal → Except Err FVal} {s : List ℕ} {p : List (Arr FVal)} (hfit : Fit s p) {D : List ℕ → Set ℝ} {law : List ℕ → Measure ℝ}
    (hok : ∀ c, InRange c s → ∀ v, ∃ y, k v (paramsAt p c) = .ok y) (hp : ∀ c, InRange c s → IsProbabilityMeasure (law c)) (hD : ∀ c, InRange c s → MeasurableSet (D c))
    (hn : ∀ c, InRange c s → ∀ x ∈ D c, k (.fin x) (paramsAt p c) ≠ .ok .nan) {C : List ℕ → Set ℝ}
    (hC : ∀ c, (C c).Countable) (h0 : ∀ c, InRange c s → ∀ v, (∀ x ∈ D c ∪ C c, v ≠ .fin x) → dens (k v (paramsAt p c)) = 0)
    (hm : ∀ c, InRange c s → Measurable fun x : ℝ => dens (k (.fin x) (paramsAt p c)))
    (hl : ∀ c, InRange c s → law c = volume.withDensity fun x => dens (k (.fin x) (paramsAt p c))) : EntryDensity s (fun x => elemwiseLogprob k x p) D law := by
  set g : List ℕ → FVal → FVal := fun c v => match k v (paramsAt p c) with | .ok y => y | .error _ => .nan with hg
  have hgk : ∀ c, InRange c s → ∀ v, k v (paramsAt p c) = .ok (g c v) := fun c hc v => by
    obtain ⟨y, hy⟩ := hok c hc v
    simp only [hg, hy]
  have hdens : ∀ c, InRange c s → ∀ v, dens (k v (paramsAt p c)) = (g c v).toDens := fun c hc v => by rw [hgk c hc v]; rfl
  refine ⟨g, fun x hx => ?_, fun c hc => ⟨hp c hc, hD c hc, fun x hx h => hn c hc x hx (by rw [hgk c hc, h]), ⟨C c, hC c, fun v hv => ?_⟩, ?_, ?_⟩⟩
  · exact elemwise_fn hfit hgk x hx
  · rw [← hdens c hc]; exact h0 c hc v hv
  · simp_rw [← hdens c hc]; exact hm c hc
  · simp_rw [← hdens c hc]; exact hl c hc

theorem layerTransform_eq {op : LayerOp} {p q : List (Arr FVal)} {t : ArrTransform} (h : LayerIs op p t q) : layerTransform op p = .ok (t, q) := by
  cases op <;> simp only [LayerIs] at h
  · obtain ⟨a, rfl, rfl⟩ := h; rfl
  · obtain ⟨a, rfl, rfl⟩ := h; rfl
  all_goals obtain ⟨rfl, rfl⟩ := h; cases p <;> rfl

theorem arrTowerFn_one (c : List ℕ) (t : ArrTransform) : arrTowerFn c [t] = t.fn c := rfl

theorem entryDensity_layer {s : List ℕ} {lp : Arr FVal → Except Err (Arr FVal)} {D : List ℕ → Set ℝ} {law : List ℕ → Measure ℝ} (h : EntryDensity s lp D law) {t : ArrTransform} (hfit : t.Fits s)
    (hok : ∀ c, InRange c s → t.OkAt c (D c)) : EntryDensity s (arrayElemwiseLogprob t lp) (fun c => t.fn c '' D c) fun c => (law c).map (t.fn c) := by
  obtain ⟨g, hg, h⟩ := h
  refine ⟨fun c => layerEntry c t (g c), hg.layer hfit, fun c hc => ?_⟩
  obtain ⟨hp, hD, hn, ⟨C, hC, h0⟩, hm, hl⟩ := h c hc
  have hon := entryDensity_on hD hn hC h0 hl
  obtain ⟨g', e1, e2, e3, e4, e5⟩ := tower_good (ts := [t]) (c := c) ⟨hok c hc, trivial⟩ hD (g := g c) (hm.indicator hD) hon
  rw [arrTowerFn_one] at e2 e3 e4 e5
  have eg : g' = layerEntry c t (g c) := by
    have : layersLogprob [t.at' c] (fun v => .ok (g c v)) = fun v => .ok (layerEntry c t (g c) v) := layerEntry_eq c t (g c)
    rw [List.map_cons, List.map_nil, this] at e1
    funext v
    have := congrFun e1 v
    injection this with this
    exact this.symm
  subst eg
  have hz : ∀ v, (∀ y ∈ t.fn c '' D c ∪ t.fn c '' C, v ≠ .fin y) → (layerEntry c t (g c) v).toDens = 0 := fun v hv => layer_zero (hok c hc) h0 v (by rw [image_union]; exact hv)
  have hC' : (t.fn c '' C).Countable := hC.image _
  have hne : {y | (t.fn c '' D c).indicator (fun y => (layerEntry c t (g c) (.fin y)).toDens) y ≠ (layerEntry c t (g c) (.fin y)).toDens} ⊆ t.fn c '' C := by
    intro y hy
    by_contra hyC
    refine hy ?_
    by_cases hyD : y ∈ t.fn c '' D c
    · rw [indicator_of_mem hyD]
    · rw [indicator_of_notMem hyD, hz _ fun r hr hyr => ?_]
      cases hyr
      exact hr.elim hyD hyC
  have hae : (t.fn c '' D c).indicator (fun y => (layerEntry c t (g c) (.fin y)).toDens) =ᵐ[volume] fun y => (layerEntry c t (g c) (.fin y)).toDens := by
    filter_upwards [hC'.ae_notMem volume] with y hy
    by_contra hcon
    exact hy (hne hcon)
  refine ⟨Measure.isProbabilityMeasure_map e2.aemeasurable, e3, fun y hy => ?_, ⟨_, hC', hz⟩, ?_, ?_⟩
  · obtain ⟨v, hv, hne⟩ := e5.clean y hy
    cases hv
    exact hne
  · exact e4.measurable_of_countable_ne (hC'.mono hne)
  · rw [← withDensity_congr_ae hae]; exact e5.eq_withDensity e3

section
variable (kernel cdf : Di → Arr FVal → List (Arr FVal) → Except Err (Arr FVal)) (elem : Di → FVal → List FVal → Except Err FVal) (empty : List ℕ → FVal)

/-- **C108** (elementwise functions) If the entries of a variable of any shape are independent with densities, so are those of its image under an elementwise function that is invertible on them and whose
parameter fits into the shape.  As the conclusion is of the same form as the hypothesis, towers of any height follow. -/
theorem C108_layer {s : List ℕ} {e : Derived Di} {op : LayerOp} {p q : List (Arr FVal)} {t : ArrTransform} (ht : LayerIs op p t q) {D : List ℕ → Set ℝ}
    {law : List ℕ → Measure ℝ} (h : EntryDensity s (fun x => derivedKernel kernel cdf elem empty e x q) D law) (hfit : t.Fits s) (hok : ∀ c, InRange c s → t.OkAt c (D c)) :
    EntryDensity s (fun x => derivedKernel kernel cdf elem empty (.layer op e) x p) (fun c => t.fn c '' D c) fun c => (law c).map (t.fn c) := by
  have e1 : (fun x => derivedKernel kernel cdf elem empty (.layer op e) x p) = arrayElemwiseLogprob t fun x => derivedKernel kernel cdf elem empty e x q := by
    funext x
    simp only [derivedKernel, layerTransform_eq ht]
  rw [e1]
  exact entryDensity_layer h hfit hok

/-- **C108** (joint density) If the entries are independent with densities, `exp` of the sum of the log-probability array is the joint density. -/
theorem C108_independent {s : List ℕ} {kernel : Arr FVal → List (Arr FVal) → Except Err (Arr FVal)} {p : List (Arr FVal)} {D : List ℕ → Set ℝ} {law : List ℕ → Measure ℝ}
    (h : EntryDensity s (fun x => kernel x p) D law) : GoodAt (numbers s) kernel (Measure.pi fun k : Fin (entries s) => law (coord k)) (Measure.pi fun _ => volume) p := by
  obtain ⟨g, hg, h⟩ := h
  refine goodAt_pi (d := fun k x => (g (coord k) (.fin x)).toDens) (fun k => (h _ (coord_inRange k)).1) (fun k => (h _ (coord_inRange k)).2.2.2.2.1.aemeasurable)
    (fun k => (h _ (coord_inRange k)).2.2.2.2.2) fun x => ?_
  obtain ⟨out, h1, h2, h3⟩ := hg (numbers s x) rfl
  simp only at h1
  rw [h1, dens_arrayJoint_ok h2]
  refine Finset.prod_congr rfl fun k _ => ?_
  rw [h3 _ (coord_inRange k), numbers_get]

theorem clipTo_measurable (a b : Option ℝ) : Measurable (clipTo a b) := by
  unfold clipTo
  cases a <;> cases b <;> fun_prop

/-- **C108** (clipping) Clipping an array of any shape of independent random numbers with densities and log-CDFs, with bounds that fit into the shape, are numbers or infinite, and leave room: `exp` of the joint
log-probability is the joint density of the clipped array with respect to Lebesgue measure plus unit atoms at the bounds, in every entry. -/
theorem C108_clip {s t : List ℕ} {d : Di} {lc uc : Bool} {lower upper : Arr FVal} {p : List (Arr FVal)} {law : List ℕ → Measure ℝ}
    (hd : EntryDensity s (fun x => kernel d x p) (fun _ => univ) law) {h : List ℕ → FVal → FVal} (hc : EntrywiseFn s (fun x => cdf d x p) h)
    (hcdf : ∀ c, InRange c s → IsLogCdf (fun x => .ok (h c (.fin x))) (law c)) (hl : bshape [s, lower.shape] = some s) (hu : bshape [s, upper.shape] = some s)
    (ht : bshape [lower.shape, upper.shape] = some t) (hok : ArrBound.UpperOk ⟨upper, uc⟩) (hord : BoundsOrdered lower upper t) {lo hi : List ℕ → Option ℝ}
    (hlo : ∀ c, InRange c s → LowerIs (ArrBound.arg ⟨lower, lc⟩ c) (lo c)) (hhi : ∀ c, InRange c s → UpperIs (ArrBound.arg ⟨upper, uc⟩ c) (hi c))
    (hlt : ∀ c, InRange c s → BoundsLt (lo c) (hi c)) :
    GoodAt (numbers s) (derivedKernel kernel cdf elem empty (.clip lc uc d)) (Measure.pi fun k : Fin (entries s) => (law (coord k)).map (clipTo (lo (coord k)) (hi (coord k))))
      (Measure.pi fun k : Fin (entries s) => volume + atomAt (lo (coord k)) + atomAt (hi (coord k))) (lower :: upper :: p) := by
  obtain ⟨g, hg, hd⟩ := hd
  have hsf : ∀ k : Fin (entries s), SigmaFinite (volume + atomAt (lo (coord k)) + atomAt (hi (coord k))) := fun k => by
    cases lo (coord k) <;> cases hi (coord k) <;> simp only [atomAt] <;> infer_instance
  refine goodAt_pi (d := fun k x => dens (measurableClip false (fun v => .ok (g (coord k) v)) (fun v => .ok (h (coord k) v)) (ArrBound.arg ⟨lower, lc⟩ (coord k)) (ArrBound.arg ⟨upper, uc⟩ (coord k)) (.fin x)))
    (fun k => ?_) (fun k => ?_) (fun k => ?_) fun x => ?_
  · have := (hd _ (coord_inRange k)).1
    exact Measure.isProbabilityMeasure_map (clipTo_measurable _ _).aemeasurable
  · have hck := coord_inRange k
    obtain ⟨al, bl⟩ := arg_bound ⟨lower, lc⟩ (coord k) .ninf
    obtain ⟨au, bu⟩ := arg_bound ⟨upper, uc⟩ (coord k) .pinf
    have hle := ordered_entry hl hu ht hord hck
    have e : (fun x : ℝ => dens (measurableClip false (fun v => .ok (g (coord k) v)) (fun v => .ok (h (coord k) v)) (ArrBound.arg ⟨lower, lc⟩ (coord k)) (ArrBound.arg ⟨upper, uc⟩ (coord k)) (.fin x))) =
        fun x => (lowerStep (upperStep false (g (coord k) (.fin x)) (h (coord k) (.fin x)) (.fin x) (upper.entry (coord k))) (h (coord k) (.fin x)) (.fin x) (lower.entry (coord k))).toDens := by
      funext x
      rw [measurableClip_eq (by rw [al, au]; exact hle), al, au, scalar_upper (bound_entry (b := ⟨upper, uc⟩) hu hck hok), scalar_lower]
      rfl
    rw [e]
    exact (clip_measurable (hd _ hck).2.2.2.2.1 _ _).aemeasurable
  · obtain ⟨hp, -, hn, -, hm, hlaw⟩ := hd _ (coord_inRange k)
    ext S hS
    have hden : IsLogDensity (fun x => .ok (g (coord k) (.fin x))) (law (coord k)) :=
      ⟨fun x => ⟨_, rfl, hn x trivial⟩, fun S hS => by rw [hlaw, withDensity_apply _ hS]; rfl⟩
    have := (C59_clip_partial (lp := fun v => .ok (g (coord k) v)) (lc := fun v => .ok (h (coord k) v)) hden (hcdf _ (coord_inRange k)) (hlo _ (coord_inRange k)) (hhi _ (coord_inRange k))
      (hlt _ (coord_inRange k))).2 S hS
    rw [withDensity_apply _ hS, this]
  · obtain ⟨out, o1, o2, o3⟩ := C92_entrywise (isInt := false) hg hc (l := ⟨lower, lc⟩) (u := ⟨upper, uc⟩) hl hu ht hok hord (v := numbers s x) rfl fun c hc => by
      obtain ⟨i, hi, rfl⟩ := List.mem_iff_getElem.1 (mem_allCoords.2 hc)
      exact ⟨_, numbers_get x ⟨i, hi⟩⟩
    simp only [derivedKernel]
    rw [o1, dens_arrayJoint_ok o2]
    refine Finset.prod_congr rfl fun k _ => ?_
    have := o3 _ (coord_inRange k)
    rw [numbers_get] at this
    rw [this]
    rfl

end

end Verif.ArrGraph
