import Verif.Props.ArrDerivedJoint
import Verif.Lemmas.PiDensity

/-! Arrays whose entries are those of other arrays, in another order. -/

namespace Verif.ArrGraph
open Verif Cond MeasureTheory Set

theorem lintegral_fin_prod_dep {n : ℕ} {α : Fin n → Type} [∀ i, MeasurableSpace (α i)] (μ : ∀ i, Measure (α i)) [∀ i, SigmaFinite (μ i)] {f : ∀ i, α i → ENNReal}
    (hf : ∀ i, Measurable (f i)) :
    ∫⁻ x : (∀ i, α i), ∏ i, f i (x i) ∂(Measure.pi μ) = ∏ i, ∫⁻ x, f i x ∂(μ i) := by
  induction n with
  | zero => simp
  | succ n ih =>
    have h := (measurePreserving_piFinSuccAbove μ 0).symm.lintegral_comp_emb
      (MeasurableEquiv.measurableEmbedding _) (fun x : (∀ i, α i) => ∏ i, f i (x i))
    rw [← h]
    have e : ∀ x : α 0 × (∀ i : Fin n, α i.succ), ∏ i, f i ((MeasurableEquiv.piFinSuccAbove α 0).symm x i) =
        f 0 x.1 * ∏ i : Fin n, f i.succ (x.2 i) := fun x => by
      rw [Fin.prod_univ_succ]; rfl
    refine (lintegral_congr e).trans ?_
    have hm : Measurable fun y : (∀ i : Fin n, α i.succ) => ∏ i : Fin n, f i.succ (y i) :=
      Finset.measurable_prod _ fun (i : Fin n) _ => (hf i.succ).comp (measurable_pi_apply i)
    have hp := lintegral_prod_mul (μ := μ 0) (ν := Measure.pi fun j : Fin n => μ j.succ) (hf 0).aemeasurable hm.aemeasurable
    rw [Fin.prod_univ_succ]
    refine hp.trans ?_
    congr 1
    exact ih (fun i => μ i.succ) fun i => hf i.succ

/-- The product of laws with densities has the product density. -/
theorem pi_withDensity_dep {n : ℕ} {α : Fin n → Type} [∀ i, MeasurableSpace (α i)] (ν : ∀ i, Measure (α i)) [∀ i, SigmaFinite (ν i)] {f : ∀ i, α i → ENNReal} (hf : ∀ i, AEMeasurable (f i) (ν i))
    {law : ∀ i, Measure (α i)} [∀ i, IsProbabilityMeasure (law i)] (hl : ∀ i, law i = (ν i).withDensity (f i)) :
    AEMeasurable (fun x : ∀ i, α i => ∏ i, f i (x i)) (Measure.pi ν) ∧ Measure.pi law = (Measure.pi ν).withDensity fun x => ∏ i, f i (x i) := by
  have hm : ∀ i, Measurable ((hf i).mk (f i)) := fun i => (hf i).measurable_mk
  have hae : (fun x : ∀ i, α i => ∏ i, f i (x i)) =ᵐ[Measure.pi ν] fun x => ∏ i, (hf i).mk (f i) (x i) := by
    filter_upwards [Measure.ae_eq_pi fun i => (hf i).ae_eq_mk] with x hx
    exact Finset.prod_congr rfl fun i _ => congrFun hx i
  refine ⟨⟨_, Finset.measurable_prod _ fun i _ => (hm i).comp (measurable_pi_apply i), hae⟩, ?_⟩
  rw [withDensity_congr_ae hae]
  refine Measure.pi_eq fun s hs => ?_
  rw [withDensity_apply _ (MeasurableSet.univ_pi hs), ← lintegral_indicator (MeasurableSet.univ_pi hs)]
  have e : ∀ x : ∀ i, α i, (Set.univ.pi s).indicator (fun x : ∀ i, α i => ∏ i, (hf i).mk (f i) (x i)) x = ∏ i, (s i).indicator ((hf i).mk (f i)) (x i) := by
    intro x
    by_cases h : x ∈ Set.univ.pi s
    · rw [Set.indicator_of_mem h]
      exact Finset.prod_congr rfl fun i _ => (Set.indicator_of_mem (h i trivial) _).symm
    · rw [Set.indicator_of_notMem h]
      simp only [Set.mem_univ_pi, not_forall] at h
      obtain ⟨i, hi⟩ := h
      exact (Finset.prod_eq_zero (Finset.mem_univ i) (Set.indicator_of_notMem hi _)).symm
  rw [lintegral_congr e, lintegral_fin_prod_dep ν fun i => (hm i).indicator (hs i)]
  refine Finset.prod_congr rfl fun i _ => ?_
  rw [hl i, withDensity_congr_ae (hf i).ae_eq_mk, withDensity_apply _ (hs i), lintegral_indicator (hs i)]

/-- The entries of `n` arrays, put into one array: `E k j` is the place of entry `j` of array `k`. -/
def gather {n m : ℕ} {len : Fin n → ℕ} (E : (Σ k, Fin (len k)) ≃ Fin m) (x : ∀ k, Fin (len k) → ℝ) (i : Fin m) : ℝ := x (E.symm i).1 (E.symm i).2

/-- The arrays an array has been put together from. -/
def scatter {n m : ℕ} {len : Fin n → ℕ} (E : (Σ k, Fin (len k)) ≃ Fin m) (y : Fin m → ℝ) (k : Fin n) (j : Fin (len k)) : ℝ := y (E ⟨k, j⟩)

theorem gather_scatter {n m : ℕ} {len : Fin n → ℕ} (E : (Σ k, Fin (len k)) ≃ Fin m) (y : Fin m → ℝ) : gather E (scatter E y) = y := by
  funext i
  simp only [gather, scatter, Sigma.eta, Equiv.apply_symm_apply]

theorem scatter_gather {n m : ℕ} {len : Fin n → ℕ} (E : (Σ k, Fin (len k)) ≃ Fin m) (x : ∀ k, Fin (len k) → ℝ) : scatter E (gather E x) = x := by
  funext k j
  simp only [gather, scatter]
  have h : E.symm (E ⟨k, j⟩) = ⟨k, j⟩ := E.symm_apply_apply _
  generalize E.symm (E ⟨k, j⟩) = t at h
  subst h
  rfl

theorem gather_measurable {n m : ℕ} {len : Fin n → ℕ} (E : (Σ k, Fin (len k)) ≃ Fin m) : Measurable (gather E) :=
  measurable_pi_lambda _ fun i => (measurable_pi_apply (E.symm i).2).comp (measurable_pi_apply (E.symm i).1)

theorem scatter_measurable {n m : ℕ} {len : Fin n → ℕ} (E : (Σ k, Fin (len k)) ≃ Fin m) : Measurable (scatter E) :=
  measurable_pi_lambda _ fun k => measurable_pi_lambda _ fun j => measurable_pi_apply (E ⟨k, j⟩)

/-- As an equivalence. -/
def scatterEquiv {n m : ℕ} {len : Fin n → ℕ} (E : (Σ k, Fin (len k)) ≃ Fin m) : (Fin m → ℝ) ≃ᵐ (∀ k, Fin (len k) → ℝ) :=
  ⟨⟨scatter E, gather E, gather_scatter E, scatter_gather E⟩, scatter_measurable E, gather_measurable E⟩

theorem scatter_volume {n m : ℕ} {len : Fin n → ℕ} (E : (Σ k, Fin (len k)) ≃ Fin m) : MeasurePreserving (scatter E) volume (Measure.pi fun _ => volume) := by
  refine MeasurePreserving.symm (scatterEquiv E).symm ⟨(scatterEquiv E).symm.measurable, ?_⟩
  show (Measure.pi fun _ => Measure.pi fun _ => volume).map (gather E) = Measure.pi fun _ => volume
  refine (Measure.pi_eq fun s hs => ?_).symm
  rw [Measure.map_apply (gather_measurable E) (MeasurableSet.univ_pi hs)]
  have e : gather E ⁻¹' univ.pi s = univ.pi fun k => univ.pi fun j => s (E ⟨k, j⟩) := by
    ext x
    simp only [mem_preimage, mem_univ_pi]
    constructor
    · intro h k j
      have := h (E ⟨k, j⟩)
      have e : gather E x (E ⟨k, j⟩) = x k j := congrFun (congrFun (scatter_gather E x) k) j
      rwa [e] at this
    · intro h i
      have := h (E.symm i).1 (E.symm i).2
      rwa [Sigma.eta, E.apply_symm_apply] at this
  rw [e, Measure.pi_pi]
  simp_rw [Measure.pi_pi]
  rw [← Equiv.prod_comp E fun i => volume (s i), Fintype.prod_sigma]

/-- If the entries of an array are those of other, independent, arrays with joint densities, and so are those of its log-probability, it has the joint density. -/
theorem jointDensity_gather {n : ℕ} {ss : Fin n → List ℕ} {s : List ℕ} (E : (Σ k, Fin (entries (ss k))) ≃ Fin (entries s)) {lp : Fin n → Arr FVal → Except Err (Arr FVal)}
    {D : Fin n → List ℕ → Set ℝ} {law : ∀ k, Measure (Fin (entries (ss k)) → ℝ)} (h : ∀ k, JointDensity (ss k) (lp k) (D k) (law k)) {lp' : Arr FVal → Except Err (Arr FVal)}
    (hlp : ∀ v : Arr FVal, v.shape = s → ∃ xs : Fin n → Arr FVal, (∀ k, (xs k).shape = ss k ∧ ∀ j, (xs k).get (coord j) = v.get (coord (E ⟨k, j⟩))) ∧
      ∀ outs : Fin n → Arr FVal, (∀ k, lp k (xs k) = .ok (outs k) ∧ (outs k).shape = ss k) → ∃ out, lp' v = .ok out ∧ out.shape = s ∧ ∀ k j, out.get (coord (E ⟨k, j⟩)) = (outs k).get (coord j))
    {D' : List ℕ → Set ℝ} (hD : ∀ k j, D' (coord (E ⟨k, j⟩)) = D k (coord j)) : JointDensity s lp' D' ((Measure.pi law).map (gather E)) := by
  have hprob := fun k => (h k).prob
  have hfull : ∀ v : Arr FVal, v.shape = s → ∃ xs outs : Fin n → Arr FVal, ∃ out, (∀ k, (xs k).shape = ss k ∧ (∀ j, (xs k).get (coord j) = v.get (coord (E ⟨k, j⟩))) ∧
      lp k (xs k) = .ok (outs k) ∧ (outs k).shape = ss k) ∧ lp' v = .ok out ∧ out.shape = s ∧ ∀ k j, out.get (coord (E ⟨k, j⟩)) = (outs k).get (coord j) := fun v hv => by
    obtain ⟨xs, h1, h2⟩ := hlp v hv
    have : ∀ k, ∃ o, lp k (xs k) = .ok o ∧ o.shape = ss k := fun k => by
      obtain ⟨a, b, h3, -, h4, -⟩ := (h k).out (xs k) (xs k) (h1 k).1 ⟨rfl, fun _ _ => rfl⟩
      exact ⟨a, h3, h4⟩
    choose outs h3 using this
    obtain ⟨out, h4, h5, h6⟩ := h2 outs h3
    exact ⟨xs, outs, out, fun k => ⟨(h1 k).1, (h1 k).2, (h3 k).1, (h3 k).2⟩, h4, h5, h6⟩
  have hdens : ∀ v : Arr FVal, v.shape = s → ∃ xs : Fin n → Arr FVal, (∀ k, (xs k).shape = ss k ∧ ∀ j, (xs k).get (coord j) = v.get (coord (E ⟨k, j⟩))) ∧
      dens (arrayJoint (lp' v)) = ∏ k, dens (arrayJoint (lp k (xs k))) := fun v hv => by
    obtain ⟨xs, outs, out, h1, h2, h3, h4⟩ := hfull v hv
    refine ⟨xs, fun k => ⟨(h1 k).1, (h1 k).2.1⟩, ?_⟩
    rw [h2, dens_arrayJoint_ok h3, ← Equiv.prod_comp E, Fintype.prod_sigma]
    refine Finset.prod_congr rfl fun k _ => ?_
    rw [(h1 k).2.2.1, dens_arrayJoint_ok (h1 k).2.2.2]
    exact Finset.prod_congr rfl fun j _ => by rw [h4]
  have hval : ∀ y : Fin (entries s) → ℝ, dens (arrayJoint (lp' (numbers s y))) = ∏ k, dens (arrayJoint (lp k (numbers (ss k) (scatter E y k)))) := fun y => by
    obtain ⟨xs, h1, h2⟩ := hdens (numbers s y) rfl
    rw [h2]
    refine Finset.prod_congr rfl fun k _ => ?_
    have hsame : Arr.Same (xs k) (numbers (ss k) (scatter E y k)) := ⟨(h1 k).1, fun c hc => by
      rw [(h1 k).1] at hc
      obtain ⟨j, rfl⟩ := shape_coord hc
      rw [(h1 k).2, numbers_get, numbers_get]
      rfl⟩
    obtain ⟨a, b, e1, e2, -, e3⟩ := (h k).out _ _ (h1 k).1 hsame
    rw [e1, e2, arrayJoint_same e3]
  obtain ⟨hm, hl⟩ := pi_withDensity_dep (fun k => (volume : Measure (Fin (entries (ss k)) → ℝ))) (fun k => (h k).meas) fun k => (h k).dens
  have hmp := scatter_volume (len := fun k => entries (ss k)) E
  refine ⟨Measure.isProbabilityMeasure_map (gather_measurable E).aemeasurable, fun x y hx hxy => ?_, fun c hc => ?_, ?_, ?_, ?_⟩
  · have hy : y.shape = s := hxy.1 ▸ hx
    obtain ⟨xs, os, o, h1, h2, h3, h4⟩ := hfull x hx
    obtain ⟨ys, ps, p, g1, g2, g3, g4⟩ := hfull y hy
    refine ⟨o, p, h2, g2, h3, h3.trans g3.symm, fun c hc => ?_⟩
    rw [h3] at hc
    obtain ⟨i, rfl⟩ := shape_coord hc
    obtain ⟨⟨k, j⟩, rfl⟩ := E.surjective i
    have hsame : Arr.Same (xs k) (ys k) := ⟨(h1 k).1.trans (g1 k).1.symm, fun c hc => by
      rw [(h1 k).1] at hc
      obtain ⟨j, rfl⟩ := shape_coord hc
      rw [(h1 k).2.1, (g1 k).2.1]
      exact hxy.2 _ (by rw [hx]; exact coord_inRange _)⟩
    obtain ⟨a, b, e1, e2, e3, e4⟩ := (h k).out _ _ (h1 k).1 hsame
    rw [(h1 k).2.2.1] at e1
    rw [(g1 k).2.2.1] at e2
    cases e1
    cases e2
    rw [h4, g4]
    exact e4.2 _ (by rw [e3]; exact coord_inRange j)
  · obtain ⟨i, rfl⟩ := shape_coord hc
    obtain ⟨⟨k, j⟩, rfl⟩ := E.surjective i
    rw [hD]
    exact (h k).dom _ (coord_inRange j)
  · choose C hC h0 using fun k => (h k).zero
    refine ⟨fun c => ⋃ t : Σ k, Fin (entries (ss k)), C t.1 (coord t.2), fun c => countable_iUnion fun t => hC t.1 _, fun x hx ⟨c, hc, hcx⟩ => ?_⟩
    obtain ⟨i, rfl⟩ := shape_coord hc
    obtain ⟨⟨k, j⟩, rfl⟩ := E.surjective i
    obtain ⟨xs, h1, h2⟩ := hdens x hx
    rw [h2]
    refine Finset.prod_eq_zero (Finset.mem_univ k) (h0 k (xs k) (h1 k).1 ⟨coord j, coord_inRange j, fun r hr => ?_⟩)
    rw [(h1 k).2]
    refine hcx r ?_
    rcases hr with hr | hr
    · exact .inl (by rw [hD]; exact hr)
    · exact .inr (mem_iUnion.2 ⟨⟨k, j⟩, hr⟩)
  · simp_rw [hval]
    exact hm.comp_quasiMeasurePreserving hmp.quasiMeasurePreserving
  · simp_rw [hval]
    ext S hS
    rw [Measure.map_apply (gather_measurable E) hS, hl, withDensity_apply _ (gather_measurable E hS), withDensity_apply _ hS,
      ← hmp.setLIntegral_comp_preimage_emb (scatterEquiv E).measurableEmbedding]
    congr 2
    ext v
    simp only [mem_preimage, gather_scatter]

end Verif.ArrGraph
