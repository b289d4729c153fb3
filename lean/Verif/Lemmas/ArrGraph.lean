import Verif.Spec.ArrGraph
import Verif.Lemmas.SimpleBackend
import Verif.Lemmas.PiDensity
import Verif.Props.Graph
import Verif.Props.Incsubtensor
import Verif.Props.Repeated

/-! # Helper lemmas for models with array variables -/

namespace Verif.ArrGraph
open Verif Cond MeasureTheory

variable {Di : Type} {X : ℕ → Type} [∀ i, MeasurableSpace (X i)]

/-! ## Graphs -/

theorem eval_cleanup_replace {vals : Dict ℕ ℕ} {σ ρ : ℕ → Arr FVal} (ω : ℕ → Di → List (Arr FVal) → Arr FVal) (e : Expr Di) (hu : User e)
    (h : ∀ id, Mentions id e → ∃ v, Dict.get? vals id = some v ∧ ρ v = σ id) :
    eval ρ ω (cleanup (replaceValued vals e)) = evalAt σ ρ e := by
  induction e with
  | const x => rfl
  | inp i => rfl
  | app n f args ih =>
    simp only [replaceValued, cleanup, eval, evalAt]
    congr 1
    funext i
    exact ih i (hu i) fun id hid => h id ⟨i, hid⟩
  | rv id dist n args ih =>
    obtain ⟨v, hv, he⟩ := h id rfl
    simp only [replaceValued, hv, cleanup, eval, evalAt, he]
  | valued r v => exact hu.elim

theorem evalAt_congr {σ σ' ρ : ℕ → Arr FVal} (e : Expr Di) (h : ∀ id, Mentions id e → σ id = σ' id) : evalAt σ ρ e = evalAt σ' ρ e := by
  induction e with
  | const x => rfl
  | inp i => rfl
  | app n f args ih =>
    simp only [evalAt]
    congr 1
    funext i
    exact ih i fun id hid => h id ⟨i, hid⟩
  | rv id dist n args ih => exact h id rfl
  | valued r v ih1 ih2 => exact ih1 h

theorem dens_evalJoint (kernel : Di → Arr FVal → List (Arr FVal) → Except Err (Arr FVal)) {defs : ℕ → Option (RVDef Di)} {rvs clones : List ℕ}
    {realized : Dict ℕ ℕ} {terms : Dict ℕ (Term Di)} {vvs : List ℕ} (hne : terms ≠ [])
    (h : conditionalLogprob (backend defs (rvValues rvs clones realized)) rvs clones realized = .ok (terms, vvs)) :
    ∃ j, joint defs rvs clones realized = .ok (some (j, vvs)) ∧
      ∀ ρ ω, dens (evalJoint kernel ρ ω j) = (terms.map fun p => dens (arrayJoint (p.2.eval kernel ρ ω))).prod := by
  rw [joint, jointLogprob, h]
  match terms, hne with
  | [(v, t)], _ => exact ⟨_, rfl, fun ρ ω => by simp [evalJoint]⟩
  | a :: b :: l, _ =>
    refine ⟨_, rfl, fun ρ ω => ?_⟩
    rw [evalJoint, Graph.dens_sumE, List.map_map, Dict.values, List.map_map]
    rfl

theorem refE_congr {ref : ∀ i, Measure (X i)} (l : List (ℕ × RVDef Di)) (σ : ∀ i, X i) {φ ψ : (∀ i, X i) → ENNReal}
    (h : ∀ σ', (∀ i, i ∉ l.map Prod.fst → σ' i = σ i) → φ σ' = ψ σ') : refE ref l σ φ = refE ref l σ ψ := by
  induction l generalizing σ with
  | nil => exact h σ fun _ _ => rfl
  | cons p l ih =>
    obtain ⟨id, r⟩ := p
    simp only [refE]
    refine lintegral_congr fun x => ih _ fun σ' hσ' => h σ' fun i hi => ?_
    simp only [List.map_cons, List.mem_cons, not_or] at hi
    rw [hσ' i hi.2, Function.update_of_ne hi.1]

theorem refE_const_mul {ref : ∀ i, Measure (X i)} (l : List (ℕ × RVDef Di)) (σ : ∀ i, X i) {c : ENNReal} (hc : c ≠ ⊤) (φ : (∀ i, X i) → ENNReal) :
    refE ref l σ (fun σ => c * φ σ) = c * refE ref l σ φ := by
  induction l generalizing σ with
  | nil => rfl
  | cons p l ih =>
    obtain ⟨id, r⟩ := p
    simp only [refE, ih]
    rw [lintegral_const_mul' _ _ hc]

theorem refE_eq_sampleE (arr : ∀ i, X i → Arr FVal) (kernel : Di → Arr FVal → List (Arr FVal) → Except Err (Arr FVal)) (law : ∀ i, Di → List (Arr FVal) → Measure (X i)) (ref : ∀ i, Measure (X i))
    (ρ : ℕ → Arr FVal) (φ : (∀ i, X i) → ENNReal) (l : List (ℕ × RVDef Di)) (σ : ∀ i, X i) (hord : DependencyOrder l) (hvalid : Valid arr kernel law ref ρ l σ) :
    refE ref l σ (fun σ => (l.map fun p => dens (arrayJoint (kernel p.2.dist (arr p.1 (σ p.1)) (params (asg arr σ) ρ p.2)))).prod * φ σ) = sampleE arr law ρ l σ φ := by
  induction l generalizing σ with
  | nil => simp [refE, sampleE]
  | cons p l ih =>
    obtain ⟨id, r⟩ := p
    obtain ⟨h1, h2, hord'⟩ := hord
    obtain ⟨good, hval'⟩ := hvalid
    have hprob := good.prob
    simp only [refE, sampleE]
    set f : X id → ENNReal := fun x => dens (arrayJoint (kernel r.dist (arr id x) (params (asg arr σ) ρ r))) with hf
    have hfin : ∀ᵐ x ∂(ref id), f x < ⊤ := by
      refine ae_lt_top' good.meas ?_
      have : (law id r.dist (params (asg arr σ) ρ r)) Set.univ = 1 := measure_univ
      rw [good.dens, withDensity_apply _ MeasurableSet.univ, Measure.restrict_univ] at this
      rw [hf, this]; exact ENNReal.one_ne_top
    have hdens : law id r.dist (params (asg arr σ) ρ r) = (ref id).withDensity f := good.dens
    rw [hdens] at hval'
    have hval'' := (ae_withDensity_iff' good.meas).1 hval'
    rw [hdens, lintegral_withDensity_eq_lintegral_mul_non_measurable₀ _ good.meas hfin]
    refine lintegral_congr_ae ?_
    filter_upwards [hfin, hval''] with x hx hvx
    have e1 : refE ref l (Function.update σ id x)
          (fun σ' => (((id, r) :: l).map fun p => dens (arrayJoint (kernel p.2.dist (arr p.1 (σ' p.1)) (params (asg arr σ') ρ p.2)))).prod * φ σ') =
        refE ref l (Function.update σ id x)
          (fun σ' => f x * ((l.map fun p => dens (arrayJoint (kernel p.2.dist (arr p.1 (σ' p.1)) (params (asg arr σ') ρ p.2)))).prod * φ σ')) := by
      refine refE_congr _ _ fun σ' hσ' => ?_
      have hid : σ' id = x := by
        rw [hσ' id, Function.update_self]
        intro hmem
        obtain ⟨p, hp, hpid⟩ := List.mem_map.1 hmem
        exact (h2 p hp).1 hpid
      have hpar : params (asg arr σ') ρ r = params (asg arr σ) ρ r := by
        simp only [params]
        congr 1
        funext i
        refine evalAt_congr _ fun id' hm => ?_
        have hne : id' ≠ id := by rintro rfl; exact h1 i hm
        have hnl : id' ∉ l.map Prod.fst := by
          intro hmem
          obtain ⟨p, hp, hpid⟩ := List.mem_map.1 hmem
          subst hpid
          exact (h2 p hp).2 i hm
        simp only [asg]
        rw [hσ' id' hnl, Function.update_of_ne hne]
      rw [List.map_cons, List.prod_cons, hpar, hid, mul_assoc]
    rw [e1, refE_const_mul _ _ hx.ne, Pi.mul_apply]
    show f x * _ = f x * _
    by_cases h0 : f x = 0
    · rw [h0, zero_mul, zero_mul]
    · rw [ih _ hord' (hvx h0)]

/-! ## Arrays -/

theorem coord_inRange {s : List ℕ} (k : Fin (entries s)) : InRange (coord k) s := mem_allCoords.1 (List.getElem_mem _)

theorem allCoords_nodup (s : List ℕ) : (allCoords s).Nodup := (allCoords_sorted s).imp fun h => ne_of_lt h

theorem idxOf_coord {s : List ℕ} (k : Fin (entries s)) : (allCoords s).idxOf (coord k) = k := (allCoords_nodup s).idxOf_getElem _ _

theorem numbers_get {s : List ℕ} (x : Fin (entries s) → ℝ) (k : Fin (entries s)) : (numbers s x).get (coord k) = .fin (x k) := by
  simp only [numbers]
  have h := idxOf_coord k
  rw [dif_pos (by rw [h]; exact k.2)]
  congr 2
  exact Fin.ext h

theorem rows_get {s : List ℕ} {n : ℕ} (x : Fin (entries s) → Fin n → ℝ) (k : Fin (entries s)) (i : Fin n) : (rows s n x).get (coord k ++ [(i : ℕ)]) = .fin (x k i) := by
  have h := idxOf_coord k
  simp only [rows, List.dropLast_concat, List.getLastD_concat, h]
  rw [dif_pos ⟨by simp, k.2, i.2⟩]

theorem map_allCoords {α : Type} (s : List ℕ) (f : List ℕ → α) : (allCoords s).map f = List.ofFn fun k : Fin (entries s) => f (coord k) := by
  refine List.ext_getElem (by simp [entries]) fun i h1 h2 => ?_
  simp [coord]

/-- The sum over the entries of an array. -/
theorem dens_arrayJoint_ok {out : Arr FVal} {s : List ℕ} (hs : out.shape = s) : dens (arrayJoint (.ok out)) = ∏ k : Fin (entries s), (out.get (coord k)).toDens := by
  subst hs
  simp only [arrayJoint, dens, toDens_fsum]
  rw [map_allCoords, List.map_ofFn, List.prod_ofFn]
  rfl

/-- An array computed entry by entry, an error anywhere being an error of the whole. -/
theorem dens_entries (f : List ℕ → Except Err FVal) (s : List ℕ) :
    dens (arrayJoint (match (allCoords s).mapM f with
      | .error e => .error e
      | .ok _ => .ok ⟨s, fun c => match f c with | .ok x => x | .error _ => .nan⟩)) = ∏ k : Fin (entries s), dens (f (coord k)) := by
  by_cases h : ∀ c ∈ allCoords s, ∃ x, f c = .ok x
  · choose! g hg using h
    rw [mapM_ok hg]
    simp only
    rw [dens_arrayJoint_ok (s := s) rfl]
    refine Finset.prod_congr rfl fun k _ => ?_
    have hk := hg (coord k) (List.getElem_mem _)
    simp only [hk, dens]
  · push Not at h
    obtain ⟨c, hc, hf⟩ := h
    obtain ⟨e, he⟩ : ∃ e, (allCoords s).mapM f = .error e := by
      revert hc
      generalize allCoords s = l
      intro hc
      induction l with
      | nil => simp at hc
      | cons a l ih =>
        rw [List.mapM_cons]
        cases ha : f a with
        | error e => exact ⟨e, rfl⟩
        | ok y =>
          rcases List.mem_cons.1 hc with rfl | hc
          · exact absurd ha (hf y)
          · obtain ⟨e, he⟩ := ih hc
            exact ⟨e, by rw [he]; rfl⟩
    rw [he]
    obtain ⟨k, hk, hkc⟩ := List.mem_iff_getElem.1 hc
    simp only [arrayJoint, dens]
    refine (Finset.prod_eq_zero (Finset.mem_univ (⟨k, hk⟩ : Fin (entries s))) ?_).symm
    have : coord (⟨k, hk⟩ : Fin (entries s)) = c := hkc
    rw [this]
    cases hfc : f c with
    | error e => rfl
    | ok y => exact absurd hfc (hf y)

/-- Products of densities of independent parts. -/
theorem goodAt_pi {Y : Type} [MeasurableSpace Y] {n : ℕ} {arr : (Fin n → Y) → Arr FVal} {kernel : Arr FVal → List (Arr FVal) → Except Err (Arr FVal)} {p : List (Arr FVal)}
    {law ref : Fin n → Measure Y} [∀ i, SigmaFinite (ref i)] {d : Fin n → Y → ENNReal} (hp : ∀ i, IsProbabilityMeasure (law i)) (hm : ∀ i, AEMeasurable (d i) (ref i))
    (hd : ∀ i, law i = (ref i).withDensity (d i)) (h : ∀ x, dens (arrayJoint (kernel (arr x) p)) = ∏ i, d i (x i)) : GoodAt arr kernel (Measure.pi law) (Measure.pi ref) p := by
  have hm' : ∀ i, Measurable ((hm i).mk (d i)) := fun i => (hm i).measurable_mk
  have hae : (fun x : Fin n → Y => ∏ i, d i (x i)) =ᵐ[Measure.pi ref] fun x => ∏ i, (hm i).mk (d i) (x i) := by
    filter_upwards [Measure.ae_eq_pi fun i => (hm i).ae_eq_mk] with x hx
    exact Finset.prod_congr rfl fun i _ => congrFun hx i
  refine ⟨inferInstance, ?_, ?_⟩
  · simp_rw [h]
    exact ⟨_, Finset.measurable_prod _ fun i _ => (hm' i).comp (measurable_pi_apply i), hae⟩
  · simp_rw [h]
    have hd' : ∀ i, law i = (ref i).withDensity ((hm i).mk (d i)) := fun i => (hd i).trans (withDensity_congr_ae (hm i).ae_eq_mk)
    have : ∀ i, SigmaFinite ((ref i).withDensity ((hm i).mk (d i))) := fun i => by rw [← hd' i]; infer_instance
    rw [withDensity_congr_ae hae, ← pi_withDensity_of ref hm']
    exact congrArg Measure.pi (funext hd')

end Verif.ArrGraph
