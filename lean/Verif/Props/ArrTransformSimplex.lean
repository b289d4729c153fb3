import Verif.Props.ArrTransformGood
import Verif.Lemmas.DirichletSimplex

/-! # C107: arrays of Dirichlet vectors on the scale of the simplex transform -/

namespace Verif.ArrGraph
open Verif Cond MeasureTheory Set

/-- A law that is the image of a density, where the log-probability with Jacobian term is the logarithm of that density. -/
theorem goodT_of_embedding {Y W : Type} [MeasurableSpace Y] [MeasurableSpace W] {arr : Y → Arr FVal} {arrZ : W → Arr FVal} {kernel : Arr FVal → List (Arr FVal) → Except Err (Arr FVal)}
    {tr : Option ATransform} {fwd : Y → W} {law : Measure Y} {ref : Measure W} {p : List (Arr FVal)} {E : W → Y} (hE : MeasurableEmbedding E) (hprob : IsProbabilityMeasure law) {f : W → ENNReal}
    (hf : Measurable f) (hlaw : law = (ref.withDensity f).map E) (hfwd : ∀ z, fwd (E z) = z) (h1 : ∀ z, onScale tr (arr (E z)) p = arrZ z) (h2 : ∀ z, offScale tr (arrZ z) p = arr (E z))
    (hterm : ∀ z, Verif.dens (arrayJoint (termAt kernel tr true (arrZ z) p)) = f z) : GoodT arr arrZ kernel tr fwd univ law ref p := by
  have hae : ∀ {P : Y → Prop}, (∀ z, P (E z)) → ∀ᵐ x ∂law, P x := fun {P} h => by
    rw [hlaw, hE.ae_map_iff]
    exact ae_of_all _ h
  refine ⟨hprob, hae fun z => ⟨trivial, by rw [hfwd]; exact h1 z⟩, hae fun z => by rw [hfwd]; exact h2 z, ?_, fun G => ?_⟩
  · simp only [hterm]
    exact hf.aemeasurable
  · have hfin : ∀ᵐ z ∂ref, f z < ⊤ := by
      refine ae_lt_top hf ?_
      have : law univ = 1 := measure_univ
      rw [hlaw, hE.map_apply, preimage_univ, withDensity_apply _ MeasurableSet.univ, Measure.restrict_univ] at this
      rw [this]; exact ENNReal.one_ne_top
    rw [hlaw, hE.lintegral_map, Measure.restrict_univ, lintegral_withDensity_eq_lintegral_mul_non_measurable _ hf hfin]
    refine lintegral_congr fun z => ?_
    rw [Pi.mul_apply, hfwd, hterm]

theorem inRange_row {b : List ℕ} {n : ℕ} (k : Fin (entries b)) (i : Fin n) : InRange (coord k ++ [(i : ℕ)]) (b ++ [n]) := List.rel_append (coord_inRange k) (.cons i.2 .nil)

/-- The rows of an array of rows. -/
theorem rowAt_rows {b : List ℕ} {n : ℕ} (x : Fin (entries b) → Fin n → ℝ) (k : Fin (entries b)) : rowAt n (rows b n x) (coord k) = vec (x k) := by
  simp only [rowAt, vec]
  congr 1
  funext i
  rw [entryAt, show (rows b n x).shape = b ++ [n] from rfl, project_self (inRange_row k i), rows_get]

theorem mem_allCoords_row {b : List ℕ} {n : ℕ} {c : List ℕ} : c ∈ allCoords (b ++ [n]) ↔ c ≠ [] ∧ c.dropLast ∈ allCoords b ∧ c.getLastD 0 < n := by
  rw [mem_allCoords, mem_allCoords]
  rcases List.eq_nil_or_concat c with rfl | ⟨c', a, rfl⟩
  · simp only [ne_eq, not_true_eq_false, false_and, iff_false]
    intro h
    have := h.length_eq
    simp at this
  · simp only [List.concat_eq_append, ne_eq, List.append_eq_nil_iff, List.cons_ne_self, and_false, not_false_iff, true_and, List.dropLast_concat, List.getLastD_concat]
    constructor
    · intro h
      have hl : c'.length = b.length := by simpa using h.length_eq
      obtain ⟨h1, h2⟩ := (List.forall₂_iff_zip.1 h)
      constructor
      · refine List.forall₂_iff_get.2 ⟨hl, fun i hi hi' => ?_⟩
        have := (List.forall₂_iff_get.1 h).2 i (by simp; omega) (by simp; omega)
        simpa [List.getElem_append_left, hi, hi'] using this
      · have := (List.forall₂_iff_get.1 h).2 c'.length (by simp) (by simp [hl])
        simpa [hl] using this
    · rintro ⟨h1, h2⟩
      exact List.rel_append h1 (.cons h2 .nil)

/-- An operation on the rows of an array of rows. -/
theorem onRows_rows {b : List ℕ} {n m : ℕ} {f : List FVal → List FVal} {x : Fin (entries b) → Fin n → ℝ} {g : Fin (entries b) → Fin m → ℝ} (h : ∀ k, f (vec (x k)) = vec (g k)) :
    onRows m f (rows b n x) = rows b m g := by
  have hs : (rows b n x).shape = b ++ [n] := rfl
  simp only [onRows, hs, List.dropLast_concat, List.getLastD_concat, tabulate]
  rw [show rows b m g = ⟨b ++ [m], (rows b m g).get⟩ from rfl]
  congr 1
  funext c
  by_cases hc : c ∈ allCoords (b ++ [m])
  · obtain ⟨h1, h2, h3⟩ := mem_allCoords_row.1 hc
    have hlt : (allCoords b).idxOf c.dropLast < entries b := List.idxOf_lt_length_iff.2 h2
    rw [if_pos hc]
    have hk : coord (⟨_, hlt⟩ : Fin (entries b)) = c.dropLast := List.getElem_idxOf hlt
    rw [← hk, rowAt_rows, h]
    simp only [rows]
    rw [dif_pos ⟨h1, hlt, h3⟩]
    rw [List.getD_eq_getElem _ _ (by simpa [vec] using h3)]
    simp only [vec, List.getElem_ofFn]
  · have : ¬ (c ≠ [] ∧ (allCoords b).idxOf c.dropLast < entries b ∧ c.getLastD 0 < m) := fun h => hc (mem_allCoords_row.2 ⟨h.1, List.idxOf_lt_length_iff.1 h.2.1, h.2.2⟩)
    simp only [if_neg hc, rows]
    rw [dif_neg this]

/-- What `dirichlet_logprob` computes on arrays: one log-probability for each row, or an error. -/
theorem dirichletArr_rows {b : List ℕ} {n : ℕ} {alpha : Arr FVal} (hfit : Fit (b ++ [n]) [alpha]) (hlast : alpha.shape.getLast? = some n) {α : Fin (entries b) → Fin n → ℝ}
    (hα : ∀ (k : Fin (entries b)) (i : Fin n), alpha.get (project (coord k ++ [(i : ℕ)]) alpha.shape) = .fin (α k i)) (x : Fin (entries b) → Fin n → ℝ) :
    (∀ out, dirichletArr (rows b n x) [alpha] = .ok out → out.shape = b) ∧ Verif.dens (arrayJoint (dirichletArr (rows b n x) [alpha])) = ∏ k, Verif.dens (dirichletAt (α k) (x k)) := by
  have hs : bshape [(rows b n x).shape, alpha.shape] = some (b ++ [n]) := hfit
  have hr : ∀ k, rowAt n alpha (coord k) = vec (α k) := fun k => by
    simp only [rowAt, vec]
    congr 1
    funext i
    exact hα k i
  have hv : (rows b n x).shape.getLast? = some n := List.getLast?_concat ..
  rw [dirichletArr, hs]
  simp only [List.getLastD_concat, List.dropLast_concat]
  rw [if_pos ⟨by simp, hv, hlast⟩]
  constructor
  · intro out h
    split at h
    · cases h
    · cases h; rfl
  · refine (dens_entries _ b).trans (Finset.prod_congr rfl fun k _ => ?_)
    rw [rowAt_rows, hr]
    rfl

/-- **C107** (the simplex transform) An array, of any shape, of Dirichlet vectors with concentrations that fit, on the scale of its default transform: forward and backward transforms undo each other, and the
log-probabilities of the rows with their Jacobian terms are the log-density of the transformed array with respect to Lebesgue measure. -/
theorem C107_simplex {b : List ℕ} {n : ℕ} {alpha : Arr FVal} (hfit : Fit (b ++ [n + 1]) [alpha]) (hlast : alpha.shape.getLast? = some (n + 1)) {α : Fin (entries b) → Fin (n + 1) → ℝ}
    (hα : ∀ (k : Fin (entries b)) (i : Fin (n + 1)), alpha.get (project (coord k ++ [(i : ℕ)]) alpha.shape) = .fin (α k i)) (hpos : ∀ k i, 0 < α k i) :
    GoodT (rows b (n + 1)) (rows b n) dirichletArr (some simplexArr) (fun x k => coords n (simplexForward (vec (x k)))) univ (Measure.pi fun k => dirichletLaw (α k)) (Measure.pi fun _ => volume)
      [alpha] := by
  haveI : ∀ k, IsProbabilityMeasure (dirichletLaw (α k)) := fun k => dirichlet_prob (hpos k)
  have hcont : Continuous fun (z : Fin (entries b) → Fin n → ℝ) k => sxB (z k) := continuous_pi fun k => sxB_continuous.comp (continuous_apply k)
  have hmap : ∀ k, dirichletLaw (α k) = ((volume : Measure (Fin n → ℝ)).withDensity (sxDens (α k))).map sxB := fun k => dirichlet_eq_map (hpos k)
  have hfwd : ∀ z : Fin n → ℝ, simplexForward (vec (sxB z)) = vec z := fun z => by rw [forward_eq _ (sxB_mem z).1, sxF_sxB]
  have hco : ∀ z : Fin n → ℝ, coords n (vec z) = z := fun z => by funext i; simp [coords, vec]
  refine goodT_of_embedding (E := fun z k => sxB (z k)) (f := fun z => ∏ k, sxDens (α k) (z k))
    (hcont.measurableEmbedding fun z w h => funext fun k => by rw [← sxF_sxB (z k), ← sxF_sxB (w k), show sxB (z k) = sxB (w k) from congrFun h k]) inferInstance
    (Finset.measurable_prod _ fun k _ => (sxDens_measurable (α k)).comp (measurable_pi_apply k)) ?_ (fun z => ?_) (fun z => ?_) (fun z => ?_) fun z => ?_
  · have hν : ∀ k, IsFiniteMeasure ((volume : Measure (Fin n → ℝ)).withDensity (sxDens (α k))) := fun k => by
      refine ⟨?_⟩
      have : dirichletLaw (α k) univ < ⊤ := measure_lt_top _ _
      rwa [hmap k, sxB_embedding.map_apply, preimage_univ] at this
    rw [← pi_withDensity_of (fun _ => volume) fun k => sxDens_measurable (α k)]
    haveI : ∀ k, SigmaFinite (((volume : Measure (Fin n → ℝ)).withDensity (sxDens (α k))).map sxB) := fun k => by rw [← hmap k]; infer_instance
    rw [Measure.pi_map_pi fun k => sxB_continuous.measurable.aemeasurable]
    exact congrArg Measure.pi (funext hmap)
  · funext k
    simp only [hfwd, hco]
  · show onRows _ simplexForward _ = _
    have hs : (rows b (n + 1) fun k => sxB (z k)).shape.getLastD 0 - 1 = n := by simp [rows]
    rw [hs]
    exact onRows_rows fun k => hfwd (z k)
  · show onRows _ simplexBackward _ = _
    have hs : (rows b n z).shape.getLastD 0 + 1 = n + 1 := by simp [rows]
    rw [hs]
    exact onRows_rows fun k => backward_eq (z k)
  · have hb : simplexArr.backward (rows b n z) [alpha] = rows b (n + 1) fun k => sxB (z k) := by
      show onRows _ simplexBackward _ = _
      have hs : (rows b n z).shape.getLastD 0 + 1 = n + 1 := by simp [rows]
      rw [hs]
      exact onRows_rows fun k => backward_eq (z k)
    have hj : simplexArr.logJacDet (rows b n z) [alpha] = numbers b fun k => Real.log ((n + 1) * ∏ i, sxB (z k) i) := by
      show tabulate _ _ = _
      have hs : (rows b n z).shape = b ++ [n] := rfl
      rw [hs, List.dropLast_concat, List.getLastD_concat]
      refine tabulate_numbers fun k => ?_
      rw [rowAt_rows, logJac_eq]
    obtain ⟨d1, d2⟩ := dirichletArr_rows hfit hlast hα fun k => sxB (z k)
    simp only [termAt, transformedArr, hb, hj, if_true]
    simp_rw [sxDens_eq (hpos _), Finset.prod_mul_distrib, ← d2, logJac_eq]
    cases hk : dirichletArr (rows b (n + 1) fun k => sxB (z k)) [alpha] with
    | error e => simp [arrayJoint, Verif.dens]
    | ok out => exact dens_addArr (d1 out hk) _

/-- Four vectors of length three with common concentrations. -/
example : GoodT (rows [4] 3) (rows [4] 2) dirichletArr (some simplexArr) (fun x k => coords 2 (simplexForward (vec (x k)))) univ
    (Measure.pi fun _ : Fin (entries [4]) => dirichletLaw ![1, 2, 3]) (Measure.pi fun _ => volume) [⟨[3], fun c => .fin (c.headD 0 + 1)⟩] := by
  refine C107_simplex (b := [4]) (n := 2) (alpha := ⟨[3], fun c => .fin (c.headD 0 + 1)⟩) (α := fun _ => ![1, 2, 3]) (by unfold Fit; decide) rfl (fun k i => ?_) fun _ i => ?_
  · have hl : (coord k).length = 1 := (coord_inRange k).length_eq
    match hc : coord k, hl with
    | [a], _ => fin_cases i <;> simp [project] <;> norm_num
  · fin_cases i <;> norm_num

end Verif.ArrGraph
