import Verif.Spec.Repeated
import Verif.Props.MixtureArray
import Verif.Props.Graph
import Verif.Lemmas.PiDensity
import Mathlib.Probability.Independence.Basic
import Mathlib.Probability.Independence.InfinitePi
import Mathlib.MeasureTheory.Measure.Lebesgue.EqHaar

/-! # C86: components selected several times -/

namespace Verif
open MeasureTheory ProbabilityTheory

theorem toDens_fsum (l : List FVal) : (fsum l).toDens = (l.map FVal.toDens).prod := by
  induction l with
  | nil => simp [fsum, FVal.toDens]
  | cons a l ih =>
    have : fsum (a :: l) = a + fsum l := rfl
    rw [this, Graph.toDens_add, ih, List.map_cons, List.prod_cons]

theorem allCoords_vector (n : ℕ) : allCoords [n] = (List.range n).map fun i => [i] := by
  simp only [allCoords, List.map_cons, List.map_nil]
  generalize List.range n = l
  induction l with
  | nil => rfl
  | cons a l ih => simp only [List.flatMap_cons, List.map_cons, ih, List.singleton_append]

theorem idxArr_get {n : ℕ} (I : Fin n → ℕ) {i : ℕ} (hi : i < n) : (idxArr I).get [i] = (I ⟨i, hi⟩ : ℤ) := dif_pos hi

theorem vecArr_get {n : ℕ} (z : Fin n → ℝ) {i : ℕ} (hi : i < n) : (vecArr z).get [i] = .fin (z ⟨i, hi⟩) := dif_pos hi

theorem idxArr_range {n K : ℕ} {I : Fin n → ℕ} (hI : ∀ i, I i < K) : ∀ c, InRange c (idxArr I).shape → 0 ≤ (idxArr I).get c ∧ (idxArr I).get c < K := fun c hc => by
  cases hc with
  | @cons i _ l _ hi hl =>
    cases hl
    rw [idxArr_get I hi]
    have := hI ⟨i, hi⟩
    omega

/-- The joint log-probability of an indexed stack of scalars is the sum over the places. -/
theorem indexed_joint {comps : List MixComp} {g : ℕ → FVal → FVal} (hshape : ∀ c ∈ comps, c.shape = [1])
    (hlp : ∀ m (h : m < comps.length) ps vs, ps.length = vs.length → comps[m].lp ps vs = .ok (vs.map (g m))) (hne : comps ≠ [])
    {n : ℕ} {I : Fin n → ℕ} (hI : ∀ i, I i < comps.length) (empty : List ℕ → FVal) (z : Fin n → ℝ) :
    dens (arrayJoint (arrayMixtureLogprob none [.adv (idxArr I)] comps empty (vecArr z))) = ∏ i, (g (I i) (.fin (z i))).toDens := by
  obtain ⟨out, h1, h2, h3⟩ := C63_vector_partial (comps := comps) (g := g) hshape hlp (I := idxArr I) (idxArr_range hI) (by simp [idxArr]) hne empty (vecArr z)
  rw [h1]
  simp only [arrayJoint, dens, toDens_fsum, h2]
  rw [show (idxArr I).shape = [n] from rfl, allCoords_vector, List.map_map, List.map_map]
  rw [Finset.prod_fin_eq_prod_range, Finset.prod_eq_multiset_prod]
  show _ = ((List.range n).map _).prod
  congr 1
  refine List.map_congr_left fun i hi => ?_
  have hi' : i < n := by simpa using hi
  simp only [Function.comp_apply, hi', dif_pos]
  rw [h3 [i] (.cons hi' .nil)]
  rw [idxArr_get I hi', vecArr_get z hi', Int.toNat_natCast]

/-- **C86** (components selected at most once) `at.stack([X₀, X₁, ..])[I]` for independent random scalars, any number of them, and a vector `I` of different indices: `exp` of the joint
log-probability is the joint density of the vector.  Missing: repeated indices, for which it is false (`C86_repeated_wrong`). -/
theorem C86_distinct_partial {Ω : Type*} [MeasurableSpace Ω] {P : Measure Ω} [IsProbabilityMeasure P] {X : ℕ → Ω → ℝ} (hX : ∀ k, Measurable (X k)) (hind : iIndepFun X P)
    {comps : List MixComp} {g : ℕ → FVal → FVal} (hshape : ∀ c ∈ comps, c.shape = [1]) (hne : comps ≠ [])
    (hlp : ∀ m (h : m < comps.length) ps vs, ps.length = vs.length → comps[m].lp ps vs = .ok (vs.map (g m)))
    (hg : ∀ m < comps.length, Measurable fun x : ℝ => (g m (.fin x)).toDens) (hlaw : ∀ m < comps.length, P.map (X m) = volume.withDensity fun x => (g m (.fin x)).toDens)
    {n : ℕ} {I : Fin n → ℕ} (hI : ∀ i, I i < comps.length) (hinj : Function.Injective I) (empty : List ℕ → FVal) :
    P.map (fun ω i => X (I i) ω) = volume.withDensity fun z => dens (arrayJoint (arrayMixtureLogprob none [.adv (idxArr I)] comps empty (vecArr z))) := by
  simp only [indexed_joint hshape hlp hne hI empty]
  have h1 := (iIndepFun_iff_map_fun_eq_pi_map (fun i => (hX (I i)).aemeasurable)).1 (hind.precomp hinj)
  have hp : ∀ i, IsProbabilityMeasure (P.map (X (I i))) := fun i => Measure.isProbabilityMeasure_map (hX _).aemeasurable
  have hs : ∀ i, SigmaFinite ((volume : Measure ℝ).withDensity fun x => (g (I i) (.fin x)).toDens) := fun i => by
    rw [← hlaw _ (hI i)]
    have := hp i
    infer_instance
  rw [h1, ← pi_withDensity (f := fun i x => (g (I i) (.fin x)).toDens) fun i => hg _ (hI i)]
  congr 1
  funext i
  exact hlaw _ (hI i)

/-- Two equal coordinates. -/
theorem diagonal_null {n : ℕ} {i j : Fin n} (hij : i ≠ j) : (volume : Measure (Fin n → ℝ)) {z | z i = z j} = 0 := by
  let s : Submodule ℝ (Fin n → ℝ) := LinearMap.ker (LinearMap.proj (R := ℝ) (φ := fun _ : Fin n => ℝ) i - LinearMap.proj j)
  have hs : s ≠ ⊤ := by
    intro h
    have : Pi.single i (1 : ℝ) ∈ s := by rw [h]; trivial
    simp [s, LinearMap.mem_ker, hij.symm] at this
  have h := Measure.addHaar_submodule (volume : Measure (Fin n → ℝ)) s hs
  have e : (s : Set (Fin n → ℝ)) = {z | z i = z j} := by
    ext z
    simp [s, LinearMap.mem_ker, sub_eq_zero]
  rwa [e] at h

/-- **C86** (refuted part) With an index that occurs twice, for any components: the joint log-probability is returned for every vector of values, but the vector has no
density at all, since two of its entries are always equal. -/
theorem C86_repeated_wrong {Ω : Type*} [MeasurableSpace Ω] {P : Measure Ω} [IsProbabilityMeasure P] {X : ℕ → Ω → ℝ} (hX : ∀ k, Measurable (X k))
    {comps : List MixComp} {g : ℕ → FVal → FVal} (hshape : ∀ c ∈ comps, c.shape = [1]) (hne : comps ≠ [])
    (hlp : ∀ m (h : m < comps.length) ps vs, ps.length = vs.length → comps[m].lp ps vs = .ok (vs.map (g m)))
    {n : ℕ} {I : Fin n → ℕ} (hI : ∀ i, I i < comps.length) {i j : Fin n} (hij : i ≠ j) (he : I i = I j) (empty : List ℕ → FVal) :
    (∀ z : Fin n → ℝ, ∃ v, arrayJoint (arrayMixtureLogprob none [.adv (idxArr I)] comps empty (vecArr z)) = .ok v) ∧
      ∀ h : (Fin n → ℝ) → ENNReal, P.map (fun ω i => X (I i) ω) ≠ volume.withDensity h := by
  refine ⟨fun z => ?_, fun h hh => ?_⟩
  · obtain ⟨out, h1, -, -⟩ := C63_vector_partial (comps := comps) (g := g) hshape hlp (I := idxArr I) (idxArr_range hI) (by simp [idxArr]) hne empty (vecArr z)
    rw [h1]
    exact ⟨_, rfl⟩
  · have hm : MeasurableSet {z : Fin n → ℝ | z i = z j} := measurableSet_eq_fun (measurable_pi_apply i) (measurable_pi_apply j)
    have h1 : P.map (fun ω i => X (I i) ω) {z | z i = z j} = 1 := by
      rw [Measure.map_apply (measurable_pi_lambda _ fun i => hX _) hm]
      have : (fun ω i => X (I i) ω) ⁻¹' {z : Fin n → ℝ | z i = z j} = Set.univ := by
        ext ω
        simp [he]
      rw [this, measure_univ]
    rw [hh, withDensity_absolutelyContinuous volume h (diagonal_null hij)] at h1
    exact zero_ne_one h1

namespace RepeatedDemo

/-- Standard normal scalars. -/
noncomputable def g (_ : ℕ) (v : FVal) : FVal := match normalLogprob v (.fin 0) (.fin 1) with | .ok l => l | .error _ => .nan

noncomputable def comp (m : ℕ) : MixComp := ⟨[1], fun _ vs => .ok (vs.map (g m))⟩

theorem g_dens (m : ℕ) : (fun x : ℝ => (g m (.fin x)).toDens) = gaussianPDF 0 (1 ^ 2 : ℝ).toNNReal := by
  funext x
  have h := normal_eval x 0 one_pos
  have hd : (g m (.fin x)).toDens = dens (normalLogprob (.fin x) (.fin 0) (.fin 1)) := by
    simp only [g, h, dens]
  rw [hd, h, dens_log (gaussianPDFReal_pos _ _ _ (toNNReal_sq_ne one_pos))]; rfl

theorem lp_comp : ∀ m (h : m < [comp 0, comp 1, comp 2].length) ps vs, ps.length = vs.length → ([comp 0, comp 1, comp 2][m]).lp ps vs = .ok (vs.map (g m)) := by
  intro m h ps vs _
  have : m = 0 ∨ m = 1 ∨ m = 2 := by simp at h; omega
  rcases this with rfl | rfl | rfl <;> rfl

/-- The components 2 and 0 of three. -/
example (empty : List ℕ → FVal) : (Measure.infinitePi (fun _ : ℕ => gaussianReal 0 (1 ^ 2 : ℝ).toNNReal)).map (fun ω i => ω (![2, 0] i)) =
    volume.withDensity fun z => dens (arrayJoint (arrayMixtureLogprob none [.adv (idxArr ![2, 0])] [comp 0, comp 1, comp 2] empty (vecArr z))) :=
  C86_distinct_partial (P := Measure.infinitePi (fun _ : ℕ => gaussianReal 0 (1 ^ 2 : ℝ).toNNReal)) (X := fun k ω => ω k) (fun k => measurable_pi_apply k)
    (iIndepFun_infinitePi (X := fun _ x => x) fun _ => measurable_id) (comps := [comp 0, comp 1, comp 2]) (g := g) (by simp [comp]) (by simp) lp_comp
    (fun m _ => by rw [g_dens]; exact measurable_gaussianPDF _ _)
    (fun m _ => by rw [Measure.infinitePi_map_eval, g_dens, gaussianReal_of_var_ne_zero _ (toNNReal_sq_ne one_pos)])
    (I := ![2, 0]) (by decide) (by decide) empty

/-- The component 1 twice. -/
example (empty : List ℕ → FVal) (h : (Fin 2 → ℝ) → ENNReal) :
    (Measure.infinitePi (fun _ : ℕ => gaussianReal 0 (1 ^ 2 : ℝ).toNNReal)).map (fun ω i => ω (![1, 1] i)) ≠ volume.withDensity h :=
  (C86_repeated_wrong (P := Measure.infinitePi (fun _ : ℕ => gaussianReal 0 (1 ^ 2 : ℝ).toNNReal)) (X := fun k ω => ω k) (fun k => measurable_pi_apply k)
    (comps := [comp 0, comp 1, comp 2]) (g := g) (by simp [comp]) (by simp) lp_comp (I := ![1, 1]) (by decide) (i := 0) (j := 1) (by decide) rfl empty).2 h

end RepeatedDemo

end Verif
