import Verif.Props.ArrDerived
import Verif.Props.MixtureArray
import Mathlib.Probability.Independence.Basic

/-! # C108: indexed stacks of array variables in models -/

namespace Verif.ArrGraph
open Verif Cond MeasureTheory ProbabilityTheory Set

variable {Di : Type}

theorem select_inRange {idx : List Index} {shape : List ℕ} (hsh : shape ≠ []) (hasc : ∀ i ∈ idx, i.Ascending) {R : Arr (List ℕ)} (h : npSelect idx shape = .ok R) {c : List ℕ}
    (hc : InRange c R.shape) : InRange (R.get c) shape := by
  obtain ⟨adv, -, h2, -, h4, h5, -⟩ := expand_spec hsh hasc h
  have h := wrap_inRange (rest := adv.map fun a => a.get c) (by rw [List.forall₂_map_left_iff]; exact h4 c hc)
  rw [List.zipWith_map_left] at h
  rw [h5 c hc]
  exact h

/-- Choosing different ones of independent variables. -/
theorem pi_select {ι κ : Type} [Fintype ι] [Fintype κ] {μ : ι → Measure ℝ} [∀ i, IsProbabilityMeasure (μ i)] {e : κ → ι} (he : Function.Injective e) :
    (Measure.pi μ).map (fun x j => x (e j)) = Measure.pi fun j => μ (e j) := by
  have hind : iIndepFun (fun i (x : ι → ℝ) => x i) (Measure.pi μ) := iIndepFun_pi (X := fun _ x => x) fun _ => aemeasurable_id
  rw [(hind.precomp he).map_fun_eq_pi_map fun j => (measurable_pi_apply _).aemeasurable]
  congr 1
  funext j
  exact (measurePreserving_eval μ (e j)).map_eq

theorem mixtureComponents_eq (elem : Di → FVal → List FVal → Except Err FVal) (S : List ℕ) : ∀ cps : List (Di × List (Arr FVal)),
    mixtureComponents elem S (cps.map fun c => (c.1, c.2.length)) (cps.map Prod.snd).flatten = cps.map fun c => ⟨1 :: S, componentLogprob (elem c.1) c.2⟩
  | [] => rfl
  | (d, q) :: cps => by
    rw [List.map_cons, List.map_cons, List.map_cons, List.flatten_cons, mixtureComponents, List.take_left' rfl, List.drop_left' rfl, mixtureComponents_eq elem S cps]

theorem componentLogprob_ok {k : FVal → List FVal → Except Err FVal} {q : List (Arr FVal)} {g : List ℕ → FVal → FVal} : ∀ {ps : List (List ℕ)} {vs : List FVal}, ps.length = vs.length →
    (∀ p ∈ ps, ∀ v, k v (paramsAt q p.tail) = .ok (g p v)) → componentLogprob k q ps vs = .ok (List.zipWith g ps vs)
  | [], [], _, _ => rfl
  | [], _ :: _, h, _ => by simp at h
  | _ :: _, [], h, _ => by simp at h
  | p :: ps, v :: vs, h, hk => by
    have ih := componentLogprob_ok (k := k) (q := q) (g := g) (ps := ps) (vs := vs) (by simpa using h) fun p hp => hk p (by simp [hp])
    rw [componentLogprob] at ih ⊢
    have h1 : k v (q.map fun a => entryAt a p.tail) = .ok (g p v) := hk p (by simp) v
    rw [List.zip_cons_cons, List.mapM_cons, h1, ih]
    rfl

theorem reals_at {s : List ℕ} (x : Fin (entries s) → ℝ) {c : List ℕ} (hc : InRange c s) : ∃ h : (allCoords s).idxOf c < entries s, (reals s x).get c = x ⟨_, h⟩ := by
  have h : (allCoords s).idxOf c < entries s := List.idxOf_lt_length_iff.2 (mem_allCoords.2 hc)
  exact ⟨h, by simp only [reals]; rw [dif_pos h]⟩

/-- The law of different elements of an array with independent entries. -/
theorem select_law {s : List ℕ} {R : Arr (List ℕ)} {law : List ℕ → Measure ℝ} (hp : ∀ c, InRange c s → IsProbabilityMeasure (law c)) (hRin : ∀ c, InRange c R.shape → InRange (R.get c) s)
    (hinj : ∀ c c', InRange c R.shape → InRange c' R.shape → R.get c = R.get c' → c = c') :
    ((Measure.pi fun k : Fin (entries s) => law (coord k)).map fun x (j : Fin (entries R.shape)) => (reals s x).get (R.get (coord j))) = Measure.pi fun j => law (R.get (coord j)) := by
  set e : Fin (entries R.shape) → Fin (entries s) := fun j => ⟨(allCoords s).idxOf (R.get (coord j)), (reals_at (fun _ => 0) (hRin _ (coord_inRange j))).1⟩ with he
  have hce : ∀ j, coord (e j) = R.get (coord j) := fun j => List.getElem_idxOf (e j).2
  have hei : Function.Injective e := fun j j' h => by
    have h1 := congrArg coord h
    rw [hce, hce] at h1
    have h2 := hinj _ _ (coord_inRange j) (coord_inRange j') h1
    have h3 := idxOf_coord j
    rw [h2, idxOf_coord j'] at h3
    exact Fin.ext h3.symm
  have hpk : ∀ k : Fin (entries s), IsProbabilityMeasure (law (coord k)) := fun k => hp _ (coord_inRange k)
  have e1 : (fun (x : Fin (entries s) → ℝ) (j : Fin (entries R.shape)) => (reals s x).get (R.get (coord j))) = fun x j => x (e j) := by
    funext x j
    exact (reals_at x (hRin _ (coord_inRange j))).2
  rw [e1, pi_select hei]
  simp only [hce]

section
variable (kernel cdf : Di → Arr FVal → List (Arr FVal) → Except Err (Arr FVal)) (elem : Di → FVal → List FVal → Except Err FVal) (empty : List ℕ → FVal)

/-- **C108** (mixtures) Arrays of shape `S` of independent random numbers, stacked along a new first axis and indexed along it by an array of whole numbers that are not negative, which may be the values of other
variables of the model, and along the other axes by ascending slices, `newaxis` and integer arrays, at least one index being an array of one or more dimensions: if no element is selected twice, `exp` of the joint log-probability is the joint density of the selected elements.
`law (k :: rs)` is the law of the element `rs` of component `k`. -/
theorem C108_mixture {S : List ℕ} {cps : List (Di × List (Arr FVal))} (hne : cps ≠ []) {law : List ℕ → Measure ℝ}
    (hok : ∀ m (h : m < cps.length) rs, InRange rs S → ∀ v, ∃ y, elem cps[m].1 v (paramsAt cps[m].2 rs) = .ok y)
    (hp : ∀ c, InRange c (cps.length :: S) → IsProbabilityMeasure (law c))
    (hm : ∀ m (h : m < cps.length) rs, InRange rs S → Measurable fun x : ℝ => dens (elem cps[m].1 (.fin x) (paramsAt cps[m].2 rs)))
    (hl : ∀ m (h : m < cps.length) rs, InRange rs S → law (m :: rs) = volume.withDensity fun x => dens (elem cps[m].1 (.fin x) (paramsAt cps[m].2 rs)))
    {I : Arr FVal} (hI : ∀ c, InRange c I.shape → 0 ≤ toIndex (I.get c)) {rest : List Index} (hadv : Advanced (.adv (I.map toIndex) :: rest))
    (hasc : ∀ i ∈ rest, i.Ascending) {R : Arr (List ℕ)} (hR : npSelect (.adv (I.map toIndex) :: rest) (cps.length :: S) = .ok R) (hinj : ∀ c c', InRange c R.shape → InRange c' R.shape → R.get c = R.get c' → c = c') :
    GoodAt (numbers R.shape) (derivedKernel kernel cdf elem empty (.mixture S (cps.map fun c => (c.1, c.2.length)) rest))
      ((Measure.pi fun k : Fin (entries (cps.length :: S)) => law (coord k)).map fun x (j : Fin (entries R.shape)) => (reals (cps.length :: S) x).get (R.get (coord j))) (Measure.pi fun _ => volume)
      (I :: (cps.map Prod.snd).flatten) := by
  have hRin : ∀ c, InRange c R.shape → InRange (R.get c) (cps.length :: S) := fun c hc => select_inRange (by simp) (fun i hi => by
    rcases List.mem_cons.1 hi with rfl | hi
    · trivial
    · exact hasc i hi) hR hc
  have hlaw := select_law hp hRin hinj
  rw [hlaw]
  -- the log-probability
  set f : ℕ → List ℕ → FVal → FVal := fun m p v => match (cps[m]?).map fun c => elem c.1 v (paramsAt c.2 p.tail) with | some (.ok y) => y | _ => .nan with hf
  have hfe : ∀ m (h : m < cps.length) rs, InRange rs S → ∀ v, elem cps[m].1 v (paramsAt cps[m].2 rs) = .ok (f m (0 :: rs) v) := fun m h rs hrs v => by
    obtain ⟨y, hy⟩ := hok m h rs hrs v
    simp only [hf, List.getElem?_eq_getElem h, Option.map_some, List.tail_cons, hy]
  set d : Fin (entries R.shape) → ℝ → ENNReal := fun j x => (f ((R.get (coord j)).headD 0) (0 :: (R.get (coord j)).tail) (.fin x)).toDens with hd
  have hdens : ∀ j, ∃ m rs, ∃ h : m < cps.length, InRange rs S ∧ R.get (coord j) = m :: rs ∧ d j = fun x => dens (elem cps[m].1 (.fin x) (paramsAt cps[m].2 rs)) := fun j => by
    have hin := hRin _ (coord_inRange j)
    rcases hr : R.get (coord j) with _ | ⟨m, rs⟩
    · rw [hr] at hin; cases hin
    · rw [hr] at hin
      cases hin with
      | cons h hrs =>
        refine ⟨m, rs, h, hrs, rfl, ?_⟩
        funext x
        rw [hfe m h rs hrs]
        simp only [hd, hr]
        rfl
  refine goodAt_pi (d := d) (fun j => hp _ (hRin _ (coord_inRange j))) (fun j => ?_) (fun j => ?_) fun x => ?_
  · obtain ⟨m, rs, h, hrs, -, h2⟩ := hdens j
    rw [h2]
    exact (hm m h rs hrs).aemeasurable
  · obtain ⟨m, rs, h, hrs, h1, h2⟩ := hdens j
    rw [h2, h1]
    exact hl m h rs hrs
  · obtain ⟨out, h1, h2, h3⟩ := C63_stack_partial (comps := cps.map fun c => ⟨1 :: S, componentLogprob (elem c.1) c.2⟩) (S := S) (f := f) (by simpa using hne)
      (fun c hc => by obtain ⟨c', -, rfl⟩ := List.mem_map.1 hc; rfl)
      (fun m h ps vs hl hps => by
        have h' : m < cps.length := by simpa using h
        simp only [List.getElem_map]
        refine componentLogprob_ok hl fun p hp v => ?_
        have hin := hps p hp
        cases hin with
        | @cons i _ rs _ hi hrs =>
          have hi0 : i = 0 := by omega
          subst hi0
          exact hfe m h' rs hrs v) (r := 0) (I := I.map toIndex) hI hadv hasc (R := R) (by simpa using hR) empty (numbers R.shape x)
    have hk : derivedKernel kernel cdf elem empty (.mixture S (cps.map fun c => (c.1, c.2.length)) rest) (numbers R.shape x) (I :: (cps.map Prod.snd).flatten) = .ok out := by
      simp only [derivedKernel, mixtureComponents_eq]
      exact h1
    rw [hk, dens_arrayJoint_ok h2]
    refine Finset.prod_congr rfl fun j _ => ?_
    obtain ⟨k, rs, h4, -, h5⟩ := h3 _ (coord_inRange j)
    rw [h5, numbers_get]
    simp only [hd, h4]
    rfl

end

end Verif.ArrGraph
