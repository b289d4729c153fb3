import Verif.Lemmas.ArrCategorical
import Verif.Spec.ArrCategorical
import Verif.Props.ArrMarkov

/-! # C113: arrays of categorical variables -/

namespace Verif.ArrGraph
open Verif FVal MeasureTheory

variable {B s : List ℕ} {K : ℕ} {q : List ℕ → List ℝ} {p : Arr FVal} {value : Arr ℤ}

theorem row_inRange {c : List ℕ} {i : ℕ} (hc : InRange c B) (hi : i < K) : InRange (c ++ [i]) (B ++ [K]) := List.rel_append hc (.cons hi .nil)

theorem rowAt_weights (h : HoldsWeights B K q p) {c : List ℕ} (hc : InRange c B) : rowAt K p c = (q c).map fin := by
  have hl := h.length c hc
  subst hl
  refine List.ext_getElem (by simp [rowAt]) fun i h1 h2 => ?_
  have hi : i < (q c).length := by simpa using h2
  simp only [rowAt, List.getElem_ofFn, List.getElem_map]
  rw [entryAt, h.shape, project_self (row_inRange hc hi), h.get c hc i hi]

theorem normaliseArr_get (h : HoldsWeights B K q p) {c : List ℕ} (hc : InRange c B) {i : ℕ} (hi : i < K) :
    (normaliseArr p).get (c ++ [i]) = fin (categoricalMass (q c) i) := by
  have hl := h.length c hc
  simp only [normaliseArr, h.shape, List.getLastD_concat, List.dropLast_concat]
  rw [rowAt_weights h hc, fsum_map_fin, h.get c hc i (by omega), div_fin _ (h.pos c hc).ne', categoricalMass, List.getD_eq_getElem _ _ (by omega)]

theorem mass_range (h : HoldsWeights B K q p) {c : List ℕ} (hc : InRange c B) {i : ℕ} (hi : i < K) : 0 ≤ categoricalMass (q c) i ∧ categoricalMass (q c) i ≤ 1 := by
  have hl := h.length c hc
  have hp := h.pos c hc
  rw [categoricalMass, List.getD_eq_getElem _ _ (by omega)]
  exact ⟨div_nonneg (h.nonneg c hc _ (List.getElem_mem _)) hp.le, (div_le_one hp).2 (List.single_le_sum (h.nonneg c hc) _ (List.getElem_mem _))⟩

theorem weights_check (h : HoldsWeights B K q p) :
    (∀ c ∈ allCoords (normaliseArr p).shape, ge ((normaliseArr p).get c) 0) ∧ ∀ c ∈ allCoords (normaliseArr p).shape, le ((normaliseArr p).get c) 1 := by
  have key : ∀ c ∈ allCoords (normaliseArr p).shape, ∃ m : ℝ, 0 ≤ m ∧ m ≤ 1 ∧ (normaliseArr p).get c = fin m := by
    intro c hc
    rw [show (normaliseArr p).shape = B ++ [K] from h.shape, mem_allCoords_row] at hc
    obtain ⟨hne, h1, h2⟩ := hc
    rw [mem_allCoords] at h1
    have e : c = c.dropLast ++ [c.getLastD 0] := by
      rw [List.getLastD_eq_getLast?, List.getLast?_eq_some_getLast hne, Option.getD_some, List.dropLast_append_getLast]
    refine ⟨_, (mass_range h h1 h2).1, (mass_range h h1 h2).2, ?_⟩
    conv_lhs => rw [e]
    exact normaliseArr_get h h1 h2
  constructor <;> intro c hc <;> obtain ⟨m, h0, h1, e⟩ := key c hc <;> rw [e]
  · simpa using h0
  · simpa using h1

theorem select_mask {v : ℤ} {m : ℕ → ℝ} {j : ℕ} (hv : v < K) (hj : 0 ≤ v → (j : ℤ) = v) : switch (0 ≤ v ∧ v < K) (log (fin (m j))) ninf = log (fin (onNat m v)) := by
  rcases lt_or_ge v 0 with h | h
  · rw [switch_neg (by omega), onNat, if_neg (by omega)]
    simp
  · rw [switch_pos ⟨h, hv⟩, onNat, if_pos h, ← hj h, Int.toNat_natCast]

theorem ndim_weights (h : HoldsWeights B K q p) : (normaliseArr p).ndim = B.length + 1 := by
  show p.shape.length = _
  rw [h.shape]; simp

/-- The array selected from the probabilities decides the log-probability. -/
theorem categoricalArr_of_select (h : HoldsWeights B K q p) {a : Arr FVal} (ha : selectProb (paddedValue value (normaliseArr p)) (normaliseArr p) = .ok a) :
    categoricalArr value p = .ok (maskOutside K (paddedValue value (normaliseArr p)) a) := by
  simp only [categoricalArr, ha]
  rw [if_pos (weights_check h), show (normaliseArr p).shape = B ++ [K] from h.shape, List.getLastD_concat]

/-- One probability vector. -/
theorem categoricalArr_vector (h : HoldsWeights [] K q p) (hv : ∀ c ∈ allCoords value.shape, -K ≤ value.get c ∧ value.get c < K) :
    ∃ f, categoricalArr value p = .ok ⟨value.shape, f⟩ ∧ ∀ c ∈ allCoords value.shape, f c = log (fin (massAt [] q value c)) := by
  have hn : ¬ 1 < (normaliseArr p).ndim := by rw [ndim_weights h]; simp
  have hpv : paddedValue value (normaliseArr p) = value := if_neg hn
  obtain ⟨f, hf, hg⟩ := lookup_ok (K := K) (s := value.shape) (idx := value.get) (get := fun _ j => (normaliseArr p).get [j]) hv
  have hsel : selectProb (paddedValue value (normaliseArr p)) (normaliseArr p) = .ok ⟨value.shape, f⟩ := by
    rw [hpv, selectProb, if_neg hn, show (normaliseArr p).shape = [] ++ [K] from h.shape, List.getLastD_concat, hf]
  refine ⟨_, categoricalArr_of_select h hsel, fun c hc => ?_⟩
  obtain ⟨j, hj, hjv, e⟩ := hg c hc
  have hc' := mem_allCoords.1 hc
  simp only [hpv]
  rw [project_self hc', massAt, project_self hc', show project c [] = [] by simp [project], e, show [j] = [] ++ [j] from rfl, normaliseArr_get h .nil hj]
  exact select_mask (hv c hc).2 hjv

/-- A batch of probability vectors, and values with at least as many axes as the array of the vectors: what is looked up. -/
theorem select_wide {N : ℕ} {I s' : List ℕ} {get : List ℕ → ℤ} (hB : B ≠ []) (h : HoldsWeights B K q p) (hBI : B.length ≤ I.length)
    (hs' : bshape [List.replicate (I.length - B.length) 1 ++ B, I] = some s') :
    paddedValue ⟨N :: I, get⟩ (normaliseArr p) = ⟨N :: I, get⟩ ∧
    selectProb (paddedValue ⟨N :: I, get⟩ (normaliseArr p)) (normaliseArr p) = lookup K (N :: s') (fun c => get (c.headD 0 :: project c.tail I))
      fun c j => (lastToFront (padLeft (I.length - B.length) (normaliseArr p))).get (j :: project c.tail (List.replicate (I.length - B.length) 1 ++ B)) := by
  have hn : 1 < (normaliseArr p).ndim := by rw [ndim_weights h]; have := List.length_pos_of_ne_nil hB; omega
  have hpv : paddedValue ⟨N :: I, get⟩ (normaliseArr p) = ⟨N :: I, get⟩ := by
    rw [paddedValue, if_pos hn, ndim_weights h, Arr.ndim]
    simp only [List.length_cons]
    rw [show B.length + 1 - (I.length + 1) = 0 by omega]
    simp [padLeft]
  refine ⟨hpv, ?_⟩
  rw [hpv, selectProb, if_pos hn, ndim_weights h, Arr.ndim]
  simp only [List.length_cons]
  rw [show I.length + 1 - (B.length + 1) = I.length - B.length by omega]
  have hsh : (lastToFront (padLeft (I.length - B.length) (normaliseArr p))).shape = K :: (List.replicate (I.length - B.length) 1 ++ B) := by
    simp only [lastToFront, padLeft, show (normaliseArr p).shape = B ++ [K] from h.shape, ← List.append_assoc, List.getLastD_concat, List.dropLast_concat]
  simp only [takeAlongAxis, hsh]
  rw [if_pos (by simp; omega)]
  simp only [hs']

theorem wide_coords {N : ℕ} {I s' : List ℕ} (hBI : B.length ≤ I.length) (hs : bshape [N :: I, B] = some (N :: s'))
    (hs' : bshape [List.replicate (I.length - B.length) 1 ++ B, I] = some s') {c : List ℕ} (hc : c ∈ allCoords (N :: s')) :
    InRange (c.headD 0 :: project c.tail I) (N :: I) ∧ project c (N :: I) = c.headD 0 :: project c.tail I ∧
      project c B = project c.tail B ∧ InRange (project c B) B ∧ c.tail.length = I.length := by
  have hs'l : s'.length = I.length := by
    rw [bshape_some] at hs'
    rw [hs'.1, maxDims_pair]; simp; omega
  have hc := mem_allCoords.1 hc
  rcases c with _ | ⟨n, c⟩
  · cases hc
  rcases hc with _ | ⟨hn, hc⟩
  have hcl : c.length = I.length := hc.length_eq.trans hs'l
  refine ⟨.cons hn (project_inRange hs' (by simp) hc), project_cons_same hcl.symm hn, project_cons_short (by omega), ?_, hcl⟩
  exact project_inRange hs (by simp) (.cons hn hc)

theorem categoricalArr_wide (hB : B ≠ []) (h : HoldsWeights B K q p) (hs : bshape [value.shape, B] = some s) (hl : B.length < value.shape.length)
    (hv : ∀ c ∈ allCoords value.shape, -K ≤ value.get c ∧ value.get c < K) :
    ∃ f, categoricalArr value p = .ok ⟨s, f⟩ ∧ ∀ c ∈ allCoords s, f c = log (fin (massAt B q value c)) := by
  obtain ⟨sh, get⟩ := value
  rcases sh with _ | ⟨N, I⟩
  · simp at hl
  have hBI : B.length ≤ I.length := by simpa [Nat.lt_succ_iff] using hl
  obtain ⟨s', rfl, hs'⟩ := bshape_cons hBI hs
  obtain ⟨hpv, hsel⟩ := select_wide (N := N) (get := get) hB h hBI hs'
  have hval := fun c (hc : c ∈ allCoords (N :: s')) => wide_coords hBI hs hs' hc
  obtain ⟨f, hf, hg⟩ := lookup_ok (K := K) (s := N :: s') (idx := fun c => get (c.headD 0 :: project c.tail I))
    (get := fun c j => (lastToFront (padLeft (I.length - B.length) (normaliseArr p))).get (j :: project c.tail (List.replicate (I.length - B.length) 1 ++ B)))
    fun c hc => hv _ (mem_allCoords.2 (hval c hc).1)
  refine ⟨_, categoricalArr_of_select h (hsel.trans hf), fun c hc => ?_⟩
  obtain ⟨j, hj, hjv, e⟩ := hg c hc
  obtain ⟨h1, h2, h3, h4, h5⟩ := hval c hc
  have hpl : (List.replicate (I.length - B.length) 1 ++ B).length = I.length := by simp; omega
  simp only [hpv, massAt]
  rw [h2, e]
  simp only [lastToFront, padLeft, List.tail_cons, List.headD_cons]
  rw [List.drop_append_of_le_length (by rw [project_length (by omega), hpl]; omega), project_drop (by omega), ← h3, normaliseArr_get h h4 hj]
  exact select_mask (hv _ (mem_allCoords.2 h1)).2 hjv

/-- A batch of probability vectors, and values with fewer axes than the array of the vectors: what is looked up. -/
theorem select_narrow {V : List ℕ} {get : List ℕ → ℤ} (hB : B ≠ []) (h : HoldsWeights B K q p) (hs : bshape [V, B] = some s) (hl : V.length ≤ B.length) :
    paddedValue ⟨V, get⟩ (normaliseArr p) = ⟨1 :: (List.replicate (B.length - V.length) 1 ++ V), fun c => get (c.drop (B.length - V.length + 1))⟩ ∧
    selectProb (paddedValue ⟨V, get⟩ (normaliseArr p)) (normaliseArr p) =
      lookup K (1 :: s) (fun c => get ((c.headD 0 :: project c.tail (List.replicate (B.length - V.length) 1 ++ V)).drop (B.length - V.length + 1)))
        fun c j => (lastToFront (normaliseArr p)).get (j :: project c.tail B) := by
  have hn : 1 < (normaliseArr p).ndim := by rw [ndim_weights h]; have := List.length_pos_of_ne_nil hB; omega
  set k := B.length - V.length with hk
  have hs' : bshape [B, List.replicate k 1 ++ V] = some s := by rw [bshape_pad_right (by omega)]; exact hs
  have hpv : paddedValue ⟨V, get⟩ (normaliseArr p) = ⟨1 :: (List.replicate k 1 ++ V), fun c => get (c.drop (k + 1))⟩ := by
    rw [paddedValue, if_pos hn, ndim_weights h, Arr.ndim]
    simp only [padLeft]
    rw [show B.length + 1 - V.length = k + 1 by omega, List.replicate_succ, List.cons_append]
  refine ⟨hpv, ?_⟩
  rw [hpv, selectProb, if_pos hn, ndim_weights h, Arr.ndim]
  simp only [List.length_cons, List.length_append, List.length_replicate]
  rw [show k + V.length + 1 - (B.length + 1) = 0 by omega]
  have hp0 : padLeft 0 (normaliseArr p) = normaliseArr p := rfl
  have hsh : (lastToFront (normaliseArr p)).shape = K :: B := by
    simp only [lastToFront, show (normaliseArr p).shape = B ++ [K] from h.shape, List.getLastD_concat, List.dropLast_concat]
  simp only [hp0, takeAlongAxis, hsh]
  rw [if_pos (by simp; omega)]
  simp only [hs']

theorem narrow_coords {V : List ℕ} (hs : bshape [V, B] = some s) (hl : V.length ≤ B.length) {c : List ℕ} (hc : InRange c s) :
    InRange (project c V) V ∧ (project c (List.replicate (B.length - V.length) 1 ++ V)).drop (B.length - V.length) = project c V ∧ InRange (project c B) B ∧ c.length = B.length := by
  have hsl : s.length = B.length := by
    have := hs
    rw [bshape_some] at this
    rw [this.1, maxDims_pair]; omega
  have hcl := hc.length_eq
  exact ⟨project_inRange hs (by simp) hc, project_drop (by omega), project_inRange hs (by simp) hc, by omega⟩

theorem categoricalArr_narrow (hB : B ≠ []) (h : HoldsWeights B K q p) (hs : bshape [value.shape, B] = some s) (hl : value.shape.length ≤ B.length)
    (hv : ∀ c ∈ allCoords value.shape, -K ≤ value.get c ∧ value.get c < K) :
    ∃ f, categoricalArr value p = .ok ⟨1 :: s, f⟩ ∧ ∀ c ∈ allCoords s, f (0 :: c) = log (fin (massAt B q value c)) := by
  obtain ⟨V, get⟩ := value
  replace hl : V.length ≤ B.length := hl
  obtain ⟨hpv, hsel⟩ := select_narrow (get := get) hB h hs hl
  obtain ⟨f, hf, hg⟩ := lookup_ok (K := K) (s := 1 :: s) (idx := fun c => get ((c.headD 0 :: project c.tail (List.replicate (B.length - V.length) 1 ++ V)).drop (B.length - V.length + 1)))
    (get := fun c j => (lastToFront (normaliseArr p)).get (j :: project c.tail B)) fun c hc => by
      rcases c with _ | ⟨n, c⟩
      · cases mem_allCoords.1 hc
      rcases mem_allCoords.1 hc with _ | ⟨hn, hc⟩
      have hval := narrow_coords hs hl hc
      rw [List.drop_succ_cons, List.tail_cons, hval.2.1]
      exact hv _ (mem_allCoords.2 hval.1)
  refine ⟨_, categoricalArr_of_select h (hsel.trans hf), fun c hc => ?_⟩
  have hc1 : 0 :: c ∈ allCoords (1 :: s) := mem_allCoords.2 (.cons one_pos (mem_allCoords.1 hc))
  have hcr := mem_allCoords.1 hc
  obtain ⟨j, hj, hjv, e⟩ := hg _ hc1
  obtain ⟨h1, h2, h3, h4⟩ := narrow_coords hs hl hcr
  simp only [hpv, massAt]
  rw [project_cons_same (by simp; omega) one_pos, List.drop_succ_cons, h2, e]
  rw [List.headD_cons, List.tail_cons, List.drop_succ_cons, h2] at hjv
  simp only [lastToFront, List.tail_cons, List.headD_cons]
  rw [normaliseArr_get h h3 hj]
  exact select_mask (hv _ (mem_allCoords.2 h1)).2 hjv

/-- **C113** For every array of probability vectors (weights) `p` of shape `B + (K,)` and every array of integer values whose shape broadcasts with `B` to `s`: if there is one vector for all
values, or the values have more axes than `B`, the categorical log-probability is an array of shape `s` that holds, at every position, the logarithm of the normalised weight of the value there (`-inf`
for negative values).  Missing: values with at most as many axes as `B`, where the shape is another one (`C113_extra_axis_wrong`), and values outside of `-K .. K-1` (`C113_out_of_range`). -/
theorem C113_categorical_array_partial (h : HoldsWeights B K q p) (hs : bshape [value.shape, B] = some s) (hl : B = [] ∨ B.length < value.shape.length)
    (hv : ∀ c ∈ allCoords value.shape, -K ≤ value.get c ∧ value.get c < K) :
    ∃ f, categoricalArr value p = .ok ⟨s, f⟩ ∧ ∀ c, InRange c s → f c = log (fin (massAt B q value c)) := by
  by_cases hB : B = []
  · subst hB
    rw [bshape_nil_right, Option.some_inj] at hs
    subst hs
    obtain ⟨f, h1, h2⟩ := categoricalArr_vector h hv
    exact ⟨f, h1, fun c hc => h2 c (mem_allCoords.2 hc)⟩
  · obtain ⟨f, h1, h2⟩ := categoricalArr_wide hB h hs (hl.resolve_left hB) hv
    exact ⟨f, h1, fun c hc => h2 c (mem_allCoords.2 hc)⟩

/-- **C113, refuted for batches**: with a batch of probability vectors and at most as many axes in the values, as when there is exactly one value for each vector, the log-probability has an additional
axis of length one in front.  The entries are the right ones. -/
theorem C113_extra_axis_wrong (hB : B ≠ []) (h : HoldsWeights B K q p) (hs : bshape [value.shape, B] = some s) (hl : value.shape.length ≤ B.length)
    (hv : ∀ c ∈ allCoords value.shape, -K ≤ value.get c ∧ value.get c < K) :
    ∃ f, categoricalArr value p = .ok ⟨1 :: s, f⟩ ∧ ∀ c, InRange c s → f (0 :: c) = log (fin (massAt B q value c)) := by
  obtain ⟨f, h1, h2⟩ := categoricalArr_narrow hB h hs hl hv
  exact ⟨f, h1, fun c hc => h2 c (mem_allCoords.2 hc)⟩

/-- **C113, refuted for values out of range**: a single value outside of `-K .. K-1`, anywhere in the array, and there is no log-probability for any position. -/
theorem C113_out_of_range (h : HoldsWeights B K q p) (hs : bshape [value.shape, B] = some s) {c : List ℕ} (hc : InRange c s)
    (hv : value.get (project c value.shape) < -K ∨ K ≤ value.get (project c value.shape)) : categoricalArr value p = .error .indexError := by
  suffices hsel : selectProb (paddedValue value (normaliseArr p)) (normaliseArr p) = .error .indexError by simp only [categoricalArr, hsel]
  by_cases hB : B = []
  · subst hB
    rw [bshape_nil_right, Option.some_inj] at hs
    subst hs
    have hn : ¬ 1 < (normaliseArr p).ndim := by rw [ndim_weights h]; simp
    rw [project_self hc] at hv
    rw [paddedValue, if_neg hn, selectProb, if_neg hn, show (normaliseArr p).shape = [] ++ [K] from h.shape, List.getLastD_concat]
    exact lookup_error ⟨c, mem_allCoords.2 hc, hv⟩
  obtain ⟨V, get⟩ := value
  rcases Nat.lt_or_ge B.length V.length with hl | hl
  · rcases V with _ | ⟨N, I⟩
    · simp at hl
    have hBI : B.length ≤ I.length := by simpa [Nat.lt_succ_iff] using hl
    obtain ⟨s', rfl, hs'⟩ := bshape_cons hBI hs
    rw [(select_wide (N := N) (get := get) hB h hBI hs').2]
    have hval := wide_coords hBI hs hs' (mem_allCoords.2 hc)
    refine lookup_error ⟨c, mem_allCoords.2 hc, ?_⟩
    rw [← hval.2.1]
    exact hv
  · rw [(select_narrow (get := get) hB h hs hl).2]
    have hval := narrow_coords hs hl hc
    refine lookup_error ⟨0 :: c, mem_allCoords.2 (.cons one_pos hc), ?_⟩
    rw [List.tail_cons, List.drop_succ_cons, hval.2.1]
    exact hv

/-- Either way the same numbers are added up. -/
theorem dens_extra_axis {f : List ℕ → FVal} : dens (arrayJoint (.ok ⟨1 :: s, f⟩)) = dens (arrayJoint (.ok ⟨s, fun c => f (0 :: c)⟩)) := by
  have : (allCoords (1 :: s)).map f = (allCoords s).map fun c => f (0 :: c) := by
    simp [allCoords, List.range_succ, Function.comp_def]
  simp only [arrayJoint, this]

/-- The exponential of the sum of the log-probabilities is the product of the probabilities, whatever the shape. -/
theorem dens_categoricalArr (h : HoldsWeights B K q p) (hs : bshape [value.shape, B] = some s) (hv : ∀ c ∈ allCoords value.shape, -K ≤ value.get c ∧ value.get c < K) :
    dens (arrayJoint (categoricalArr value p)) = ∏ k : Fin (entries s), ENNReal.ofReal (massAt B q value (coord k)) := by
  have hm : ∀ k : Fin (entries s), (log (fin (massAt B q value (coord k)))).toDens = ENNReal.ofReal (massAt B q value (coord k)) := by
    intro k
    have hB := project_inRange hs (t := B) (by simp) (coord_inRange k)
    have hV := hv _ (mem_allCoords.2 (project_inRange hs (t := value.shape) (by simp) (coord_inRange k)))
    have h0 : 0 ≤ massAt B q value (coord k) := by
      rw [massAt, onNat]
      split_ifs with h'
      · exact (mass_range h hB (by omega)).1
      · exact le_rfl
    exact dens_log_nonneg h0
  by_cases hl : B = [] ∨ B.length < value.shape.length
  · obtain ⟨f, h1, h2⟩ := C113_categorical_array_partial h hs hl hv
    rw [h1, dens_arrayJoint_ok (s := s) rfl]
    exact Finset.prod_congr rfl fun k _ => by rw [← hm k]; simp only [h2 _ (coord_inRange k)]
  · push Not at hl
    obtain ⟨f, h1, h2⟩ := C113_extra_axis_wrong hl.1 h hs hl.2 hv
    rw [h1, dens_extra_axis, dens_arrayJoint_ok (s := s) rfl]
    exact Finset.prod_congr rfl fun k _ => by rw [← hm k]; simp only [h2 _ (coord_inRange k)]

/-- The integers an array of classes holds. -/
theorem classes_index {x : Fin (entries s) → Fin K} (k : Fin (entries s)) : toIndex ((classes s x).get (coord k)) = (x k : ℕ) := by
  rw [classes, numbers_get]
  exact Int.floor_natCast _

theorem dens_classes (h : HoldsWeights B K q p) (hs : bshape [s, B] = some s) (x : Fin (entries s) → Fin K) {v : Arr ℤ} (hsh : v.shape = s)
    (hv : ∀ k : Fin (entries s), v.get (coord k) = (x k : ℕ)) :
    dens (arrayJoint (categoricalArr v p)) = ∏ k, ENNReal.ofReal (categoricalMass (q (project (coord k) B)) (x k : ℕ)) := by
  rw [dens_categoricalArr (s := s) h (by rw [hsh]; exact hs)]
  · refine Finset.prod_congr rfl fun k _ => ?_
    rw [massAt, hsh, project_self (coord_inRange k), hv, onNat, if_pos (Int.natCast_nonneg _), Int.toNat_natCast]
  · intro c hc
    rw [hsh] at hc
    obtain ⟨k, hk, rfl⟩ := List.getElem_of_mem hc
    have h1 : v.get (allCoords s)[k] = (x ⟨k, hk⟩ : ℕ) := hv ⟨k, hk⟩
    have h2 := (x ⟨k, hk⟩).2
    rw [h1]
    constructor <;> omega

/-- **C113** (models) An array of categorical variables with independent entries, the probabilities possibly computed from other variables: the exponential of the joint log-probability is the joint
probability mass function of the entries, for every shape of the batch (the additional axis does not change the sum). -/
theorem C113_model (h : HoldsWeights B K q p) (hs : bshape [s, B] = some s) {P : Fin (entries s) → PMF (Fin K)}
    (hP : ∀ k i, P k i = ENNReal.ofReal (categoricalMass (q (project (coord k) B)) i)) :
    GoodAt (classes s (K := K)) categoricalKernel (Measure.pi fun k => (P k).toMeasure) (Measure.pi fun _ => Measure.count) [p] := by
  refine goodAt_pi (d := fun k => P k) (fun k => inferInstance) (fun k => (measurable_of_countable (P k)).aemeasurable) (fun k => toMeasure_count (P k)) fun x => ?_
  rw [categoricalKernel, dens_classes h hs x rfl fun k => classes_index k]
  exact Finset.prod_congr rfl fun k _ => (hP k (x k)).symm

/-! A batch of two probability vectors with three classes. -/

namespace Batch

/-- Weights, not normalised. -/
def weightRows : List ℕ → List ℝ
  | [0] => [1, 0, 3]
  | _ => [2, 2, 2]

/-- The weights as an array of shape `(2, 3)`. -/
noncomputable def weightArr : Arr FVal := ⟨[2, 3], fun c => .fin ((weightRows c.dropLast).getD (c.getLastD 0) 0)⟩

theorem weights : HoldsWeights [2] 3 weightRows weightArr where
  shape := rfl
  length c hc := by unfold weightRows; split <;> rfl
  get c hc i hi := by
    simp only [weightArr, List.dropLast_concat, List.getLastD_concat]
    rw [List.getD_eq_getElem _ _ hi]
  nonneg c hc x hx := by
    unfold weightRows at hx
    split at hx <;> simp at hx
    · rcases hx with rfl | rfl | rfl <;> norm_num
    · subst hx; norm_num
  pos c hc := by unfold weightRows; split <;> norm_num

/-- One value for each vector. -/
def one : Arr ℤ := ⟨[2], fun c => if c = [0] then 2 else -1⟩

/-- Four values for each vector. -/
def four : Arr ℤ := ⟨[4, 2], fun c => c.headD 0 - 2⟩

theorem one_range : ∀ c ∈ allCoords one.shape, -((3 : ℕ) : ℤ) ≤ one.get c ∧ one.get c < (3 : ℕ) := by
  intro c _
  simp only [one]
  split <;> norm_num

theorem four_range : ∀ c ∈ allCoords four.shape, -((3 : ℕ) : ℤ) ≤ four.get c ∧ four.get c < (3 : ℕ) := by decide

example := C113_categorical_array_partial (s := [4, 2]) weights (value := four) rfl (.inr (by decide)) four_range
example := C113_extra_axis_wrong (s := [2]) (by simp) weights (value := one) rfl (by decide) one_range
example := C113_out_of_range (s := [2]) weights (value := ⟨[2], fun _ => 3⟩) rfl (c := [1]) (.cons (by norm_num) .nil) (.inr (by norm_num))
example := dens_categoricalArr (s := [2]) weights (value := one) rfl one_range

theorem mass_sum (c : List ℕ) : ∑ i : Fin 3, ENNReal.ofReal (categoricalMass (weightRows c) i) = 1 := by
  have h0 : ∀ i : Fin 3, 0 ≤ categoricalMass (weightRows c) i := fun i => by
    unfold weightRows categoricalMass
    split <;> fin_cases i <;> norm_num
  rw [← ENNReal.ofReal_sum_of_nonneg fun i _ => h0 i, ← ENNReal.ofReal_one]
  congr 1
  unfold weightRows categoricalMass
  split <;> simp [Fin.sum_univ_three] <;> norm_num

/-- The laws. -/
noncomputable def P (k : Fin (entries [2])) : PMF (Fin 3) := PMF.ofFintype (fun i => ENNReal.ofReal (categoricalMass (weightRows (project (coord k) [2])) i)) (mass_sum _)

example := C113_model (s := [2]) weights rfl (P := P) fun _ _ => rfl

end Batch

/-! ### Multinomial variables -/

theorem multinomialArr_dens {b : List ℕ} {m : ℕ} {nA pA : Arr FVal} (hfit : bshape [b, nA.shape, pA.shape.dropLast] = some b) (hlast : pA.shape.getLast? = some m) {N : Fin (entries b) → ℕ}
    {P : Fin (entries b) → Fin m → ℝ} (hN : ∀ k, nA.get (project (coord k) nA.shape) = .fin (N k))
    (hP : ∀ (k : Fin (entries b)) (i : Fin m), pA.get (project (coord k ++ [(i : ℕ)]) pA.shape) = .fin (P k i)) (h0 : ∀ k i, 0 ≤ P k i) (h1 : ∀ k, ∑ i, P k i = 1)
    (x : Fin (entries b) → Fin m → ℤ) :
    dens (arrayJoint (multinomialArr (counts b m x) [nA, pA])) = ∏ k, ENNReal.ofReal (multinomialMass (N k) (P k) (x k)) := by
  have hsh : (counts b m x).shape = b ++ [m] := rfl
  rw [multinomialArr, hsh, List.dropLast_concat, hfit]
  simp only [List.getLastD_concat]
  rw [if_pos ⟨by simp, hlast⟩]
  refine (dens_entries _ b).trans (Finset.prod_congr rfl fun k _ => ?_)
  have e1 : rowAt m (counts b m x) (coord k) = List.ofFn fun i => fin (x k i : ℝ) := by rw [counts, rowAt_rows]; rfl
  have e2 : rowAt m pA (coord k) = List.ofFn fun i => fin (P k i) := by
    simp only [rowAt]
    congr 1
    funext i
    exact hP k i
  have e3 : entryAt nA (coord k) = fin (N k) := hN k
  rw [e1, e2, e3]
  exact (C39_multinomial_partial (N k) (h0 k) (h1 k)).mass (x k)

/-- **C39** (models) An array, of any shape, of multinomial vectors, with numbers of trials and probabilities that fit and may be computed from other variables: the exponential of the sum of its
log-probabilities is the joint probability mass function.  Missing: negative probabilities, which the check accepts (`C39_multinomial_accepts_negative`). -/
theorem C39_model_partial {b : List ℕ} {m : ℕ} {nA pA : Arr FVal} (hfit : bshape [b, nA.shape, pA.shape.dropLast] = some b) (hlast : pA.shape.getLast? = some m) {N : Fin (entries b) → ℕ}
    {P : Fin (entries b) → Fin m → ℝ} (hN : ∀ k, nA.get (project (coord k) nA.shape) = .fin (N k))
    (hP : ∀ (k : Fin (entries b)) (i : Fin m), pA.get (project (coord k ++ [(i : ℕ)]) pA.shape) = .fin (P k i)) (h0 : ∀ k i, 0 ≤ P k i) (h1 : ∀ k, ∑ i, P k i = 1) :
    GoodAt (counts b m) multinomialArr (Measure.pi fun k => Measure.count.withDensity fun x => ENNReal.ofReal (multinomialMass (N k) (P k) x)) (Measure.pi fun _ => Measure.count) [nA, pA] := by
  refine goodAt_pi (d := fun k x => ENNReal.ofReal (multinomialMass (N k) (P k) x)) (fun k => ⟨?_⟩) (fun k => (measurable_of_countable _).aemeasurable) (fun k => rfl)
    (multinomialArr_dens hfit hlast hN hP h0 h1)
  have hs := multinomialMass_hasSum (n := N k) (h1 k)
  rw [withDensity_apply _ MeasurableSet.univ, Measure.restrict_univ, lintegral_count, ← ENNReal.ofReal_tsum_of_nonneg (multinomialMass_nonneg (h0 k)) hs.summable, hs.tsum_eq, ENNReal.ofReal_one]

/-- Three vectors of counts, with different numbers of trials and common probabilities. -/
example : GoodAt (counts [3] 2) multinomialArr (Measure.pi fun k => Measure.count.withDensity fun x => ENNReal.ofReal (multinomialMass ((coord k).headD 0 + 4) ![1 / 4, 3 / 4] x))
    (Measure.pi fun _ => Measure.count) [⟨[3], fun c => .fin (c.headD 0 + 4)⟩, ⟨[2], fun c => if c = [0] then .fin (1 / 4) else .fin (3 / 4)⟩] := by
  refine C39_model_partial (b := [3]) rfl rfl (N := fun k => (coord k).headD 0 + 4) (P := fun _ => ![1 / 4, 3 / 4]) (fun k => ?_) (fun k i => ?_) (fun _ i => ?_) fun _ => ?_
  · rw [project_self (coord_inRange k)]
    simp
  · have hl : (coord k).length = 1 := (coord_inRange k).length_eq
    match hc : coord k, hl with
    | [a], _ => fin_cases i <;> simp [project]
  · fin_cases i <;> norm_num
  · simp [Fin.sum_univ_two]; norm_num

end Verif.ArrGraph
