import Verif.Spec.Selected
import Verif.Lemmas.Select
import Verif.Lemmas.Gather
import Verif.Lemmas.Broadcast
import Verif.Props.ArrDerivedMixture
import Verif.Props.ArrGraph

/-! # C126: indexed arrays of random numbers -/

namespace Verif.ArrGraph
open Verif Cond MeasureTheory ProbabilityTheory Set

variable {Di : Type}

/-! ## Selected elements are elements -/

theorem slice_inRange {start stop : Option ℤ} {step : ℤ} (hs : step ≠ 0) {n : ℕ} {i : ℕ} (hi : i < ((slicePositions start stop step n).map Int.toNat).length) :
    ((slicePositions start stop step n).map Int.toNat).getD i 0 < n := by
  rw [List.getD_eq_getElem _ _ hi, List.getElem_map]
  have h := (((C65_slice_positions start stop hs n).1 _).1 (List.getElem_mem (by simpa using hi))).1
  have h' := h.2
  omega

theorem pick_inRange {bc block : List ℕ} (hbc : InRange bc block) : ∀ {idx : List Index} {shape : List ℕ} {its : List Item} {bs : List ℕ}, items idx shape = .ok its →
    (∀ t ∈ its.filterMap Item.advShape, InRange (project bc t) t) → InRange bs ((its.filter Item.basic).map Item.len) → InRange (pick bc its bs) shape
  | [], [], its, bs, h, _, _ => by
    simp only [items] at h
    cases h
    exact .nil
  | [], n :: shape, its, bs, h, ha, hb => by
    simp only [items] at h
    obtain ⟨rest, h1, h2⟩ := bind_ok h
    cases h2
    simp only [List.filter_cons, Item.basic, if_true, List.map_cons, Item.len] at hb
    cases hb with
    | cons hlt hb =>
      refine .cons ?_ (pick_inRange hbc h1 (fun t ht => ha t (by simpa [Item.advShape] using ht)) hb)
      simp only [List.length_range] at hlt
      simp [List.getD_eq_getElem?_getD, hlt]
  | .newaxis :: idx, shape, its, bs, h, ha, hb => by
    simp only [items] at h
    obtain ⟨rest, h1, h2⟩ := bind_ok h
    cases h2
    simp only [List.filter_cons, Item.basic, if_true, List.map_cons, Item.len] at hb
    cases hb with
    | cons hlt hb =>
      have := pick_inRange hbc h1 (fun t ht => ha t (by simpa [Item.advShape] using ht)) hb
      exact this
  | .slice _ _ _ :: _, [], its, bs, h, _, _ => by simp only [items] at h; cases h
  | .adv _ :: _, [], its, bs, h, _, _ => by simp only [items] at h; cases h
  | .slice start stop step :: idx, n :: shape, its, bs, h, ha, hb => by
    simp only [items] at h
    split at h
    · cases h
    · rename_i hstep
      obtain ⟨rest, h1, h2⟩ := bind_ok h
      cases h2
      simp only [List.filter_cons, Item.basic, if_true, List.map_cons, Item.len] at hb
      cases hb with
      | cons hlt hb =>
        refine .cons (slice_inRange (fun h0 => hstep ?_) hlt) (pick_inRange hbc h1 (fun t ht => ha t (by simpa [Item.advShape] using ht)) hb)
        rcases step with _ | s
        · simp at h0
        · simp at h0; rw [h0]
  | .adv a :: idx, n :: shape, its, bs, h, ha, hb => by
    simp only [items] at h
    split at h
    · rename_i hin
      obtain ⟨rest, h1, h2⟩ := bind_ok h
      cases h2
      simp only [List.filter_cons, Item.basic, Bool.false_eq_true, if_false] at hb
      refine .cons ?_ (pick_inRange hbc h1 (fun t ht => ha t (by simp only [List.filterMap_cons, Item.advShape]; exact List.mem_cons_of_mem _ ht)) hb)
      have hr := hin _ (ha a.shape (by simp [Item.advShape, Arr.map]))
      show wrap n (a.get (project bc a.shape)) < n
      unfold wrap
      split <;> omega
    · cases h

/-- The coordinates that an index selects are coordinates of the array, whatever the index. -/
theorem npSelect_inRange {idx : List Index} {S : List ℕ} {R : Arr (List ℕ)} (h : npSelect idx S = .ok R) {c : List ℕ} (hc : InRange c R.shape) : InRange (R.get c) S := by
  rw [npSelect] at h
  obtain ⟨its, h1, h2⟩ := bind_ok h
  cases hb : bshape (its.filterMap Item.advShape) with
  | none => rw [hb] at h2; cases h2
  | some block =>
    rw [hb] at h2
    cases h2
    have hk : blockAt its ≤ ((its.filter Item.basic).map Item.len).length := by
      rw [List.length_map, ← List.countP_eq_length_filter]
      exact blockAt_le its
    set k := blockAt its
    set basics := (its.filter Item.basic).map Item.len
    have hc' : InRange c (basics.take k ++ block ++ basics.drop k) := hc
    have htk : (basics.take k).length = k := by simp [hk]
    have hbc : InRange ((c.drop k).take block.length) block := by
      have h3 := List.forall₂_take block.length (List.forall₂_drop k hc')
      rwa [List.append_assoc, List.drop_left' htk, List.take_left' rfl] at h3
    refine pick_inRange hbc h1 (fun t ht => project_inRange hb ht hbc) ?_
    have h4 := List.forall₂_take k hc'
    rw [List.append_assoc, List.take_left' htk] at h4
    have h5 := List.forall₂_drop (k + block.length) hc'
    rw [List.drop_left' (by simp [hk])] at h5
    have h6 : List.Forall₂ (· < ·) (c.take k ++ c.drop (k + block.length)) (basics.take k ++ basics.drop k) := List.rel_append (R := (· < ·)) h4 h5
    rwa [List.take_append_drop] at h6

/-- The number of the entry that is selected. -/
def pos {S : List ℕ} {R : Arr (List ℕ)} (hRin : ∀ c, InRange c R.shape → InRange (R.get c) S) (j : Fin (entries R.shape)) : Fin (entries S) :=
  ⟨(allCoords S).idxOf (R.get (coord j)), List.idxOf_lt_length_iff.2 (mem_allCoords.2 (hRin _ (coord_inRange j)))⟩

theorem coord_pos {S : List ℕ} {R : Arr (List ℕ)} (hRin : ∀ c, InRange c R.shape → InRange (R.get c) S) (j : Fin (entries R.shape)) : coord (pos hRin j) = R.get (coord j) := List.getElem_idxOf (pos hRin j).2

theorem selected_eq {S : List ℕ} {R : Arr (List ℕ)} (hRin : ∀ c, InRange c R.shape → InRange (R.get c) S) (x : Fin (entries S) → ℝ) : selected S R x = fun j => x (pos hRin j) := by
  funext j
  exact (reals_at x (hRin _ (coord_inRange j))).2

theorem pos_eq_iff {S : List ℕ} {R R' : Arr (List ℕ)} (h : ∀ c, InRange c R.shape → InRange (R.get c) S) (h' : ∀ c, InRange c R'.shape → InRange (R'.get c) S) (j : Fin (entries R.shape))
    (j' : Fin (entries R'.shape)) : pos h j = pos h' j' ↔ R.get (coord j) = R'.get (coord j') := by
  constructor
  · intro e
    rw [← coord_pos h, ← coord_pos h', e]
  · intro e
    exact Fin.ext (by simp only [pos, e])

theorem coord_injective {s : List ℕ} : Function.Injective (coord (s := s)) := fun j j' h => by
  have h1 := idxOf_coord j
  rw [h, idxOf_coord j'] at h1
  exact Fin.ext h1.symm

/-! ## The log-probability -/

theorem fillIndices_eq {es : List IndexEntry} {as : List (Arr FVal)} {idx : List Index} (h : Filled es as idx) (p : List (Arr FVal)) : fillIndices es (as ++ p) = .ok (idx, p) := by
  induction h with
  | nil => rfl
  | fixed i _ ih => rw [fillIndices, ih]
  | given z _ ih =>
    rw [List.cons_append, fillIndices, ih]
    have : (z.map (fun i : ℤ => FVal.fin i)).map toIndex = z := by
      simp only [Arr.map, toIndex, toReal, Int.floor_intCast]
    simp only [this]

theorem liftParams_fit (R : Arr (List ℕ)) (p : List (Arr FVal)) : Fit R.shape (liftParams R p) := by
  rw [Fit, bshape_cons_iff]
  intro t ht
  simp only [liftParams, List.map_map, List.mem_map, Function.comp_apply] at ht
  obtain ⟨a, -, rfl⟩ := ht
  exact fitsIn_refl _

theorem liftParams_at {R : Arr (List ℕ)} {c : List ℕ} (hc : InRange c R.shape) (p : List (Arr FVal)) : paramsAt (liftParams R p) c = paramsAt p (R.get c) := by
  simp only [paramsAt, liftParams, List.map_map]
  refine List.map_congr_left fun a _ => ?_
  simp only [Function.comp_apply, project_self hc]
  rfl

section
variable (kernel cdf : Di → Arr FVal → List (Arr FVal) → Except Err (Arr FVal)) (elem : Di → FVal → List FVal → Except Err FVal) (empty : List ℕ → FVal)

theorem index_kernel {es : List IndexEntry} {as : List (Arr FVal)} {idx : List Index} (hf : Filled es as idx) {S : List ℕ} {R : Arr (List ℕ)} (hR : npSelect idx S = .ok R) {d : Di}
    {k : FVal → List FVal → Except Err FVal} (hk : ∀ v q, kernel d v q = elemwiseLogprob k v q) (v : Arr FVal) (p : List (Arr FVal)) :
    derivedKernel kernel cdf elem empty (.index S es d) v (as ++ p) = elemwiseLogprob k v (liftParams R p) := by
  simp only [derivedKernel, fillIndices_eq hf, indexLogprob, hR, hk]

/-- The log-probability is that of independent variables with the laws of the selected elements. -/
theorem index_good {es : List IndexEntry} {as : List (Arr FVal)} {idx : List Index} (hf : Filled es as idx) {S : List ℕ} {R : Arr (List ℕ)} (hR : npSelect idx S = .ok R) {d : Di}
    {k : FVal → List FVal → Except Err FVal} (hk : ∀ v q, kernel d v q = elemwiseLogprob k v q) {p : List (Arr FVal)} {law ref : List ℕ → Measure ℝ} [∀ c, SigmaFinite (ref c)]
    (hp : ∀ c, InRange c S → IsProbabilityMeasure (law c)) (hm : ∀ c, InRange c S → Measurable fun x : ℝ => dens (k (.fin x) (paramsAt p c)))
    (hl : ∀ c, InRange c S → law c = (ref c).withDensity fun x => dens (k (.fin x) (paramsAt p c))) :
    GoodAt (numbers R.shape) (derivedKernel kernel cdf elem empty (.index S es d)) (Measure.pi fun j => law (R.get (coord j))) (Measure.pi fun j => ref (R.get (coord j))) (as ++ p) := by
  have hin : ∀ j : Fin (entries R.shape), InRange (R.get (coord j)) S := fun j => npSelect_inRange hR (coord_inRange j)
  have h := C106_entries (k := k) (liftParams_fit R p) (law := fun j => law (R.get (coord j))) (ref := fun j => ref (R.get (coord j))) (fun j => hp _ (hin j))
    (fun j => by rw [liftParams_at (coord_inRange j)]; exact hm _ (hin j)) (fun j => by rw [liftParams_at (coord_inRange j)]; exact hl _ (hin j))
  exact ⟨h.prob, by simp_rw [index_kernel kernel cdf elem empty hf hR hk]; exact h.meas, by simp_rw [index_kernel kernel cdf elem empty hf hR hk]; exact h.dens⟩

/-- **C126** An array of shape `S` of independent random numbers, with laws `law` that have densities with respect to `ref` (Lebesgue measure for real numbers, the counting measure for integers), indexed by any
NumPy index of slices, `newaxis` and integer arrays, which may be values of other variables: `exp` of the joint log-probability of the result is the joint density of the selected elements exactly if no element that is not
constant is selected twice. -/
theorem C126_indexed_iff_partial {es : List IndexEntry} {as : List (Arr FVal)} {idx : List Index} (hf : Filled es as idx) {S : List ℕ} {R : Arr (List ℕ)} (hR : npSelect idx S = .ok R) {d : Di}
    {k : FVal → List FVal → Except Err FVal} (hk : ∀ v q, kernel d v q = elemwiseLogprob k v q) {p : List (Arr FVal)} {law ref : List ℕ → Measure ℝ} [∀ c, SigmaFinite (ref c)]
    (hp : ∀ c, InRange c S → IsProbabilityMeasure (law c)) (hm : ∀ c, InRange c S → Measurable fun x : ℝ => dens (k (.fin x) (paramsAt p c)))
    (hl : ∀ c, InRange c S → law c = (ref c).withDensity fun x => dens (k (.fin x) (paramsAt p c))) :
    GoodAt (numbers R.shape) (derivedKernel kernel cdf elem empty (.index S es d)) ((Measure.pi fun i : Fin (entries S) => law (coord i)).map (selected S R))
        (Measure.pi fun j => ref (R.get (coord j))) (as ++ p) ↔
      ∀ c c', InRange c R.shape → InRange c' R.shape → c ≠ c' → R.get c = R.get c' → ∀ A, MeasurableSet A → law (R.get c) A = 0 ∨ law (R.get c) A = 1 := by
  have hRin : ∀ c, InRange c R.shape → InRange (R.get c) S := fun c hc => npSelect_inRange hR hc
  have hg := index_good kernel cdf elem empty hf hR hk hp hm hl
  have hpi : ∀ i : Fin (entries S), IsProbabilityMeasure (law (coord i)) := fun i => hp _ (coord_inRange i)
  have hsel : selected S R = fun x j => x (pos hRin j) := funext fun x => selected_eq hRin x
  have e1 : (Measure.pi fun j => law (R.get (coord j))) = Measure.pi fun j => law (coord (pos hRin j)) := by simp_rw [coord_pos hRin]
  have hiff := pi_select_iff (μ := fun i : Fin (entries S) => law (coord i)) (e := pos hRin)
  rw [← hsel, ← e1] at hiff
  have hstep : GoodAt (numbers R.shape) (derivedKernel kernel cdf elem empty (.index S es d)) ((Measure.pi fun i : Fin (entries S) => law (coord i)).map (selected S R))
        (Measure.pi fun j => ref (R.get (coord j))) (as ++ p) ↔ (Measure.pi fun i : Fin (entries S) => law (coord i)).map (selected S R) = Measure.pi fun j => law (R.get (coord j)) :=
    ⟨fun h => h.dens.trans hg.dens.symm, fun h => by rw [h]; exact hg⟩
  rw [hstep, hiff]
  constructor
  · intro h c c' hc hc' hne he A hA
    obtain ⟨j, rfl⟩ := shape_coord hc
    obtain ⟨j', rfl⟩ := shape_coord hc'
    have := h j j' (fun e => hne (by rw [e])) ((pos_eq_iff hRin hRin j j').2 he) A hA
    rwa [coord_pos hRin] at this
  · intro h j j' hne he A hA
    rw [coord_pos hRin]
    exact h _ _ (coord_inRange j) (coord_inRange j') (fun e => hne (coord_injective e)) ((pos_eq_iff hRin hRin j j').1 he) A hA

/-- **C126** (real numbers) If the elements have densities on the real line: exactly if no element is selected twice. -/
theorem C126_once_iff_partial {es : List IndexEntry} {as : List (Arr FVal)} {idx : List Index} (hf : Filled es as idx) {S : List ℕ} {R : Arr (List ℕ)} (hR : npSelect idx S = .ok R) {d : Di}
    {k : FVal → List FVal → Except Err FVal} (hk : ∀ v q, kernel d v q = elemwiseLogprob k v q) {p : List (Arr FVal)} {law : List ℕ → Measure ℝ}
    (hp : ∀ c, InRange c S → IsProbabilityMeasure (law c)) (hm : ∀ c, InRange c S → Measurable fun x : ℝ => dens (k (.fin x) (paramsAt p c)))
    (hl : ∀ c, InRange c S → law c = volume.withDensity fun x => dens (k (.fin x) (paramsAt p c))) :
    GoodAt (numbers R.shape) (derivedKernel kernel cdf elem empty (.index S es d)) ((Measure.pi fun i : Fin (entries S) => law (coord i)).map (selected S R)) (Measure.pi fun _ => volume) (as ++ p) ↔
      SelectsOnce R := by
  rw [C126_indexed_iff_partial kernel cdf elem empty hf hR hk (ref := fun _ => volume) hp hm hl]
  constructor
  · intro h c c' hc hc' he
    by_contra hne
    have := hp _ (npSelect_inRange hR hc)
    have : NullSingletonClass (law (R.get c)) := by rw [hl _ (npSelect_inRange hR hc)]; infer_instance
    exact not_zero_one fun A hA => h c c' hc hc' hne he A hA
  · intro h c c' hc hc' hne he
    exact absurd (h c c' hc hc' he) hne

end

/-! ## Several requested variables -/

theorem rvValues_ofFn {K : ℕ} {rv cl : Fin K → ℕ} (hrv : Function.Injective rv) : rvValues (List.ofFn rv) (List.ofFn cl) [] = List.ofFn fun k => (rv k, cl k) := by
  have hz : (List.ofFn rv).zip (List.ofFn cl) = List.ofFn fun k => (rv k, cl k) := List.ext_getElem (by simp) fun i h1 h2 => by simp
  have hn : ((List.ofFn fun k => (rv k, cl k)).map Prod.fst).Nodup := by
    rw [List.map_ofFn]
    exact List.nodup_ofFn.2 hrv
  rw [rvValues, hz, Dict.ofList_of_nodup hn]
  rfl

/-- The joint log-probability of requested variables, when none is realized. -/
theorem joint_value {K : ℕ} (hK : 0 < K) {rv cl : Fin K → ℕ} (hrv : Function.Injective rv) {defs : ℕ → Option (RVDef Di)} {r : Fin K → RVDef Di} (hdef : ∀ k, defs (rv k) = some (r k))
    (huser : ∀ k i, User ((r k).args i)) :
    ∃ j, joint defs (List.ofFn rv) (List.ofFn cl) [] = .ok (some (j, List.ofFn cl)) ∧ ∀ kernel ρ ω, dens (evalJoint kernel ρ ω j) =
      ∏ k, dens (arrayJoint (kernel (r k).dist (ρ (cl k)) (List.ofFn fun i => evalGiven (fun w => (Dict.get? (rvValues (List.ofFn rv) (List.ofFn cl) []) w).map ρ) ρ ω ((r k).args i)))) := by
  have hd := rvValues_ofFn (cl := cl) hrv
  set d := rvValues (List.ofFn rv) (List.ofFn cl) [] with hdd
  have hdn : (Dict.keys d).Nodup := rvValues_nodup _ _ _
  have hget : ∀ k, Dict.get? d (rv k) = some (cl k) := fun k => Dict.get?_of_mem hdn (by rw [hd]; exact List.mem_ofFn.2 ⟨k, rfl⟩)
  have hkey : ∀ v ∈ Dict.keys d, ∃ k, v = rv k := fun v hv => by
    rw [hd, Dict.keys, List.map_ofFn] at hv
    obtain ⟨k, hk⟩ := List.mem_ofFn.1 hv
    exact ⟨k, hk.symm⟩
  let val : ℕ → ℕ := fun v => (Dict.get? d v).getD 0
  have hval : ∀ k, val (rv k) = cl k := fun k => by simp only [val, hget k, Option.getD_some]
  have hval' : ∀ p ∈ d, val p.1 = p.2 := fun p hp => by simp only [val, Dict.get?_of_mem hdn (show (p.1, p.2) ∈ d from hp), Option.getD_some]
  let mk : ℕ → RVDef Di → Term Di := fun v q => ⟨q.dist, cleanup (.inp (val v)), q.n, fun i => cleanup (replaceValued d (q.args i))⟩
  let t : ℕ → Term Di := fun v => mk v ((defs v).getD (r ⟨0, hK⟩))
  have ht : ∀ k, t (rv k) = mk (rv k) (r k) := fun k => by show mk (rv k) ((defs (rv k)).getD _) = _; rw [hdef k]; rfl
  have hcond := conditional_simple (B := backend defs d) (realized := []) (val := val) (base := val) (t := t) hdd
    (fun v hv => by obtain ⟨k, rfl⟩ := hkey v hv; simp [backend, hdef k]) (fun _ _ => rfl)
    (by
      show Except.ok (d.map fun p => some (⟨p.1, p.2⟩ : ValuedOut ℕ), d.map Prod.snd) = _
      congr 2
      · exact List.map_congr_left fun p hp => by rw [hval' p hp]
      · exact List.map_congr_left fun p hp => (hval' p hp).symm)
    (fun v hv => by obtain ⟨k, rfl⟩ := hkey v hv; simp [backend, hdef k]) (fun v hv => by obtain ⟨k, rfl⟩ := hkey v hv; rw [ht k]; simp [backend, hdef k, mk])
  have e1 : (d.map fun p => (p.1, t p.1)) = List.ofFn fun k => (rv k, t (rv k)) := by rw [hd, List.map_ofFn]; rfl
  have e2 : ((Dict.keys d).filter (· ∉ Dict.keys ([] : Dict ℕ ℕ))).map val = List.ofFn cl := by
    have : (Dict.keys d).filter (· ∉ Dict.keys ([] : Dict ℕ ℕ)) = Dict.keys d := List.filter_eq_self.2 fun _ _ => by simp [Dict.keys]
    rw [this, hd, Dict.keys, List.map_ofFn, List.map_ofFn]
    congr 1
    funext k
    exact hval k
  rw [e1, e2] at hcond
  have hj : ∃ j, joint defs (List.ofFn rv) (List.ofFn cl) [] = .ok (some (j, List.ofFn cl)) ∧
      ∀ kernel ρ ω, dens (evalJoint kernel ρ ω j) = ((List.ofFn fun k => (rv k, t (rv k))).map fun p => dens (arrayJoint (p.2.eval kernel ρ ω))).prod := by
    have hne : (List.ofFn fun k => (rv k, t (rv k))) ≠ [] := by
      intro h0
      have := congrArg List.length h0
      simp at this
      omega
    obtain ⟨j, hj, -⟩ := dens_evalJoint (fun _ _ _ => .error .valueError) hne hcond
    refine ⟨j, hj, fun kernel => ?_⟩
    obtain ⟨j', hj', h⟩ := dens_evalJoint kernel hne hcond
    rw [hj] at hj'
    cases hj'
    exact h
  obtain ⟨j, hj, h⟩ := hj
  refine ⟨j, hj, fun kernel ρ ω => ?_⟩
  rw [h, List.map_ofFn, List.prod_ofFn]
  refine Finset.prod_congr rfl fun k _ => ?_
  have e3 : ∀ q : Term Di, q = mk (rv k) (r k) → q.eval kernel ρ ω =
      kernel (r k).dist (ρ (cl k)) (List.ofFn fun i => evalGiven (fun w => (Dict.get? d w).map ρ) ρ ω ((r k).args i)) := by
    rintro q rfl
    simp only [mk, Term.eval, cleanup, eval, hval k]
    congr 2
    funext i
    exact eval_given d ρ ω _ (huser k i)
  rw [Function.comp_apply, e3 _ (ht k)]

section
variable (kernel cdf : Di → Arr FVal → List (Arr FVal) → Except Err (Arr FVal)) (elem : Di → FVal → List FVal → Except Err FVal) (empty : List ℕ → FVal)

/-- **C126** (several variables) If several variables that are requested are parts of one array of independent random numbers with densities on the real line, each selected by an index of its own: `joint_logprob` returns, and
`exp` of its value is the joint density of the parts exactly if they have no element in common and none selects an element twice.  `hargs`: the parameters `p` of the array and the integer arrays of the indices do not
depend on the requested variables.  (The indices are different graphs; variables that are requested twice are the subject of C121.) -/
theorem C126_parts_iff_partial {K : ℕ} (hK : 0 < K) {rv cl : Fin K → ℕ} (hrv : Function.Injective rv) {defs : ℕ → Option (RVDef (Derived Di))} {r : Fin K → RVDef (Derived Di)}
    (hdef : ∀ k, defs (rv k) = some (r k)) (huser : ∀ k i, User ((r k).args i)) {S : List ℕ} {d : Di} {es : Fin K → List IndexEntry} (hdist : ∀ k, (r k).dist = .index S (es k) d)
    {as : Fin K → List (Arr FVal)} {idx : Fin K → List Index} (hf : ∀ k, Filled (es k) (as k) (idx k)) {R : Fin K → Arr (List ℕ)} (hR : ∀ k, npSelect (idx k) S = .ok (R k))
    {f : FVal → List FVal → Except Err FVal} (hk : ∀ v q, kernel d v q = elemwiseLogprob f v q) {p : List (Arr FVal)} {law : List ℕ → Measure ℝ}
    (hp : ∀ c, InRange c S → IsProbabilityMeasure (law c)) (hm : ∀ c, InRange c S → Measurable fun x : ℝ => dens (f (.fin x) (paramsAt p c)))
    (hl : ∀ c, InRange c S → law c = volume.withDensity fun x => dens (f (.fin x) (paramsAt p c)))
    (ω : ℕ → Derived Di → List (Arr FVal) → Arr FVal) (env : (∀ k, Fin (entries (R k).shape) → ℝ) → ℕ → Arr FVal) (henv : ∀ z k, env z (cl k) = numbers (R k).shape (z k))
    (hargs : ∀ z k, (List.ofFn fun i => evalGiven (fun w => (Dict.get? (rvValues (List.ofFn rv) (List.ofFn cl) []) w).map (env z)) (env z) ω ((r k).args i)) = as k ++ p) :
    ∃ j, joint defs (List.ofFn rv) (List.ofFn cl) [] = .ok (some (j, List.ofFn cl)) ∧
      ((Measure.pi fun i : Fin (entries S) => law (coord i)).map (fun x k => selected S (R k) x) =
        (Measure.pi fun _ => Measure.pi fun _ => volume).withDensity (fun z => dens (evalJoint (derivedKernel kernel cdf elem empty) (env z) ω j)) ↔ Disjointly R) := by
  obtain ⟨j, hj, hval⟩ := joint_value (cl := cl) hK hrv hdef huser
  refine ⟨j, hj, ?_⟩
  have hRin : ∀ k c, InRange c (R k).shape → InRange ((R k).get c) S := fun k c hc => npSelect_inRange (hR k) hc
  have hpi : ∀ i : Fin (entries S), IsProbabilityMeasure (law (coord i)) := fun i => hp _ (coord_inRange i)
  have hpk : ∀ k (j : Fin (entries (R k).shape)), IsProbabilityMeasure (law ((R k).get (coord j))) := fun k j => hp _ (hRin k _ (coord_inRange j))
  have hg : ∀ k, GoodAt (numbers (R k).shape) (derivedKernel kernel cdf elem empty (.index S (es k) d)) (Measure.pi fun j => law ((R k).get (coord j))) (Measure.pi fun _ => volume) (as k ++ p) :=
    fun k => index_good kernel cdf elem empty (hf k) (hR k) hk (ref := fun _ => volume) hp hm hl
  -- the density of independent parts
  have h1 := (pi_withDensity_dep (fun k => (Measure.pi fun _ : Fin (entries (R k).shape) => (volume : Measure ℝ))) (fun k => (hg k).meas) fun k => (hg k).dens).2
  have e1 : (fun z : ∀ k, Fin (entries (R k).shape) → ℝ => dens (evalJoint (derivedKernel kernel cdf elem empty) (env z) ω j)) =
      fun z => ∏ k, dens (arrayJoint (derivedKernel kernel cdf elem empty (.index S (es k) d) (numbers (R k).shape (z k)) (as k ++ p))) := by
    funext z
    rw [hval]
    refine Finset.prod_congr rfl fun k _ => ?_
    rw [hargs, hdist, henv]
  rw [e1, ← h1]
  -- one product
  have hpq : ∀ k (j : Fin (entries (R k).shape)), IsProbabilityMeasure (law (coord (pos (hRin k) j))) := fun k j => hp _ (coord_inRange _)
  have h2 := pi_curry (ν := fun k (j : Fin (entries (R k).shape)) => law (coord (pos (hRin k) j)))
  simp_rw [coord_pos] at h2
  have h3 : (fun x k => selected S (R k) x) = (MeasurableEquiv.piCurry fun (k : Fin K) (_ : Fin (entries (R k).shape)) => ℝ) ∘ fun (x : Fin (entries S) → ℝ) (q : Σ k, Fin (entries (R k).shape)) => x (pos (hRin q.1) q.2) := by
    funext x k
    rw [selected_eq (hRin k)]
    rfl
  have h5 : Measurable fun (x : Fin (entries S) → ℝ) (q : Σ k, Fin (entries (R k).shape)) => x (pos (hRin q.1) q.2) := measurable_pi_lambda _ fun q => measurable_pi_apply _
  rw [← h2, h3, ← Measure.map_map (MeasurableEquiv.measurable _) h5, (MeasurableEquiv.piCurry fun (k : Fin K) (_ : Fin (entries (R k).shape)) => ℝ).map_measurableEquiv_injective.eq_iff]
  have h4 := pi_select_iff (μ := fun i : Fin (entries S) => law (coord i)) (e := fun q : Σ k, Fin (entries (R k).shape) => pos (hRin q.1) q.2)
  simp_rw [coord_pos] at h4
  rw [h4]
  constructor
  · intro h k k' c c' hc hc' he
    obtain ⟨i, rfl⟩ := shape_coord hc
    obtain ⟨i', rfl⟩ := shape_coord hc'
    by_contra hne
    have hin := hRin k _ hc
    have := hp _ hin
    have : NullSingletonClass (law ((R k).get (coord i))) := by rw [hl _ hin]; infer_instance
    refine not_zero_one (μ := law ((R k).get (coord i))) fun A hA => h ⟨k, i⟩ ⟨k', i'⟩ (fun e => hne ?_) ((pos_eq_iff _ _ _ _).2 he) A hA
    cases e
    exact ⟨rfl, rfl⟩
  · rintro h ⟨k, i⟩ ⟨k', i'⟩ hne he
    obtain ⟨rfl, hii⟩ := h k k' _ _ (coord_inRange i) (coord_inRange i') ((pos_eq_iff _ _ _ _).1 he)
    exact absurd (by rw [coord_injective hii]) hne

end

end Verif.ArrGraph
