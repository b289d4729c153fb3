import Verif.Props.ArrTransformGood

/-! # C97: several random vectors with a transform -/

namespace Verif.ArrGraph
open Verif Cond MeasureTheory Set TransVec

/-! ## Sums that are not NaN -/

theorem fsum_kind (l : List FVal) : (fsum l = .nan ↔ FVal.nan ∈ l ∨ (FVal.pinf ∈ l ∧ FVal.ninf ∈ l)) ∧ (fsum l = .pinf ↔ FVal.nan ∉ l ∧ FVal.pinf ∈ l ∧ FVal.ninf ∉ l) ∧
    (fsum l = .ninf ↔ FVal.nan ∉ l ∧ FVal.pinf ∉ l ∧ FVal.ninf ∈ l) := by
  induction l with
  | nil => simp [fsum]
  | cons a l ih =>
    have e : fsum (a :: l) = a + fsum l := rfl
    rw [e]
    obtain ⟨h1, h2, h3⟩ := ih
    simp only [List.mem_cons]
    cases hs : fsum l with
    | nan =>
      have h := h1.1 hs
      cases a <;> simp <;> tauto
    | pinf =>
      have h := h2.1 hs
      cases a <;> simp <;> tauto
    | ninf =>
      have h := h3.1 hs
      cases a <;> simp <;> tauto
    | fin x =>
      rw [hs] at h1 h2 h3
      simp only [reduceCtorEq, false_iff] at h1 h2 h3
      cases a <;> simp <;> tauto

/-- Sums of the same kinds of numbers. -/
theorem fsum_ne_nan {l l' : List FVal} (h : ∀ b ∈ l', ∃ a ∈ l, SameKind a b) (hl : fsum l ≠ .nan) : fsum l' ≠ .nan := by
  have kind : ∀ {a b : FVal}, SameKind a b → (b = .nan → a = .nan) ∧ (b = .pinf → a = .pinf) ∧ (b = .ninf → a = .ninf) := by
    intro a b hab
    cases a <;> cases b <;> first | exact hab.elim | simp
  have mem : ∀ {v : FVal}, (∀ {a b : FVal}, SameKind a b → b = v → a = v) → v ∈ l' → v ∈ l := by
    intro v hv hm
    obtain ⟨a, ha, hab⟩ := h v hm
    exact hv hab rfl ▸ ha
  rw [Ne, (fsum_kind _).1, not_or] at hl ⊢
  exact ⟨fun hm => hl.1 (mem (fun hab => (kind hab).1) hm), fun hm => hl.2 ⟨mem (fun hab => (kind hab).2.1) hm.1, mem (fun hab => (kind hab).2.2) hm.2⟩⟩

/-! ## Adding one number for each row to one number for each entry -/

theorem bshape_rows (m n : ℕ) : bshape [[m], [m, n]] = if m = n ∨ m = 1 ∨ n = 1 then some [m, if n = 1 then m else n] else none := by
  have e : bshape [[m], [m, n]] = (List.range 2).mapM fun d => bdim ([[m], [m, n]].map fun s => (List.replicate (2 - s.length) 1 ++ s).getD d 1) := rfl
  rw [e]
  have e1 : bdim [1, m] = some m := by
    by_cases h : m = 1 <;> simp [bdim, h]
  have e2 : bdim [m, n] = if m = n ∨ m = 1 ∨ n = 1 then some (if n = 1 then m else n) else none := by
    by_cases h : m = 1 <;> by_cases h' : n = 1 <;> simp [bdim, h, h', eq_comm]
    split_ifs <;> simp_all
  simp only [List.range, List.range.loop, List.mapM_cons, List.mapM_nil, List.map_cons, List.map_nil, List.length_cons, List.length_nil]
  simp only [List.replicate, Nat.sub_self, List.nil_append, List.cons_append, List.getD_cons_zero, List.getD_cons_succ, e1, e2]
  split_ifs <;> rfl

theorem bshape_one (s : List ℕ) : bshape [s] = some s := bshape_replicate (by simp) (by simp)

@[to_additive sum_range] theorem prod_range {M : Type} [CommMonoid M] (n : ℕ) (F : ℕ → M) : ((List.range n).map F).prod = ∏ i ∈ Finset.range n, F i := rfl

theorem allCoords_two (m n : ℕ) : allCoords [m, n] = (List.range m).flatMap fun i => (List.range n).map fun j => [i, j] := by
  simp only [allCoords]
  congr 1
  funext i
  rw [List.map_flatMap]
  simp only [List.map_cons, List.map_nil]
  induction List.range n with
  | nil => rfl
  | cons a l ih => rw [List.flatMap_cons, ih]; rfl

@[to_additive sum_two] theorem prod_two {M : Type} [CommMonoid M] (m n : ℕ) (F : List ℕ → M) : ((allCoords [m, n]).map F).prod = ∏ i ∈ Finset.range m, ∏ j ∈ Finset.range n, F [i, j] := by
  rw [allCoords_two, ← prod_range]
  induction List.range m with
  | nil => rfl
  | cons a l ih => rw [List.flatMap_cons, List.map_append, List.prod_append, ih, List.map_map, List.map_cons, List.prod_cons]; rfl

@[to_additive sum_one] theorem prod_one {M : Type} [CommMonoid M] (m : ℕ) (F : List ℕ → M) : ((allCoords [m]).map F).prod = ∏ i ∈ Finset.range m, F [i] := by
  have : allCoords [m] = (List.range m).map fun i => [i] := by
    simp only [allCoords, List.map_cons, List.map_nil]
    induction List.range m with
    | nil => rfl
    | cons a l ih => rw [List.flatMap_cons, ih]; rfl
  rw [this, List.map_map]
  exact prod_range m _

/-- The rows' numbers enter once for every entry of a row. -/
theorem prod_rows {M : Type} [CommMonoid M] {m n : ℕ} (hmn : m = n ∨ m = 1) (g : List ℕ → M) :
    ((allCoords [m, n]).map fun c => g (project c [m])).prod = (((allCoords [m]).map g).prod) ^ n := by
  rw [prod_two, prod_one]
  rcases hmn with rfl | rfl
  · by_cases h1 : m = 1
    · subst h1
      simp [project]
    · simp [project, h1]
  · simp [project]

/-- What the code adds up, when every random vector has one log-probability and the transform one number for each entry. -/
theorem dens_rows {m n : ℕ} (hmn : m = n ∨ m = 1) (hn : n ≠ 1) {out : Arr FVal} (hs : out.shape = [m]) (j : Fin (entries [m, n]) → ℝ) :
    dens (arrayJoint (addArr out (numbers [m, n] j))) = (∏ k, (FVal.fin (j k)).toDens) * dens (arrayJoint (.ok out)) ^ n := by
  have hb : bshape [out.shape, (numbers [m, n] j).shape] = some [m, n] := by
    have := bshape_rows m n
    rw [if_pos (by tauto), if_neg hn] at this
    rw [hs]
    exact this
  rw [addArr, hb]
  simp only
  rw [dens_arrayJoint_ok (s := [m, n]) rfl]
  simp only [entryAt_numbers, Graph.toDens_add, Finset.prod_mul_distrib]
  rw [mul_comm]
  congr 1
  have e : dens (arrayJoint (.ok out)) = ((allCoords [m]).map fun c => (out.get c).toDens).prod := by
    rw [dens_arrayJoint_ok hs, map_allCoords, List.prod_ofFn]
  rw [e, ← prod_rows hmn fun c => (out.get c).toDens, map_allCoords, List.prod_ofFn]
  simp only [entryAt, hs]

theorem clean_rows {m n : ℕ} (hmn : m = n ∨ m = 1) (hn : n ≠ 1) {out : Arr FVal} (hs : out.shape = [m]) (j : Fin (entries [m, n]) → ℝ) {v : FVal} (hv : arrayJoint (.ok out) = .ok v) (hnan : v ≠ .nan) :
    ∃ w, arrayJoint (addArr out (numbers [m, n] j)) = .ok w ∧ w ≠ .nan := by
  have hb : bshape [out.shape, (numbers [m, n] j).shape] = some [m, n] := by
    have := bshape_rows m n
    rw [if_pos (by tauto), if_neg hn] at this
    rw [hs]
    exact this
  rw [addArr, hb]
  refine ⟨_, rfl, ?_⟩
  simp only [arrayJoint, hs] at hv
  cases hv
  refine fsum_ne_nan (fun b hb => ?_) hnan
  obtain ⟨c, hc, rfl⟩ := List.mem_map.1 hb
  obtain ⟨k, rfl⟩ : ∃ k : Fin (entries [m, n]), coord k = c := by
    obtain ⟨i, hi, h⟩ := List.getElem_of_mem hc
    exact ⟨⟨i, hi⟩, h⟩
  refine ⟨out.get (project (coord k) [m]), List.mem_map.2 ⟨_, ?_, rfl⟩, ?_⟩
  · rw [allCoords_two] at hc
    simp only [List.mem_flatMap, List.mem_map, List.mem_range] at hc
    obtain ⟨i, hi, j', hj, h⟩ := hc
    rw [← h]
    have : project [i, j'] [m] = [if m = 1 then 0 else j'] := by simp [project]
    rw [this]
    simp only [allCoords, List.mem_flatMap, List.mem_range, List.map_cons, List.map_nil, List.mem_singleton]
    refine ⟨_, ?_, rfl⟩
    split_ifs with h1
    · omega
    · rcases hmn with rfl | rfl
      · exact hj
      · exact absurd rfl h1
  · show SameKind _ (entryAt out (coord k) + entryAt (numbers [m, n] j) (coord k))
    rw [entryAt_numbers, entryAt, hs]
    exact .shift _ _

section
variable {m n : ℕ} {kernel : Arr FVal → Except Err (Arr FVal)} {t : IR.VTransform} {D R : Fin (entries [m, n]) → Set ℝ}

theorem unaware_backward {s : List ℕ} {D R : Fin (entries s) → Set ℝ} (hinv : ∀ k, Inverts (t.at []) (D k) (R k)) (p : List (Arr FVal)) {y : Fin (entries s) → ℝ} (hy : y ∈ univ.pi R) :
    (unaware t).backward (numbers s y) p = numbers s (back (fun _ => t.at []) y) :=
  elemwise_numbers (p := []) (bshape_one s) fun k => Except.ok.inj ((back_spec hinv hy).2.2 k)

/-- **C97** (several random vectors) With `m` random vectors of length `n`, neither of them one and `m ≠ n`, `joint_logprob` cannot be evaluated at any transformed value: the log-probabilities of the vectors do not fit the Jacobian terms
of their entries. -/
theorem C97_rows_raise (hm1 : m ≠ 1) (hn1 : n ≠ 1) (hmn : m ≠ n) (hinv : ∀ k, Inverts (t.at []) (D k) (R k)) (p : List (Arr FVal))
    (hshape : ∀ x : Fin (entries [m, n]) → ℝ, x ∈ univ.pi D → ∃ out, kernel (numbers [m, n] x) = .ok out ∧ out.shape = [m]) {y : Fin (entries [m, n]) → ℝ} (hy : y ∈ univ.pi R) :
    transformedArr (unaware t) p kernel true (numbers [m, n] y) = .error .valueError := by
  obtain ⟨out, h1, h2⟩ := hshape _ (back_spec hinv hy).1
  have hj : ((unaware t).logJacDet (numbers [m, n] y) p).shape = [m, n] := by
    show (bshape [[m, n]]).getD [m, n] = _
    rw [bshape_one]; rfl
  have hb := bshape_rows m n
  rw [if_neg (by tauto)] at hb
  rw [transformedArr, unaware_backward hinv p hy, h1]
  simp only [if_true, addArr, h2, hj, hb]

/-- **C97** (several random vectors, refuted part) With as many random vectors as they have entries, or with one, `joint_logprob` at transformed values is a log-density of the transformed vectors exactly if the joint density of the
vectors is one wherever they can be. -/
theorem C97_rows_iff (hn : 2 ≤ n) (hmn : m = n ∨ m = 1) (hinv : ∀ k, Inverts (t.at []) (D k) (R k)) (hjac : ∀ k, LogJac (t.at []) (R k)) (hR : ∀ k, MeasurableSet (R k)) (p : List (Arr FVal))
    (hshape : ∀ x out, kernel (numbers [m, n] x) = .ok out → out.shape = [m]) {μ : Measure (Fin (entries [m, n]) → ℝ)} [IsProbabilityMeasure μ]
    (hm : Measurable fun x => dens (arrayJoint (kernel (numbers [m, n] x)))) (hlp : IsLogDensityVOn (fun x => arrayJoint (kernel (numbers [m, n] x))) (univ.pi D) μ) :
    IsLogDensityVOn (fun y => arrayJoint (transformedArr (unaware t) p kernel true (numbers [m, n] y))) (univ.pi R) (μ.map (forw fun _ => t.at [])) ↔
      ∀ᵐ x ∂μ, dens (arrayJoint (kernel (numbers [m, n] x))) = 1 := by
  have hval : ∀ y ∈ univ.pi R, ∀ d : Fin (entries [m, n]) → ℝ, (∀ k, (t.at []).logJacDet (.fin (y k)) = .ok (.fin (Real.log |d k|))) →
      ∃ out, kernel (numbers [m, n] (back (fun _ => t.at []) y)) = .ok out ∧ out.shape = [m] ∧ (∃ v, arrayJoint (.ok out) = .ok v ∧ v ≠ .nan) ∧
        transformedArr (unaware t) p kernel true (numbers [m, n] y) = addArr out (numbers [m, n] fun k => Real.log |d k|) := by
    intro y hy d hd
    have hj : (unaware t).logJacDet (numbers [m, n] y) p = numbers [m, n] fun k => Real.log |d k| := elemwise_numbers (p := []) (bshape_one _) fun k => Except.ok.inj (hd k)
    obtain ⟨v, hv, hnan⟩ := hlp.clean _ (back_spec hinv hy).1
    cases hk : kernel (numbers [m, n] (back (fun _ => t.at []) y)) with
    | error e => simp only [hk, arrayJoint] at hv; cases hv
    | ok out =>
      refine ⟨out, rfl, hshape _ _ hk, ⟨v, by rw [← hk]; exact hv, hnan⟩, ?_⟩
      rw [transformedArr, unaware_backward hinv p hy, hk]
      simp only [if_true, hj]
  refine power_iff hn hinv hjac hR hm hlp (fun y hy => ?_) fun d y hy hd hj => ?_
  · obtain ⟨d, hd⟩ := exists_deriv hjac
    obtain ⟨out, -, hs, ⟨v, hv, hnan⟩, e⟩ := hval y hy _ (hd y hy).2.2
    simp only [e]
    exact clean_rows hmn (by omega) hs _ hv hnan
  · obtain ⟨out, hk, hs, -, e⟩ := hval y hy _ hj
    simp only [e, hk]
    rw [dens_rows hmn (by omega) hs, ofReal_prod_abs _ hd]

end

/-! ## Multivariate normal vectors -/

section
open ProbabilityTheory Matrix WithLp

/-- Means zero. -/
def zeroMean (n : ℕ) : Arr FVal := ⟨[n], fun _ => .fin 0⟩

/-- The identity matrix. -/
noncomputable def unitCov (n : ℕ) : Arr FVal := ⟨[n, n], fun c => .fin (if c.headD 0 = c.getLastD 0 then 1 else 0)⟩

/-- Shifts by `a`, that is `LocTransform`. -/
noncomputable def shiftV (a : ℝ) : IR.VTransform := ⟨fun v _ => v + .fin a, fun v _ => v - .fin a, fun _ _ => 0⟩

variable {chol : (n : ℕ) → Matrix (Fin n) (Fin n) ℝ → Option (Matrix (Fin n) (Fin n) ℝ)} (hchol : ∀ n, CholContract (chol n)) {m n : ℕ}
include hchol

theorem mvnormal_rows (x : Fin (entries [m, n]) → ℝ) :
    ∃ out, mvnormalArr chol (numbers [m, n] x) [zeroMean n, unitCov n] = .ok out ∧ out.shape = [m] ∧ arrayJoint (.ok out) = .ok (.fin (-(entries [m, n] / 2) * Real.log (2 * Real.pi) - 1 / 2 * ∑ k, x k * x k)) := by
  have hb : bshape [(numbers [m, n] x).shape, (zeroMean n).shape] = some [m, n] := by
    have e : bshape [[m, n], [n]] = (List.range 2).mapM fun d => bdim ([[m, n], [n]].map fun s => (List.replicate (2 - s.length) 1 ++ s).getD d 1) := rfl
    have e1 : bdim [m, 1] = some m := by by_cases h : m = 1 <;> simp [bdim, h]
    have e2 : bdim [n, n] = some n := by by_cases h : n = 1 <;> simp [bdim, h]
    show bshape [[m, n], [n]] = _
    rw [e]
    simp only [List.range, List.range.loop, List.mapM_cons, List.mapM_nil, List.map_cons, List.map_nil, List.length_cons, List.length_nil]
    simp only [List.replicate, Nat.sub_self, List.nil_append, List.cons_append, List.getD_cons_zero, List.getD_cons_succ, e1, e2]
    rfl
  set val := numbers [m, n] x with hval
  set row : ℕ → ℝ := fun i => -(n / 2) * Real.log (2 * Real.pi) - 1 / 2 * ∑ j ∈ Finset.range n, toReal (entryAt val [i, j]) * toReal (entryAt val [i, j]) with hrow
  have hr : ∀ c ∈ allCoords [m], mvnormalRow n n (chol n) val (zeroMean n) (unitCov n) c = .ok (.fin (row (c.headD 0))) := by
    intro c hc
    obtain ⟨i, -, rfl⟩ : ∃ i, i < m ∧ c = [i] := by
      simp only [allCoords, List.mem_flatMap, List.mem_range, List.map_cons, List.map_nil, List.mem_singleton] at hc
      exact hc
    have e1 : (fun i' : Fin n => toReal (entryAt (zeroMean n) ([i] ++ [(i' : ℕ)]))) = 0 := rfl
    have e2 : (fun i j : Fin n => toReal ((unitCov n).get [(i : ℕ), (j : ℕ)])) = (1 : Matrix (Fin n) (Fin n) ℝ) := by
      funext i j
      simp [unitCov, toReal, Matrix.one_apply, Fin.ext_iff]
    rw [mvnormalRow, e1, e2]
    refine (C37_mvnormal_formula (hchol n) Matrix.PosDef.one _ _).trans ?_
    simp only [Matrix.det_one, Real.log_one, mul_zero, sub_zero, inv_one, Matrix.one_mulVec, dotProduct, hrow, List.headD_cons]
    rw [← Fin.sum_univ_eq_sum_range fun j => toReal (entryAt val [i, j]) * toReal (entryAt val [i, j])]
    rfl
  have hall := mapM_ok hr
  refine ⟨⟨[m], fun c => match mvnormalRow n n (chol n) val (zeroMean n) (unitCov n) c with | .ok x => x | .error _ => .nan⟩, ?_, rfl, ?_⟩
  · have hlast : val.shape.getLast? = some n := rfl
    rw [mvnormalArr, hb, hlast, show (unitCov n).shape = [n, n] from rfl]
    simp only
    rw [if_pos (by simp)]
    simp only [List.dropLast_cons₂, List.dropLast_singleton, hall]
    rfl
  · simp only [arrayJoint]
    rw [List.map_congr_left (g := fun c => .fin (row (c.headD 0))) fun c hc => by simp only [hr c hc]]
    have e1 : (allCoords [m]).map (fun c => FVal.fin (row (c.headD 0))) = ((allCoords [m]).map fun c => row (c.headD 0)).map .fin := by rw [List.map_map]; rfl
    rw [e1, fsum_map_fin, sum_one]
    congr 2
    have e2 : ∑ k, x k * x k = ((allCoords [m, n]).map fun c => toReal (entryAt val c) * toReal (entryAt val c)).sum := by
      rw [map_allCoords, List.sum_ofFn]
      simp only [hval, entryAt_numbers, toReal]
    have e3 : (entries [m, n] : ℝ) = m * n := by
      rw [entries, allCoords_two]
      simp [List.length_flatMap]
    rw [e2, sum_two, e3]
    simp only [hrow, List.headD_cons, Finset.sum_sub_distrib, ← Finset.mul_sum]
    simp
    ring

/-- **C97** (several normal vectors) One or `n` standard normal vectors of length `n`, shifted by any amount: the result is not a log-density. -/
theorem C97_rows_mvnormal_wrong (hn : 2 ≤ n) (hmn : m = n ∨ m = 1) (a : ℝ) :
    ¬ IsLogDensityVOn (fun y => arrayJoint (transformedArr (unaware (shiftV a)) [zeroMean n, unitCov n] (fun v => mvnormalArr chol v [zeroMean n, unitCov n]) true (numbers [m, n] y))) (univ.pi fun _ => univ)
      (((multivariateGaussian (toLp 2 0) 1).map ofLp).map (forw fun _ => .loc (.fin a))) := by
  have hS : (1 : Matrix (Fin (entries [m, n])) (Fin (entries [m, n])) ℝ).PosDef := Matrix.PosDef.one
  have hk : ∀ x : Fin (entries [m, n]) → ℝ, arrayJoint (mvnormalArr chol (numbers [m, n] x) [zeroMean n, unitCov n]) = mvnormalLogprob (chol _) x 0 1 := by
    intro x
    obtain ⟨out, h1, -, h2⟩ := mvnormal_rows hchol x
    rw [h1, h2, C37_mvnormal_formula (hchol _) hS]
    simp [dotProduct]
  have e : ∀ x : Fin (entries [m, n]) → ℝ, arrayJoint (mvnormalArr chol (numbers [m, n] x) [zeroMean n, unitCov n]) = .ok (.fin (-(entries [m, n] / 2) * Real.log (2 * Real.pi) - 1 / 2 * ∑ k, x k * x k)) := by
    intro x
    obtain ⟨out, h1, -, h2⟩ := mvnormal_rows hchol x
    rw [h1, h2]
  have hp : IsProbabilityMeasure ((multivariateGaussian (toLp 2 (0 : Fin (entries [m, n]) → ℝ)) 1).map ofLp) := Measure.isProbabilityMeasure_map (by fun_prop)
  rw [show (fun _ : Fin (entries [m, n]) => RVTransform.loc (.fin a)) = fun _ => (shiftV a).at [] from rfl]
  have hsh : ∀ (x : Fin (entries [m, n]) → ℝ) (out : Arr FVal), mvnormalArr chol (numbers [m, n] x) [zeroMean n, unitCov n] = .ok out → out.shape = [m] := by
    intro x out hx
    obtain ⟨out', h1, h2, -⟩ := mvnormal_rows hchol x
    rw [hx] at h1
    cases h1
    exact h2
  rw [C97_rows_iff (t := shiftV a) hn hmn (D := fun _ => univ) (R := fun _ => univ) (fun _ => C49_loc a) (fun _ => C50_loc a) (fun _ => MeasurableSet.univ) _ hsh ?_ ?_]
  · intro h
    have hpos : (1 : ℝ) ≤ entries [m, n] := by
      have : 0 < entries [m, n] := by
        rw [entries, allCoords_two]
        refine List.length_pos_iff.2 (List.ne_nil_of_mem (List.mem_flatMap.2 ⟨0, List.mem_range.2 (by omega), List.mem_map.2 ⟨0, List.mem_range.2 (by omega), rfl⟩⟩))
      exact_mod_cast this
    have hne : ∀ x : Fin (entries [m, n]) → ℝ, dens (arrayJoint (mvnormalArr chol (numbers [m, n] x) [zeroMean n, unitCov n])) ≠ 1 := by
      intro x hx
      rw [e, dens, FVal.toDens, ENNReal.ofReal_eq_one, Real.exp_eq_one_iff] at hx
      have h3 : 0 < Real.log (2 * Real.pi) := Real.log_pos (by linarith [Real.two_le_pi])
      have h4 : 0 ≤ ∑ i, x i * x i := Finset.sum_nonneg fun i _ => mul_self_nonneg _
      nlinarith
    have h0 := ae_iff.1 h
    rw [eq_univ_of_forall (s := {x | ¬ dens (arrayJoint (mvnormalArr chol (numbers [m, n] x) [zeroMean n, unitCov n])) = 1}) hne, measure_univ] at h0
    exact one_ne_zero h0
  · simp only [e, dens, FVal.toDens]
    fun_prop
  · refine ⟨fun x _ => ⟨_, e x, fun hh => by cases hh⟩, fun s _ hs => ?_, by simp⟩
    simp only [hk]
    exact (C37_mvnormal (hchol _) hS 0).1.law s hs

/-- **C97** (several normal vectors) Other numbers of vectors raise. -/
theorem C97_rows_mvnormal_raise (hm1 : m ≠ 1) (hn1 : n ≠ 1) (hmn : m ≠ n) (a : ℝ) (y : Fin (entries [m, n]) → ℝ) :
    transformedArr (unaware (shiftV a)) [zeroMean n, unitCov n] (fun v => mvnormalArr chol v [zeroMean n, unitCov n]) true (numbers [m, n] y) = .error .valueError :=
  C97_rows_raise (t := shiftV a) hm1 hn1 hmn (D := fun _ => univ) (R := fun _ => univ) (fun _ => C49_loc a) _
    (fun x _ => by obtain ⟨out, h1, h2, -⟩ := mvnormal_rows hchol x; exact ⟨out, h1, h2⟩) fun _ _ => trivial

end

/-- Three vectors of length two raise, two vectors of length two get a wrong log-density. -/
example : ∃ chol, (∀ (a : ℝ) (y : Fin (entries [3, 2]) → ℝ),
      transformedArr (unaware (shiftV a)) [zeroMean 2, unitCov 2] (fun v => mvnormalArr chol v [zeroMean 2, unitCov 2]) true (numbers [3, 2] y) = .error .valueError) ∧
    ¬ IsLogDensityVOn (fun y => arrayJoint (transformedArr (unaware (shiftV 1)) [zeroMean 2, unitCov 2] (fun v => mvnormalArr chol v [zeroMean 2, unitCov 2]) true (numbers [2, 2] y))) (univ.pi fun _ => univ)
      (((ProbabilityTheory.multivariateGaussian (WithLp.toLp 2 0) 1).map WithLp.ofLp).map (forw fun _ => .loc (.fin 1))) := by
  choose chol hchol using fun n => exists_cholContract (n := n)
  exact ⟨chol, fun a y => C97_rows_mvnormal_raise hchol (by decide) (by decide) (by decide) a y, C97_rows_mvnormal_wrong hchol le_rfl (.inl rfl) 1⟩

end Verif.ArrGraph
