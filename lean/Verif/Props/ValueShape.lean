import Verif.Model.ValueShape
import Verif.Spec.ValueShape
import Verif.Lemmas.Broadcast
import Verif.Lemmas.ArrCategorical
import Verif.Props.ArrGraph
import Verif.Props.Stack
import Verif.Props.MvNormal
import Mathlib.Tactic.FinCases

/-! # C119: values of other shapes than the variable -/

namespace Verif.ArrGraph
open Verif MeasureTheory

variable {k : FVal → List FVal → Except Err FVal} {size s : List ℕ} {p : List (Arr FVal)}

theorem mapM_ok_all {α β : Type} {f : α → Except Err β} : ∀ {l : List α} {r : List β}, l.mapM f = .ok r → ∀ a ∈ l, ∃ b, f a = .ok b
  | [], _, _, a, ha => by cases ha
  | x :: l, r, h, a, ha => by
    rw [List.mapM_cons] at h
    rcases hx : f x with e | b
    · rw [hx] at h; cases h
    rcases hl : l.mapM f with e | bs
    · rw [hx, hl] at h; cases h
    rcases List.mem_cons.1 ha with rfl | ha
    · exact ⟨b, hx⟩
    · exact mapM_ok_all hl a ha

/-- When such a log-probability is given at all. -/
theorem elemwiseLogprob_ok {v out : Arr FVal} : elemwiseLogprob k v p = .ok out → bshape (v.shape :: p.map Arr.shape) = some out.shape ∧
    ∀ c, InRange c out.shape → ∃ x, entryLogprob k v p c = .ok x ∧ out.get c = x := by
  intro h
  simp only [elemwiseLogprob] at h
  rcases hb : bshape (v.shape :: p.map Arr.shape) with _ | s'
  · rw [hb] at h; cases h
  rw [hb] at h
  rcases hm : (allCoords s').mapM (entryLogprob k v p) with e | r
  · simp only [hm] at h; cases h
  simp only [hm, Except.ok.injEq] at h
  subst h
  refine ⟨rfl, fun c hc => ?_⟩
  obtain ⟨x, hx⟩ := mapM_ok_all hm c (mem_allCoords.2 hc)
  exact ⟨x, hx, by simp only [hx]⟩

theorem elemwiseLogprob_some {v : Arr FVal} {s' : List ℕ} (hb : bshape (v.shape :: p.map Arr.shape) = some s') (h : ∀ c, InRange c s' → ∃ x, entryLogprob k v p c = .ok x) :
    ∃ out, elemwiseLogprob k v p = .ok out ∧ out.shape = s' := by
  obtain ⟨r, hr⟩ := mapM_all_ok (f := entryLogprob k v p) (l := allCoords s') fun c hc => h c (mem_allCoords.1 hc)
  exact ⟨_, by simp only [elemwiseLogprob, hb, hr]; rfl, rfl⟩

/-- **C119** (arrays of numbers) A value with the shape of the draws gets one log-probability for each entry; a value of another shape gets one for each entry of the broadcast of value and parameters, and is refused
if there is none.  Missing: that values of other shapes are refused, which is false for every such variable (`C119_extra_axis_wrong`). -/
theorem C119_shape_partial (hs : DrawsShape size p s) (v : Arr FVal) :
    (∀ out, rvLogprob k size p v = .ok out → bshape (v.shape :: p.map Arr.shape) = some out.shape ∧ (v.shape = s → out.shape = s)) ∧
    (bshape (v.shape :: p.map Arr.shape) = none → rvLogprob k size p v = .error .valueError) := by
  refine ⟨fun out h => ?_, fun h => by simp only [rvLogprob, elemwiseLogprob, h]⟩
  have h1 := (elemwiseLogprob_ok h).1
  refine ⟨h1, fun e => ?_⟩
  rw [e, hs.1] at h1
  exact (Option.some.inj h1).symm

theorem fit_cons (hs : Fit s p) (n : ℕ) : Fit (n :: s) p :=
  bshape_cons_iff.2 fun t ht => fitsIn_trans (fitsIn_suffix [n] s) (bshape_cons_iff.1 hs t ht)

theorem entryLogprob_row (hs : Fit s p) {n : ℕ} {v : Arr FVal} (hv : v.shape = n :: s) {i : ℕ} {c : List ℕ} (hi : i < n) (hc : InRange c s) :
    entryLogprob k v p (i :: c) = entryLogprob k (rowOf v i) p c := by
  have hl := hc.length_eq
  simp only [entryLogprob, entryAt, rowOf, hv, List.tail_cons, project_cons_same hl.symm hi]
  congr 1
  refine List.map_congr_left fun a ha => ?_
  rw [project_cons_short]
  have := (bshape_cons_iff.1 hs a.shape (List.mem_map.2 ⟨a, ha, rfl⟩)).1
  omega

theorem dens_elemwise {v : Arr FVal} {s' : List ℕ} (hb : bshape (v.shape :: p.map Arr.shape) = some s') :
    dens (arrayJoint (elemwiseLogprob k v p)) = ((allCoords s').map fun c => dens (entryLogprob k v p c)).prod := by
  rw [elemwiseLogprob, hb, map_allCoords, List.prod_ofFn]
  exact dens_entries _ s'

/-- **C119** (refuted part) However a variable is drawn, a value with a further axis in front is accepted whenever its rows are, and its joint log-probability is that of as many independent copies of the variable
as it has rows: none at all, or any number. -/
theorem C119_extra_axis_wrong (hs : DrawsShape size p s) {n : ℕ} {v : Arr FVal} (hv : v.shape = n :: s) :
    ((∀ i < n, ∃ out, rvLogprob k size p (rowOf v i) = .ok out) → ∃ out, rvLogprob k size p v = .ok out ∧ out.shape = n :: s) ∧
    dens (arrayJoint (rvLogprob k size p v)) = ∏ i : Fin n, dens (arrayJoint (rvLogprob k size p (rowOf v i))) := by
  have hf := hs.1
  have hb : bshape (v.shape :: p.map Arr.shape) = some (n :: s) := by rw [hv]; exact fit_cons hf n
  have hrow : ∀ i, bshape ((rowOf v i).shape :: p.map Arr.shape) = some s := fun i => by rw [rowOf, hv]; exact hf
  constructor
  · intro h
    refine elemwiseLogprob_some hb fun c hc => ?_
    cases hc with
    | cons hi hc =>
      obtain ⟨out, ho⟩ := h _ hi
      have ho := elemwiseLogprob_ok ho
      rw [hrow, Option.some.injEq] at ho
      obtain ⟨x, hx, -⟩ := ho.2 _ (ho.1 ▸ hc)
      exact ⟨x, by rw [entryLogprob_row hf hv hi hc, hx]⟩
  · simp only [rvLogprob]
    rw [dens_elemwise hb, allCoords, List.map_flatMap, ← List.prod_ofFn]
    rw [List.flatMap_def, List.prod_flatten, List.map_map]
    congr 1
    refine List.ext_getElem (by simp) fun i h1 h2 => ?_
    simp only [List.getElem_map, List.getElem_range, List.getElem_ofFn, Function.comp, List.map_map]
    rw [dens_elemwise (hrow i)]
    congr 1
    refine List.map_congr_left fun c hc => ?_
    rw [Function.comp, entryLogprob_row hf hv (by simpa using h2) (mem_allCoords.1 hc)]

/-- **C119** (refuted part) A variable drawn with a given size from scalar parameters: a value of any shape is accepted if each of its entries is, and its joint log-probability has one factor for each entry of the
value, however many the variable has. -/
theorem C119_size_ignored_wrong (size : List ℕ) (hp : ∀ a ∈ p, a.shape = []) (v : Arr FVal) :
    ((∀ c, InRange c v.shape → ∃ x, k (v.get c) (p.map fun a => a.get []) = .ok x) → ∃ out, rvLogprob k size p v = .ok out ∧ out.shape = v.shape) ∧
    dens (arrayJoint (rvLogprob k size p v)) = ((allCoords v.shape).map fun c => dens (k (v.get c) (p.map fun a => a.get []))).prod := by
  have hb : bshape (v.shape :: p.map Arr.shape) = some v.shape := bshape_cons_iff.2 fun t ht => by
    obtain ⟨a, ha, rfl⟩ := List.mem_map.1 ht
    rw [hp a ha]
    have := fitsIn_suffix v.shape []
    rwa [List.append_nil] at this
  have he : ∀ c, InRange c v.shape → entryLogprob k v p c = k (v.get c) (p.map fun a => a.get []) := fun c hc => by
    rw [entryLogprob, entryAt, project_self hc]
    congr 1
    refine List.map_congr_left fun a ha => ?_
    rw [entryAt, hp a ha, project, List.zipWith_nil_right]
  constructor
  · intro h
    exact elemwiseLogprob_some hb fun c hc => by rw [he c hc]; exact h c hc
  · rw [rvLogprob, dens_elemwise hb]
    congr 1
    exact List.map_congr_left fun c hc => by rw [he c (mem_allCoords.1 hc)]

/-- **C119** (joined variables) A value whose length along the axis is not that of all parts together is refused. -/
theorem C119_join_refuses {α β : Type} {axis : ℤ} {a : ℕ} {base : List (ℕ × (Arr α → Except Err (Arr β)))} {v : Arr α} (hax : AxisIs axis v.ndim a)
    (hl : v.shape.getD a 0 ≠ (base.map Prod.fst).sum) : joinLogprob axis base v = .error .valueError := by
  replace hax := normAxis_iff.2 hax
  simp only [joinLogprob, hax, Arr.split]
  rw [if_neg]
  intro h
  exact hl h.symm

/-- **C119** (stacked numbers) A value with too few entries is refused if the log-probabilities of the entries that are there can be computed, and of a value with too many the last ones are left out. -/
theorem C119_stack_partial {α β : Type} (base : List (α → Except Err β)) (v : List α) :
    (v.length < base.length → (∀ i (h : i < v.length) (h' : i < base.length), ∃ x, base[i] v[i] = .ok x) → makeVectorLogprob 0 v base = .error .indexError) ∧
    (base.length ≤ v.length → makeVectorLogprob 0 v base = makeVectorLogprob 0 (v.take base.length) base) := by
  have h1 : ∀ (base : List (α → Except Err β)) (j : ℕ), j ≤ v.length → v.length < j + base.length → (∀ i (h : j + i < v.length) (h' : i < base.length), ∃ x, base[i] v[j + i] = .ok x) →
      makeVectorLogprob j v base = .error .indexError := by
    intro base
    induction base with
    | nil => intro j h1 h2; simp at h2; omega
    | cons b bs ih =>
      intro j hj hlt h
      simp only [makeVectorLogprob]
      rcases Nat.lt_or_ge j v.length with hjl | hjl
      · rw [List.getElem?_eq_getElem hjl]
        obtain ⟨x, hx⟩ := h 0 (by omega) (by simp)
        simp only [List.getElem_cons_zero, Nat.add_zero] at hx
        simp only [hx]
        rw [ih (j + 1) (by omega) (by simp only [List.length_cons] at hlt; omega) fun i hi hi' => ?_]
        obtain ⟨y, hy⟩ := h (i + 1) (by omega) (by simpa using hi')
        simp only [List.getElem_cons_succ] at hy
        refine ⟨y, ?_⟩
        rw [← hy]
        have e : j + 1 + i = j + (i + 1) := by omega
        simp only [e]
      · rw [List.getElem?_eq_none hjl]
  have h2 : ∀ (bs : List (α → Except Err β)) (j : ℕ), j + bs.length ≤ base.length → makeVectorLogprob j v bs = makeVectorLogprob j (v.take base.length) bs := by
    intro bs
    induction bs with
    | nil => intros; rfl
    | cons b bs ih =>
      intro j hj
      simp only [List.length_cons] at hj
      simp only [makeVectorLogprob]
      rw [List.getElem?_take_of_lt (by omega), ih (j + 1) (by omega)]
  exact ⟨fun h h' => h1 base 0 (by omega) (by omega) fun i hi hi' => by simpa using h' i (by omega) hi', fun h => h2 base 0 (by omega)⟩

section mv
open ProbabilityTheory Matrix WithLp

/-- **C119** (vectors) A value with two or more axes in front of the vectors is refused, even if the variable was drawn with this shape. -/
theorem C119_vector_axes_wrong (chol : (n : ℕ) → Matrix (Fin n) (Fin n) ℝ → Option (Matrix (Fin n) (Fin n) ℝ)) {v : Arr FVal} (hv : 3 ≤ v.ndim) (mu cov : Arr FVal) :
    ∃ e, mvnormalArr chol v [mu, cov] = .error e := by
  rw [mvnormalArr]
  rcases hb : bshape [v.shape, mu.shape] with _ | s'
  · exact ⟨_, rfl⟩
  have h3 : 3 ≤ s'.length := hv.trans (fitsIn_of_bshape hb (by simp)).1
  rcases cov.shape with _ | ⟨n, _ | ⟨n', _ | _⟩⟩
  · exact ⟨_, rfl⟩
  · exact ⟨_, rfl⟩
  · rcases v.shape.getLast? with _ | last
    · exact ⟨_, rfl⟩
    · simp only
      rw [if_neg (by omega)]
      exact ⟨_, rfl⟩
  · exact ⟨_, rfl⟩

theorem mvnormalWith_shift {n last : ℕ} {chol : Matrix (Fin n) (Fin n) ℝ → Option (Matrix (Fin n) (Fin n) ℝ)} (hchol : CholContract chol) {S : Matrix (Fin n) (Fin n) ℝ} (hS : S.PosDef)
    (m x : Fin n → ℝ) : mvnormalWith last chol x m S = (mvnormalLogprob chol x m S).map (· + .fin ((n - last) / 2 * Real.log (2 * Real.pi))) := by
  obtain ⟨L, hc, h⟩ := hchol S hS
  have hpos := h.pos
  rw [mvnormal_eval hc h, mvnormalWith, hc]
  dsimp only
  refine (chk_switch (fun A : Matrix (Fin n) (Fin n) ℝ => -half * .fin last * FVal.log (2 * .fin Real.pi) -
    half * .fin (∑ i, solveLower A (x - m) i ^ 2) - fsum (List.ofFn fun i => FVal.log (.fin (L i i)))) hpos L _).trans ?_
  have hdet := det_lower_pos h
  rw [fsum_ofFn_log fun i => (hpos i).le, ← det_lower h, FVal.log_fin_pos hdet, half]
  have h2 : (0 : ℝ) < 2 * Real.pi := by positivity
  fv [FVal.log_fin_pos h2]
  rw [prod_gaussianPDF, Real.log_div (Real.exp_pos _).ne' hdet.ne', Real.log_exp]
  simp only [Except.map, FVal.add_fin]
  congr 2
  ring

/-- **C119** (refuted part) A vector with a single entry as the value of multivariate normal vectors of any length: the entry is used for all, and the constant is that of one dimension, so the log-probability is not even
that of the vector with equal entries. -/
theorem C119_vector_short_wrong {chol : (n : ℕ) → Matrix (Fin n) (Fin n) ℝ → Option (Matrix (Fin n) (Fin n) ℝ)} {n : ℕ} (hchol : CholContract (chol n)) {mu cov : Arr FVal} (hmu : mu.shape = [n])
    (hcov : cov.shape = [n, n]) {S : Matrix (Fin n) (Fin n) ℝ} (hS : S.PosDef) (hSc : ∀ i j : Fin n, cov.get [i, j] = .fin (S i j)) {m : Fin n → ℝ} (hm : ∀ i : Fin n, mu.get [i] = .fin (m i)) (x : ℝ) :
    arrayJoint (mvnormalArr chol ⟨[1], fun _ => .fin x⟩ [mu, cov]) = (mvnormalLogprob (chol n) (fun _ => x) m S).map (· + .fin ((n - 1) / 2 * Real.log (2 * Real.pi))) := by
  have hs : bshape [[1], mu.shape] = some [n] := by
    rw [hmu, bshape_some]
    refine ⟨rfl, fun d hd => ?_⟩
    obtain rfl : d = 0 := by simpa using hd
    simp [maxDims, padded]
  have e1 : (fun i : Fin n => toReal (entryAt mu ([] ++ [(i : ℕ)]))) = m := by
    funext i
    rw [entryAt, hmu, List.nil_append, project_self (.cons i.2 .nil), hm]
    rfl
  have e3 : (fun i j : Fin n => toReal (cov.get [(i : ℕ), (j : ℕ)])) = S := by
    funext i j
    rw [hSc]
    rfl
  have er : mvnormalRow n 1 (chol n) ⟨[1], fun _ => .fin x⟩ mu cov [] = (mvnormalLogprob (chol n) (fun _ => x) m S).map (· + .fin ((n - 1) / 2 * Real.log (2 * Real.pi))) := by
    rw [mvnormalRow, e1, e3, mvnormalWith_shift hchol hS, Nat.cast_one]
    rfl
  rw [C37_mvnormal_formula hchol hS] at er ⊢
  rw [mvnormalArr, hcov]
  simp only [hs, List.getLast?_singleton, List.length_singleton, List.dropLast_singleton, allCoords, List.mapM_cons, List.mapM_nil, er]
  simp [Except.map, bind, Except.bind, pure, Except.pure, arrayJoint, allCoords, er]

end mv

/-! ### Examples: normal vectors -/

private noncomputable def normal2 : FVal → List FVal → Except Err FVal
  | x, [m, s] => normalLogprob x m s
  | _, _ => .error .valueError

/-- Three normal variables with mean 1 and standard deviation 2, and a value of shape `[2, 3]`. -/
private theorem draws3 : DrawsShape [3] [⟨[], fun _ => .fin 1⟩, ⟨[], fun _ => .fin 2⟩] [3] := ⟨by unfold Fit; decide, .inl rfl⟩

example := C119_shape_partial (k := normal2) draws3 ⟨[2], fun _ => .fin 0⟩

example := C119_extra_axis_wrong (k := normal2) draws3 (n := 2) (v := ⟨[2, 3], fun _ => .fin 0⟩) rfl

/-- One number as the value of three: accepted, with the log-density of one normal variable. -/
example : ∃ out, rvLogprob normal2 [3] [⟨[], fun _ => .fin 1⟩, ⟨[], fun _ => .fin 2⟩] ⟨[], fun _ => .fin 0⟩ = .ok out ∧ out.shape = [] :=
  (C119_size_ignored_wrong (k := normal2) [3] (by simp) _).1 fun c _ => by
    obtain ⟨x, hx, -⟩ := (C09_normal 1 (σ := 2) (by norm_num)).1.clean 0
    exact ⟨x, hx⟩

example := C119_join_refuses (axis := 0) (base := [(2, fun a : Arr FVal => elemwiseLogprob normal2 a []), (1, fun a => elemwiseLogprob normal2 a [])]) (v := ⟨[4], fun _ => .fin 0⟩) (a := 0) ⟨by decide, .inl rfl⟩ (by simp)

/-- Two stacked normal variables and a value with three entries. -/
example := (C119_stack_partial [fun x => normalLogprob x (.fin 1) (.fin 2), fun x => normalLogprob x (.fin 0) (.fin 1)] [.fin 0, .fin 1, .fin 2]).2 (by simp)

/-- And a value with one. -/
example := (C119_stack_partial [fun x => normalLogprob x (.fin 1) (.fin 2), fun x => normalLogprob x (.fin 0) (.fin 1)] [.fin 0]).1 (by simp) fun i h _ => by
  obtain rfl : i = 0 := by simpa using h
  obtain ⟨x, hx, -⟩ := (C09_normal 1 (σ := 2) (by norm_num)).1.clean 0
  exact ⟨x, hx⟩

/-- A batch of two times two vectors of length three. -/
example (chol : (n : ℕ) → Matrix (Fin n) (Fin n) ℝ → Option (Matrix (Fin n) (Fin n) ℝ)) := C119_vector_axes_wrong chol (v := ⟨[2, 2, 3], fun _ => .fin 0⟩) (by simp [Arr.ndim]) ⟨[3], fun _ => .fin 0⟩
  ⟨[3, 3], fun c => .fin (if c.headD 0 = c.getLastD 0 then 1 else 0)⟩

/-- One number for a standard normal vector of length three. -/
example (x : ℝ) : ∃ chol : (n : ℕ) → Matrix (Fin n) (Fin n) ℝ → Option (Matrix (Fin n) (Fin n) ℝ),
    arrayJoint (mvnormalArr chol ⟨[1], fun _ => .fin x⟩ [⟨[3], fun _ => .fin 0⟩, ⟨[3, 3], fun c => .fin (if c.headD 0 = c.getLastD 0 then 1 else 0)⟩]) =
      (mvnormalLogprob (chol 3) (fun _ => x) 0 1).map (· + .fin (((3 : ℕ) - 1) / 2 * Real.log (2 * Real.pi))) := by
  choose chol hchol using fun n => exists_cholContract (n := n)
  refine ⟨chol, C119_vector_short_wrong (hchol 3) rfl rfl Matrix.PosDef.one (fun i j => ?_) (fun i => rfl) x⟩
  fin_cases i <;> fin_cases j <;> simp

end Verif.ArrGraph
