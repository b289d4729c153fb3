import Verif.Lemmas.SameCensoring

/-! # C142: the same censored variable or mixture, written in different ways -/

namespace Verif
open FVal

/-! ## Bounds -/

/-- **C142** (bounds) A bound of `clip` may be given as a constant or as another expression, and a bound that does not matter as the variable itself, as an infinite constant or as an infinite expression.  Clipping has the same
log-probability, or the same error, at every real value whichever way is used, for every clipped variable. -/
theorem C142_bounds (isInt : Bool) (lp lc : FVal → Except Err FVal) {l l' u u' : ClipArg} {lo hi : Option ℝ} (hl : LowerIs l lo) (hl' : LowerIs l' lo) (hu : UpperIs u hi) (hu' : UpperIs u' hi) (x : ℝ) :
    measurableClip isInt lp lc l u (fin x) = measurableClip isInt lp lc l' u' (fin x) := by
  rw [clip_normal_form hl hu, clip_normal_form hl' hu']
  rcases lo <;> rcases hi <;> rfl

example := C142_bounds false (fun v => normalLogprob v (fin 0) (fin 1)) (fun v => normalLogcdf v (fin 0) (fin 1)) (l := .base) (l' := .sym ninf) (u := .const (fin 2)) (u' := .sym (fin 2)) (lo := none) (hi := some 2) rfl rfl rfl rfl 1

/-- **C142** (no bounds) Clipping at bounds that do not matter, written in any of these ways, has the log-probability of the variable itself at every real value (if the variable has a log-CDF there). -/
theorem C142_no_bounds (isInt : Bool) (lp lc : FVal → Except Err FVal) {l u : ClipArg} (hl : LowerIs l none) (hu : UpperIs u none) (x : ℝ) {c : FVal} (hc : lc (fin x) = .ok c) :
    measurableClip isInt lp lc l u (fin x) = lp (fin x) := by
  rw [clip_normal_form hl hu, hc]
  rcases lp (fin x) with e | p <;> rfl

example := C142_no_bounds false (fun v => normalLogprob v (fin 0) (fin 1)) (fun v => .ok v) (l := .base) (u := .sym pinf) rfl rfl 1 rfl

/-- **C142** (inside) Strictly between the bounds clipping has the log-probability of the variable itself, so that there different bounds do not matter. -/
theorem C142_inside (isInt : Bool) (lp lc : FVal → Except Err FVal) {l u : ClipArg} {lo hi : Option ℝ} (hl : LowerIs l lo) (hu : UpperIs u hi) {x : ℝ} (h1 : ∀ a ∈ lo, a < x) (h2 : ∀ b ∈ hi, x < b) {c : FVal}
    (hc : lc (fin x) = .ok c) : measurableClip isInt lp lc l u (fin x) = lp (fin x) := by
  rw [clip_normal_form hl hu, hc]
  rcases lp (fin x) with e | p
  · rfl
  rcases lo with _ | a <;> rcases hi with _ | b
  · rfl
  · have h2 := h2 b rfl
    simp [bind, Except.bind, switch, h2.ne, h2.le]
  · have h1 := h1 a rfl
    simp [bind, Except.bind, switch, h1.ne', h1.le]
  · have h1 := h1 a rfl
    have h2 := h2 b rfl
    simp [bind, Except.bind, switch, checkParam, h1.ne', h1.le, h2.ne, h2.le, (h1.trans h2).le, h1.not_gt, h2.not_gt]

example := C142_inside false (fun v => normalLogprob v (fin 0) (fin 1)) (fun v => .ok v) (l := .const (fin (-1))) (u := .sym (fin 2)) (lo := some (-1)) (hi := some 2) rfl rfl (x := 1) (fun a ha => by cases ha; norm_num)
  (fun a ha => by cases ha; norm_num) rfl

/-! ## Rounding -/

/-- **C142** (rounding) At integers, `floor(X)` at `k` and `ceil(X)` at `k + 1` have the same log-probability, which is also that of rounding `X + 1/2` to the nearest integer at `k + 1`, for every variable with a log-CDF. -/
theorem C142_rounding (lc : FVal → Except Err FVal) (k : ℤ) :
    roundLogprob .floor lc (fin (k : ℝ)) = roundLogprob .ceil lc (fin ((k + 1 : ℤ) : ℝ)) ∧
    roundLogprob .floor lc (fin (k : ℝ)) = roundLogprob .halfToEven (fun v => lc (v - fin (1 / 2))) (fin ((k + 1 : ℤ) : ℝ)) := by
  refine ⟨?_, ?_⟩
  · rw [round_at, round_at]
    push_cast
    simp
  · rw [round_at, round_at]
    push_cast
    simp only [sub_fin]
    rw [show (k : ℝ) + 1 + 1 / 2 - 1 / 2 = k + 1 by ring, show (k : ℝ) + 1 - 1 / 2 - 1 / 2 = k - 0 by ring]

example := C142_rounding (fun v => normalLogcdf v (fin 0) (fin 1)) 2

/-- **C142** (rounded library variables) Moving a normal or uniform variable by an integer before rounding moves the log-probabilities of the rounded variable, and rounding to the nearest integer is rounding down after adding
one half. -/
theorem C142_rounded_library (op : RoundOp) (m b : ℝ) (s : FVal) (k j : ℤ) :
    roundLogprob op (fun v => normalLogcdf v (fin (m + j)) s) (fin ((k + j : ℤ) : ℝ)) = roundLogprob op (fun v => normalLogcdf v (fin m) s) (fin (k : ℝ)) ∧
    roundLogprob op (fun v => uniformLogcdf v (fin (m + j)) (fin (b + j))) (fin ((k + j : ℤ) : ℝ)) = roundLogprob op (fun v => uniformLogcdf v (fin m) (fin b)) (fin (k : ℝ)) ∧
    roundLogprob .halfToEven (fun v => normalLogcdf v (fin m) s) (fin (k : ℝ)) = roundLogprob .floor (fun v => normalLogcdf v (fin (m + 1 / 2)) s) (fin (k : ℝ)) ∧
    roundLogprob .halfToEven (fun v => uniformLogcdf v (fin m) (fin b)) (fin (k : ℝ)) = roundLogprob .floor (fun v => uniformLogcdf v (fin (m + 1 / 2)) (fin (b + 1 / 2))) (fin (k : ℝ)) := by
  refine ⟨?_, ?_, ?_, ?_⟩
  · rw [round_at, round_at]
    push_cast
    simp only [add_right_comm (k : ℝ) (j : ℝ), add_sub_right_comm (k : ℝ) (j : ℝ), normalLogcdf_shift]
  · rw [round_at, round_at]
    push_cast
    simp only [add_right_comm (k : ℝ) (j : ℝ), add_sub_right_comm (k : ℝ) (j : ℝ), uniformLogcdf_shift]
  · rw [round_at, round_at]
    simp only
    rw [show (k : ℝ) + 1 = k + 1 / 2 + 1 / 2 by ring, show (k : ℝ) - 0 = k - 1 / 2 + 1 / 2 by ring, normalLogcdf_shift, normalLogcdf_shift]
  · rw [round_at, round_at]
    simp only
    rw [show (k : ℝ) + 1 = k + 1 / 2 + 1 / 2 by ring, show (k : ℝ) - 0 = k - 1 / 2 + 1 / 2 by ring, uniformLogcdf_shift, uniformLogcdf_shift]

example := C142_rounded_library .floor 0 1 (fin 2) 3 (-1)

/-! ## Mixtures -/

/-- **C142** (reordered components) A mixture that repeats, leaves out or reorders the components of another one has, at every position, the log-probability that the other one has at the position of the component there.  In
particular a mixture of equal components has the log-probability of the component. -/
theorem C142_reordered (comps : List (FVal → Except Err FVal)) (r : List ℕ) (hr : ∀ i ∈ r, i < comps.length) {k : ℕ} (hk : k < r.length) (value : FVal) :
    stackMixtureLogprob (r.map fun i => comps.getD i fun _ => .ok 0) k value = stackMixtureLogprob comps (r[k] : ℕ) value := by
  have h1 := hr _ (List.getElem_mem hk)
  rw [C62_scalar_mixture_partial _ _ (by omega) (c := comps[r[k]]) (.inl ⟨by omega, by simp [hk, h1]⟩),
    C62_scalar_mixture_partial _ _ (by omega) (c := comps[r[k]]) (.inl ⟨by omega, by simp [h1]⟩)]

example := C142_reordered [fun v => normalLogprob v (fin 0) (fin 1), fun v => normalLogprob v (fin 3) (fin 1)] [1, 0, 1] (by simp) (k := 2) (by simp) (fin 1)

/-- **C142** (switches) `switch(c, X, Y)` and `switch(1 - c, Y, X)` have the same log-probability for conditions 0 and 1.  Missing: `stack([Y, X])[c]`, which picks the same variable, has another log-probability unless the two are
equal (`C142_switch_stack_wrong`). -/
theorem C142_switch_partial {cond : ℤ} (hc : cond = 0 ∨ cond = 1) (x y : FVal → Except Err FVal) (value : FVal) :
    switchMixtureLogprob cond x y value = switchMixtureLogprob (1 - cond) y x value := by
  rw [(C64_switch_partial cond x y value).1 hc, (C64_switch_partial (1 - cond) y x value).1 (by omega)]
  rcases hc with rfl | rfl <;> simp [switchBranch]

example := C142_switch_partial (.inr rfl) (fun v => normalLogprob v (fin 0) (fin 1)) (fun v => normalLogprob v (fin 3) (fin 1)) (fin 1)

/-- **C142** (refuted part) `switch(c, X, Y)` and `stack([Y, X])[c]` are the same variable: the element picked by NumPy's indexing is the branch taken.  They have the same log-probability at a value, for conditions 0 and 1, only if
`X` and `Y` do. -/
theorem C142_switch_stack_wrong (x y : FVal → Except Err FVal) (value : FVal) :
    (∀ cond : ℤ, (cond = 0 ∨ cond = 1) → NpElem [y, x] cond (switchBranch cond x y)) ∧
    ((∀ cond : ℤ, (cond = 0 ∨ cond = 1) → switchMixtureLogprob cond x y value = stackMixtureLogprob [y, x] cond value) ↔ x value = y value) := by
  have h : ∀ cond : ℤ, (cond = 0 ∨ cond = 1) → NpElem [y, x] cond (switchBranch cond x y) := by
    rintro cond (rfl | rfl) <;> exact .inl ⟨by omega, rfl⟩
  refine ⟨h, ?_⟩
  rw [← C64_switch_wrong]
  refine forall_congr' fun cond => forall_congr' fun hc => ?_
  rw [C62_scalar_mixture_partial [y, x] cond (by omega) (h cond hc)]

/-- **C142** (scalar and array indices) Indexing a vector of components with an array of positions, or with one position after the other: at every place the log-probability is that of the mixture with the scalar index there. -/
theorem C142_array_index {comps : List MixComp} {scalars : List (FVal → Except Err FVal)} {g : ℕ → FVal → FVal} (hlen : scalars.length = comps.length) (hsc : ∀ m (h : m < scalars.length) v, scalars[m] v = .ok (g m v))
    (hshape : ∀ c ∈ comps, c.shape = [1]) (hlp : ∀ m (h : m < comps.length) ps vs, ps.length = vs.length → comps[m].lp ps vs = .ok (vs.map (g m)))
    {I : Arr ℤ} (hI : ∀ c, InRange c I.shape → 0 ≤ I.get c ∧ I.get c < comps.length) (hI0 : I.shape ≠ []) (hne : comps ≠ []) (empty : List ℕ → FVal) (value : Arr FVal) :
    ∃ out, arrayMixtureLogprob none [.adv I] comps empty value = .ok out ∧ out.shape = I.shape ∧ ∀ c, InRange c I.shape → stackMixtureLogprob scalars (I.get c) (value.get c) = .ok (out.get c) := by
  obtain ⟨out, h1, h2, h3⟩ := C63_vector_partial hshape hlp hI hI0 hne empty value
  refine ⟨out, h1, h2, fun c hc => ?_⟩
  have h4 := hI c hc
  have h5 : (I.get c).toNat < scalars.length := by omega
  rw [C62_scalar_mixture_partial scalars _ h4.1 (c := scalars[(I.get c).toNat]) (.inl ⟨h4.1, by simp [h5]⟩), hsc, h3 c hc]

example := C142_array_index (comps := [⟨[1], fun _ vs => .ok (vs.map fun v => v)⟩, ⟨[1], fun _ vs => .ok (vs.map fun v => v + fin 1)⟩]) (scalars := [fun v => .ok v, fun v => .ok (v + fin 1)])
  (g := fun m v => if m = 0 then v else v + fin 1) rfl (fun m h v => by
    have h' : m = 0 ∨ m = 1 := by simp at h; omega
    rcases h' with rfl | rfl <;> rfl) (by simp) (fun m h ps vs _ => by
    have h' : m = 0 ∨ m = 1 := by simp at h; omega
    rcases h' with rfl | rfl <;> simp) (I := ⟨[3], fun c => if c.headD 0 = 1 then 1 else 0⟩) (fun c _ => by simp only; split_ifs <;> simp) (by simp) (by simp) (fun _ => nan) ⟨[3], fun _ => fin 1⟩

end Verif
