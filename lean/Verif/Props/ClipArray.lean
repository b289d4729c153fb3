import Verif.Spec.ClipArray
import Verif.Props.ElemwiseArray
import Verif.Props.Censoring
import Verif.Lemmas.ProdDensity

/-! # C92: clipping arrays -/

namespace Verif
open FVal Set

theorem switch_fits {cond : Arr Prop} {a b : Arr FVal} {s : List ℕ} (hc : cond.shape = s) (ha : a.shape = s) (hb : b.shape = s) :
    ∃ out, cond.switch a b = .ok out ∧ out.shape = s ∧ ∀ c, InRange c s → out.get c = FVal.switch (cond.get c) (a.get c) (b.get c) := by
  obtain ⟨ab, h1, h2, h3⟩ := op2_fits (Prod.mk (α := FVal) (β := FVal)) ha (b := b) (by rw [hb]; exact bshape_self s)
  obtain ⟨out, o1, o2, o3⟩ := op2_fits (fun c (ab : FVal × FVal) => FVal.switch c ab.1 ab.2) hc (b := ab) (by rw [h2]; exact bshape_self s)
  refine ⟨out, by simp only [Arr.switch, h1, bind, Except.bind]; exact o1, o2, fun c hcr => ?_⟩
  rw [o3 c hcr, Arr.entry, h2, project_self hcr, h3 c hcr, Arr.entry, hb, project_self hcr]

theorem switch_num_fits {cond : Arr Prop} {v : FVal} {b : Arr FVal} {s : List ℕ} (hc : cond.shape = s) (hb : b.shape = s) :
    ∃ out, cond.switch ⟨[], fun _ => v⟩ b = .ok out ∧ out.shape = s ∧ ∀ c, InRange c s → out.get c = FVal.switch (cond.get c) v (b.get c) := by
  have h1 : (⟨[], fun _ => v⟩ : Arr FVal).op2 Prod.mk b = .ok ⟨s, fun c => (v, b.get (project c s))⟩ := by
    simp only [Arr.op2, hb, bshape_nil_left]
  obtain ⟨out, o1, o2, o3⟩ := op2_fits (fun c (ab : FVal × FVal) => FVal.switch c ab.1 ab.2) hc (b := ⟨s, fun c => (v, b.get (project c s))⟩) (bshape_self s)
  refine ⟨out, by simp only [Arr.switch, h1, bind, Except.bind]; exact o1, o2, fun c hcr => ?_⟩
  rw [o3 c hcr]
  simp only [Arr.entry, project_self hcr]

/-- The scalar steps for the bounds. -/
noncomputable def upperStep (isInt : Bool) (p k v u : FVal) : FVal :=
  FVal.switch (FVal.eq v u) (if isInt then logaddexp (log1mexp k) p else log1mexp k) (FVal.switch (gt v u) ninf p)

noncomputable def lowerStep (p k v l : FVal) : FVal := FVal.switch (FVal.eq v l) k (FVal.switch (lt v l) ninf p)

theorem clipUpper_fits {isInt : Bool} {p k v u : Arr FVal} {s : List ℕ} (hp : p.shape = s) (hk : k.shape = s) (hv : v.shape = s) (hu : bshape [s, u.shape] = some s) :
    ∃ out, clipUpperArr isInt p k v u = .ok out ∧ out.shape = s ∧ ∀ c, InRange c s → out.get c = upperStep isInt (p.get c) (k.get c) (v.get c) (u.entry c) := by
  have hcc : ∃ q : Arr FVal, clipCcdfArr isInt p k = .ok q ∧ q.shape = s ∧
      ∀ c, InRange c s → q.get c = if isInt then logaddexp (log1mexp (k.get c)) (p.get c) else log1mexp (k.get c) := by
    cases isInt with
    | false => exact ⟨_, rfl, hk, fun c _ => rfl⟩
    | true =>
      obtain ⟨q, q1, q2, q3⟩ := op2_fits logaddexp (a := k.map log1mexp) (b := p) hk (by rw [hp]; exact bshape_self s)
      exact ⟨q, q1, q2, fun c hc => by rw [q3 c hc, Arr.entry, hp, project_self hc]; rfl⟩
  obtain ⟨q, q1, q2, q3⟩ := hcc
  obtain ⟨ab, a1, a2, a3⟩ := op2_fits gt hv hu
  obtain ⟨inn, i1, i2, i3⟩ := switch_num_fits (v := ninf) a2 hp
  obtain ⟨eqa, e1, e2, e3⟩ := op2_fits FVal.eq hv hu
  obtain ⟨out, o1, o2, o3⟩ := switch_fits e2 q2 i2
  refine ⟨out, ?_, o2, fun c hc => ?_⟩
  · simp only [clipUpperArr, q1, a1, i1, e1, bind, Except.bind]
    exact o1
  · rw [o3 c hc, e3 c hc, q3 c hc, i3 c hc, a3 c hc]
    rfl

theorem clipLower_fits {p k v l : Arr FVal} {s : List ℕ} (hp : p.shape = s) (hk : k.shape = s) (hv : v.shape = s) (hl : bshape [s, l.shape] = some s) :
    ∃ out, clipLowerArr p k v l = .ok out ∧ out.shape = s ∧ ∀ c, InRange c s → out.get c = lowerStep (p.get c) (k.get c) (v.get c) (l.entry c) := by
  obtain ⟨ab, a1, a2, a3⟩ := op2_fits lt hv hl
  obtain ⟨inn, i1, i2, i3⟩ := switch_num_fits (v := ninf) a2 hp
  obtain ⟨eqa, e1, e2, e3⟩ := op2_fits FVal.eq hv hl
  obtain ⟨out, o1, o2, o3⟩ := switch_fits e2 hk i2
  refine ⟨out, ?_, o2, fun c hc => ?_⟩
  · simp only [clipLowerArr, a1, i1, e1, bind, Except.bind]
    exact o1
  · rw [o3 c hc, e3 c hc, i3 c hc, a3 c hc]
    rfl

/-- The scalar log-probability of a clipped variable when nothing raises. -/
theorem measurableClip_eq {isInt : Bool} {g h : FVal → FVal} {l u : ClipArg} {v : FVal}
    (hle : FVal.le (l.bound ninf).value (u.bound pinf).value) :
    measurableClip isInt (fun v => .ok (g v)) (fun v => .ok (h v)) l u v = .ok
      (FVal.switch (¬ ((l.bound ninf).const = true ∧ (l.bound ninf).value = ninf))
        (lowerStep (FVal.switch (¬ ((u.bound pinf).const = true ∧ (u.bound pinf).value.isInf)) (upperStep isInt (g v) (h v) v (u.bound pinf).value) (g v)) (h v) v (l.bound ninf).value)
        (FVal.switch (¬ ((u.bound pinf).const = true ∧ (u.bound pinf).value.isInf)) (upperStep isInt (g v) (h v) v (u.bound pinf).value) (g v))) := by
  simp only [measurableClip, clipLogprob, bind, Except.bind, checkParam, hle, List.foldr_cons, List.foldr_nil, and_true, if_true]
  simp only [FVal.switch, ite_self]
  rfl

theorem upperStep_top {isInt : Bool} {p k : FVal} (x : ℝ) : upperStep isInt p k (fin x) pinf = p := by
  simp [upperStep, FVal.switch, FVal.eq, gt, lt]

theorem lowerStep_bot {p k : FVal} (x : ℝ) : lowerStep p k (fin x) ninf = p := by
  simp [lowerStep, FVal.switch, FVal.eq, lt]

theorem bound_entry {b : ArrBound} {s c : List ℕ} (hfit : bshape [s, b.value.shape] = some s) (hc : InRange c s) {f : FVal → Prop} (h : b.value.all f) : f (b.value.entry c) :=
  h _ (project_inRange hfit (by simp) hc)

theorem arg_bound (b : ArrBound) (c : List ℕ) (inf : FVal) : ((b.arg c).bound inf).value = b.value.entry c ∧ ((b.arg c).bound inf).const = b.const := by
  unfold ArrBound.arg
  cases h : b.const <;> exact ⟨rfl, rfl⟩

theorem scalar_upper {isInt : Bool} {p k : FVal} {x : ℝ} {cst : Bool} {u : FVal} (hu : u = pinf ∨ ∃ r : ℝ, u = fin r) :
    FVal.switch (¬ (cst = true ∧ u.isInf)) (upperStep isInt p k (fin x) u) p = upperStep isInt p k (fin x) u := by
  unfold FVal.switch
  split
  · rfl
  · rename_i h
    have h := (not_not.1 h).2
    rcases hu with rfl | ⟨r, rfl⟩
    · exact (upperStep_top x).symm
    · simp [FVal.isInf] at h

theorem scalar_lower {p k : FVal} {x : ℝ} {cst : Bool} {l : FVal} :
    FVal.switch (¬ (cst = true ∧ l = ninf)) (lowerStep p k (fin x) l) p = lowerStep p k (fin x) l := by
  unfold FVal.switch
  split
  · rfl
  · rename_i h
    rw [(not_not.1 h).2]
    exact (lowerStep_bot x).symm

theorem partUpper_fits {isInt : Bool} {p k v : Arr FVal} {u : ArrBound} {s : List ℕ} (hp : p.shape = s) (hk : k.shape = s) (hv : v.shape = s)
    (hu : bshape [s, u.value.shape] = some s) (hok : u.UpperOk) (hfin : ∀ c, InRange c s → ∃ x : ℝ, v.get c = fin x) :
    ∃ out, clipPartUpper isInt p k v u = .ok out ∧ out.shape = s ∧ ∀ c, InRange c s → out.get c = upperStep isInt (p.get c) (k.get c) (v.get c) (u.value.entry c) := by
  unfold clipPartUpper
  split
  · exact clipUpper_fits hp hk hv hu
  · rename_i h
    refine ⟨p, rfl, hp, fun c hc => ?_⟩
    obtain ⟨x, hx⟩ := hfin c hc
    have h := (not_not.1 h).2
    have h1 := bound_entry hu hc h
    rcases bound_entry hu hc hok with h2 | ⟨r, h2⟩
    · rw [h2, hx, upperStep_top]
    · rw [h2] at h1; simp [FVal.isInf] at h1

theorem partLower_fits {p k v : Arr FVal} {l : ArrBound} {s : List ℕ} (hp : p.shape = s) (hk : k.shape = s) (hv : v.shape = s)
    (hl : bshape [s, l.value.shape] = some s) (hfin : ∀ c, InRange c s → ∃ x : ℝ, v.get c = fin x) :
    ∃ out, clipPartLower p k v l = .ok out ∧ out.shape = s ∧ ∀ c, InRange c s → out.get c = lowerStep (p.get c) (k.get c) (v.get c) (l.value.entry c) := by
  unfold clipPartLower
  split
  · exact clipLower_fits hp hk hv hl
  · rename_i h
    refine ⟨p, rfl, hp, fun c hc => ?_⟩
    obtain ⟨x, hx⟩ := hfin c hc
    have h1 : l.value.entry c = ninf := bound_entry hl hc (not_not.1 h).2
    rw [h1, hx, lowerStep_bot]

theorem check_ok {p l u : Arr FVal} {t : List ℕ} (ht : bshape [l.shape, u.shape] = some t) (h : BoundsOrdered l u t) : clipCheckArr p l u = .ok p := by
  simp only [clipCheckArr, Arr.op2, ht, bind, Except.bind]
  rw [if_pos]
  exact h

theorem check_error {p l u : Arr FVal} {t : List ℕ} (ht : bshape [l.shape, u.shape] = some t) (h : ¬ BoundsOrdered l u t) : clipCheckArr p l u = .error .parameterValue := by
  simp only [clipCheckArr, Arr.op2, ht, bind, Except.bind]
  rw [if_neg]
  exact h

theorem padded_eq {N i : ℕ} {t : List ℕ} (hN : t.length ≤ N) (h : i < t.length) : padded N t (N - t.length + i) = t[i] := by
  rw [padded, List.getD_append_right _ _ _ _ (by simp), List.length_replicate, Nat.add_sub_cancel_left, List.getD_eq_getElem]

/-- Bounds that fit into the shape of the value are read at the same places by the check. -/
theorem ordered_entry {l u : Arr FVal} {s t c : List ℕ} (hl : bshape [s, l.shape] = some s) (hu : bshape [s, u.shape] = some s) (ht : bshape [l.shape, u.shape] = some t)
    (h : BoundsOrdered l u t) (hc : InRange c s) : FVal.le (l.entry c) (u.entry c) := by
  have hcl := hc.length_eq
  have hll := le_maxDims (shapes := [s, l.shape]) (t := l.shape) (by simp)
  have hul := le_maxDims (shapes := [s, u.shape]) (t := u.shape) (by simp)
  rw [← (bshape_some.1 hl).1] at hll
  rw [← (bshape_some.1 hu).1] at hul
  have htl : t.length ≤ s.length := by
    rw [(bshape_some.1 ht).1]
    exact maxDims_le (by simp [hll, hul])
  have hfit : ∀ a : Arr FVal, bshape [s, a.shape] = some s → ∀ i (hi : i < a.shape.length), a.shape[i] = 1 ∨ ∃ h : s.length - a.shape.length + i < s.length, a.shape[i] = s[s.length - a.shape.length + i] := by
    intro a ha i hi
    have hal := le_maxDims (shapes := [s, a.shape]) (t := a.shape) (by simp)
    have hb := bshape_some.1 ha
    rw [← hb.1] at hal
    have hd : s.length - a.shape.length + i < s.length := by omega
    have := (hb.2 _ hd).1 a.shape (by simp)
    rw [← hb.1, padded_eq hal hi] at this
    exact this.imp id fun h => ⟨hd, h⟩
  have htr : InRange (project c t) t := by
    refine List.forall₂_iff_get.2 ⟨project_length (by omega), fun i h1 h2 => ?_⟩
    simp only [List.get_eq_getElem]
    rw [project_getElem (by omega)]
    split
    · omega
    · rename_i hne
      obtain ⟨a, ha, hae⟩ := ((bshape_some.1 ht).2 i h2).2 hne
      have hal := le_maxDims ha
      rw [← (bshape_some.1 ht).1] at hal hae
      have hia : t.length - a.length ≤ i := by
        by_contra hlt
        rw [padded, List.getD_append _ _ _ _ (by simp; omega), List.getD_eq_getElem _ _ (by simp; omega), List.getElem_replicate] at hae
        exact hne hae.symm
      have h3 : t[i] = a[i - (t.length - a.length)]'(by omega) := by
        rw [← hae, ← padded_eq hal (by omega)]
        congr 1
        omega
      have hcase : ∀ b : Arr FVal, bshape [s, b.shape] = some s → ∀ hb : b.shape = a, t[i] = s[s.length - t.length + i] := by
        intro b hbs hb
        subst hb
        rcases hfit b hbs (i - (t.length - b.shape.length)) (by omega) with h4 | ⟨_, h4⟩
        · exact absurd (h3.trans h4) hne
        · rw [h3, h4]
          congr 1
          omega
      have h5 : t[i] = s[s.length - t.length + i] := by
        simp only [List.mem_cons, List.not_mem_nil, or_false] at ha
        rcases ha with rfl | rfl
        · exact hcase l hl rfl
        · exact hcase u hu rfl
      rw [h5]
      have e : c.length - t.length + i = s.length - t.length + i := by omega
      simp only [e]
      exact inRange_getElem hc _ _
  have hproj : ∀ a : Arr FVal, a.shape ∈ [l.shape, u.shape] → a.entry (project c t) = a.entry c := by
    intro a ha
    have hal := le_maxDims ha
    rw [← (bshape_some.1 ht).1] at hal
    unfold Arr.entry
    congr 1
    refine List.ext_getElem (by rw [project_length (by rw [project_length (by omega)]; exact hal), project_length (by omega)]) fun i h1 h2 => ?_
    rw [project_getElem (by rw [project_length (by omega)]; exact hal), project_getElem (c := c) (sh := a.shape) (by omega) h2]
    have hi : i < a.shape.length := by rw [project_length (by omega)] at h2; exact h2
    split
    · rfl
    · rename_i hne
      rw [project_getElem (by omega)]
      have hd : t.length - a.shape.length + i < t.length := by omega
      have h3 := ((bshape_some.1 ht).2 _ hd).1 a.shape ha
      rw [← (bshape_some.1 ht).1, padded_eq hal hi] at h3
      have h4 := h3.resolve_left hne
      have hpl : (project c t).length = t.length := project_length (by omega)
      simp only [hpl]
      rw [if_neg (by rw [← h4]; exact hne)]
      congr 1
      omega
  have := h _ htr
  rw [hproj l (by simp), hproj u (by simp)] at this
  exact this

/-- **C92** (entry by entry) Clipping an array of any shape, with bounds of any shape that fit into it, numbers or infinite and in order: the result has the shape of the value, and each entry is the
log-probability of the clipped scalar with the bounds at that entry. -/
theorem C92_entrywise {isInt : Bool} {s t : List ℕ} {lp lc : Arr FVal → Except Err (Arr FVal)} {g h : List ℕ → FVal → FVal} (hlp : EntrywiseFn s lp g) (hlc : EntrywiseFn s lc h)
    {l u : ArrBound} (hl : bshape [s, l.value.shape] = some s) (hu : bshape [s, u.value.shape] = some s) (ht : bshape [l.value.shape, u.value.shape] = some t)
    (hok : u.UpperOk) (hord : BoundsOrdered l.value u.value t) {v : Arr FVal} (hv : v.shape = s) (hfin : ∀ c, InRange c s → ∃ x : ℝ, v.get c = fin x) :
    ∃ out, arrayClipLogprob isInt lp lc l u v = .ok out ∧ out.shape = s ∧
      ∀ c, InRange c s → measurableClip isInt (fun v => .ok (g c v)) (fun v => .ok (h c v)) (l.arg c) (u.arg c) (v.get c) = .ok (out.get c) := by
  obtain ⟨p, p1, p2, p3⟩ := hlp v hv
  obtain ⟨k, k1, k2, k3⟩ := hlc v hv
  obtain ⟨q, q1, q2, q3⟩ := partUpper_fits (isInt := isInt) p2 k2 hv hu hok hfin
  obtain ⟨r, r1, r2, r3⟩ := partLower_fits q2 k2 hv hl hfin
  refine ⟨r, ?_, r2, fun c hc => ?_⟩
  · simp only [arrayClipLogprob, p1, k1, q1, r1, bind, Except.bind]
    split
    · exact check_ok ht hord
    · rfl
  · obtain ⟨x, hx⟩ := hfin c hc
    have hle := ordered_entry hl hu ht hord hc
    obtain ⟨al, bl⟩ := arg_bound l c ninf
    obtain ⟨au, bu⟩ := arg_bound u c pinf
    rw [measurableClip_eq (by rw [al, au]; exact hle), al, au, r3 c hc, q3 c hc, p3 c hc, k3 c hc, hx, scalar_upper (bound_entry hu hc hok), scalar_lower]

/-- **C92** Bounds that are not in order somewhere raise, for every value. -/
theorem C92_crossed_raises {isInt : Bool} {s t : List ℕ} {lp lc : Arr FVal → Except Err (Arr FVal)} {g h : List ℕ → FVal → FVal} (hlp : EntrywiseFn s lp g) (hlc : EntrywiseFn s lc h)
    {l u : ArrBound} (hl : bshape [s, l.value.shape] = some s) (hu : bshape [s, u.value.shape] = some s) (ht : bshape [l.value.shape, u.value.shape] = some t)
    (hlow : l.LowerOk) (hok : u.UpperOk) (hord : ¬ BoundsOrdered l.value u.value t) {v : Arr FVal} (hv : v.shape = s) (hfin : ∀ c, InRange c s → ∃ x : ℝ, v.get c = fin x) :
    arrayClipLogprob isInt lp lc l u v = .error .parameterValue := by
  obtain ⟨p, p1, p2, p3⟩ := hlp v hv
  obtain ⟨k, k1, k2, k3⟩ := hlc v hv
  obtain ⟨q, q1, q2, q3⟩ := partUpper_fits (isInt := isInt) p2 k2 hv hu hok hfin
  obtain ⟨r, r1, r2, r3⟩ := partLower_fits q2 k2 hv hl hfin
  have hne : ∃ c, InRange c t ∧ ¬ FVal.le (l.value.entry c) (u.value.entry c) := by
    simpa [BoundsOrdered] using hord
  obtain ⟨c, hc, hle⟩ := hne
  have hlr := project_inRange ht (t := l.value.shape) (by simp) hc
  have hur := project_inRange ht (t := u.value.shape) (by simp) hc
  have hL : l.isLower := fun ⟨_, h⟩ => by
    have : l.value.entry c = ninf := h _ hlr
    rw [this] at hle
    have hU : u.value.entry c = pinf ∨ ∃ r : ℝ, u.value.entry c = fin r := hok _ hur
    rcases hU with e | ⟨r, e⟩ <;> rw [e] at hle <;> exact hle trivial
  have hU : u.isUpper := fun ⟨_, h⟩ => by
    have h1 : (u.value.entry c).isInf := h _ hur
    have h2 : u.value.entry c = pinf ∨ ∃ r : ℝ, u.value.entry c = fin r := hok _ hur
    rcases h2 with e | ⟨r, e⟩
    · rw [e] at hle
      have h3 : l.value.entry c = ninf ∨ ∃ r : ℝ, l.value.entry c = fin r := hlow _ hlr
      rcases h3 with e' | ⟨r, e'⟩ <;> rw [e'] at hle <;> exact hle trivial
    · rw [e] at h1; simp [FVal.isInf] at h1
  simp only [arrayClipLogprob, p1, k1, q1, r1, bind, Except.bind]
  rw [if_pos ⟨hL, hU⟩]
  exact check_error ht hord

/-- **C92** (infinite constants) With bounds that are infinite constants everywhere, the log-probability is that of the variable itself, at every value, infinite ones and nan included. -/
theorem C92_infinite_constants {isInt : Bool} {lp lc : Arr FVal → Except Err (Arr FVal)} {l u : ArrBound} (hlc : l.const = true) (hl : ∀ c, InRange c l.value.shape → l.value.get c = ninf)
    (huc : u.const = true) (hu : ∀ c, InRange c u.value.shape → u.value.get c = pinf) {v p k : Arr FVal} (hp : lp v = .ok p) (hk : lc v = .ok k) :
    arrayClipLogprob isInt lp lc l u v = .ok p := by
  have h1 : ¬ l.isLower := fun h => h ⟨hlc, hl⟩
  have h2 : ¬ u.isUpper := fun h => h ⟨huc, fun c hc => by rw [hu c hc]; exact .inl rfl⟩
  simp only [arrayClipLogprob, hp, hk, bind, Except.bind, clipPartUpper, clipPartLower, if_neg h1, if_neg h2, h1, false_and, if_false]

/-- **C92** (infinite bounds that are not constants) With a lower bound that is `-inf` everywhere but not a constant, the entry at the value `-inf` is the log-CDF instead. -/
theorem C92_infinite_variables {isInt : Bool} {s : List ℕ} {lp lc : Arr FVal → Except Err (Arr FVal)} {g h : List ℕ → FVal → FVal} (hlp : EntrywiseFn s lp g) (hlc : EntrywiseFn s lc h) {l u : ArrBound}
    (hl : bshape [s, l.value.shape] = some s) (hlf : l.const = false) (hlv : ∀ c, InRange c l.value.shape → l.value.get c = ninf) (huc : u.const = true)
    (huv : ∀ c, InRange c u.value.shape → u.value.get c = pinf) {v : Arr FVal} (hv : v.shape = s) :
    ∃ out, arrayClipLogprob isInt lp lc l u v = .ok out ∧ out.shape = s ∧ ∀ c, InRange c s → (v.get c = ninf → out.get c = h c ninf) ∧ (v.get c ≠ ninf → out.get c = g c (v.get c)) := by
  obtain ⟨p, p1, p2, p3⟩ := hlp v hv
  obtain ⟨k, k1, k2, k3⟩ := hlc v hv
  have h1 : l.isLower := fun h => by rw [hlf] at h; exact absurd h.1 (by decide)
  have h2 : ¬ u.isUpper := fun h => h ⟨huc, fun c hc => by rw [huv c hc]; exact .inl rfl⟩
  obtain ⟨r, r1, r2, r3⟩ := clipLower_fits p2 k2 hv hl
  refine ⟨r, ?_, r2, fun c hc => ?_⟩
  · simp only [arrayClipLogprob, p1, k1, bind, Except.bind, clipPartUpper, clipPartLower, if_pos h1, if_neg h2, h2, and_false, if_false, r1]
  · rw [r3 c hc, p3 c hc, k3 c hc, show l.value.entry c = ninf from bound_entry (f := (· = ninf)) hl hc hlv]
    cases v.get c <;> simp [lowerStep, FVal.switch, FVal.eq, lt]

/-! ## Joint law -/

open MeasureTheory ProbabilityTheory

instance (o : Option ℝ) : SigmaFinite (atomAt o) := by
  cases o <;> simp only [atomAt] <;> infer_instance

theorem eq_countable (b : FVal) : {x : ℝ | FVal.eq (fin x) b}.Countable := by
  cases b with
  | fin r =>
    have : {x : ℝ | FVal.eq (fin x) (fin r)} = {r} := by ext x; simp [FVal.eq]
    rw [this]
    exact countable_singleton r
  | _ => simp [FVal.eq]

theorem lt_measurableSet (b : FVal) : MeasurableSet {x : ℝ | lt (fin x) b} := by
  cases b with
  | fin r => exact measurableSet_Iio
  | _ => simp [lt]

theorem gt_measurableSet (b : FVal) : MeasurableSet {x : ℝ | gt (fin x) b} := by
  cases b with
  | fin r => exact measurableSet_Ioi
  | _ => simp [gt, lt]

/-- Clipping keeps densities measurable. -/
theorem clip_measurable {isInt : Bool} {g h : FVal → FVal} (hg : Measurable fun x : ℝ => (g (fin x)).toDens) (l u : FVal) :
    Measurable fun x : ℝ => (lowerStep (upperStep isInt (g (fin x)) (h (fin x)) (fin x) u) (h (fin x)) (fin x) l).toDens := by
  refine Measurable.measurable_of_countable_ne (f := ({x : ℝ | lt (fin x) l}ᶜ ∩ {x : ℝ | gt (fin x) u}ᶜ).indicator fun x : ℝ => (g (fin x)).toDens)
    (hg.indicator ((lt_measurableSet l).compl.inter (gt_measurableSet u).compl)) (((eq_countable l).union (eq_countable u)).mono fun x hx => ?_)
  by_contra hne
  simp only [mem_union, mem_setOf_eq, not_or] at hne
  refine hx ?_
  simp only [lowerStep, upperStep, FVal.switch, hne.1, hne.2, if_false]
  by_cases h1 : lt (fin x) l
  · rw [if_pos h1, indicator_of_notMem (fun hm => hm.1 h1)]
    rfl
  · by_cases h2 : gt (fin x) u
    · rw [if_neg h1, if_pos h2, indicator_of_notMem (fun hm => hm.2 h2)]
      rfl
    · rw [if_neg h1, if_neg h2, indicator_of_mem (show x ∈ {x : ℝ | lt (fin x) l}ᶜ ∩ {x : ℝ | gt (fin x) u}ᶜ from ⟨h1, h2⟩)]

theorem clip_joint {n : ℕ} {t : List ℕ} {lp lc : Arr FVal → Except Err (Arr FVal)} {g h : List ℕ → FVal → FVal} (hlp : EntrywiseFn [n] lp g) (hlc : EntrywiseFn [n] lc h)
    {l u : ArrBound} (hl : bshape [[n], l.value.shape] = some [n]) (hu : bshape [[n], u.value.shape] = some [n]) (ht : bshape [l.value.shape, u.value.shape] = some t)
    (hok : u.UpperOk) (hord : BoundsOrdered l.value u.value t) (z : Fin n → ℝ) :
    dens (arrayJoint (arrayClipLogprob false lp lc l u (vecArr z))) = ∏ i : Fin n,
      dens (measurableClip false (fun v => .ok (g [i] v)) (fun v => .ok (h [i] v)) (l.arg [i]) (u.arg [i]) (fin (z i))) := by
  obtain ⟨out, o1, o2, o3⟩ := C92_entrywise (isInt := false) hlp hlc hl hu ht hok hord (v := vecArr z) rfl fun c hc => by
    cases hc with
    | @cons i _ c _ hi hc => cases hc; exact ⟨_, vecArr_get z hi⟩
  rw [o1]
  refine dens_arrayJoint o2 fun i => ?_
  have := o3 [i] (.cons i.2 .nil)
  rw [vecArr_get z i.2] at this
  rw [this]
  rfl

theorem clip_measurable' {n : ℕ} {t : List ℕ} {g h : List ℕ → FVal → FVal} {l u : ArrBound} (hl : bshape [[n], l.value.shape] = some [n]) (hu : bshape [[n], u.value.shape] = some [n])
    (ht : bshape [l.value.shape, u.value.shape] = some t) (hok : u.UpperOk) (hord : BoundsOrdered l.value u.value t) (i : Fin n) (hg : Measurable fun x : ℝ => (g [i] (fin x)).toDens) :
    Measurable fun x : ℝ => dens (measurableClip false (fun v => .ok (g [i] v)) (fun v => .ok (h [i] v)) (l.arg [i]) (u.arg [i]) (fin x)) := by
  have hc : InRange [(i : ℕ)] [n] := .cons i.2 .nil
  have hle := ordered_entry hl hu ht hord hc
  obtain ⟨al, bl⟩ := arg_bound l [i] ninf
  obtain ⟨au, bu⟩ := arg_bound u [i] pinf
  have e : (fun x : ℝ => dens (measurableClip false (fun v => .ok (g [i] v)) (fun v => .ok (h [i] v)) (l.arg [i]) (u.arg [i]) (fin x))) =
      fun x => (lowerStep (upperStep false (g [i] (fin x)) (h [i] (fin x)) (fin x) (u.value.entry [i])) (h [i] (fin x)) (fin x) (l.value.entry [i])).toDens := by
    funext x
    rw [measurableClip_eq (by rw [al, au]; exact hle), al, au, scalar_upper (bound_entry hu hc hok), scalar_lower]
    rfl
  rw [e]
  exact clip_measurable hg _ _

/-- **C92** (density) Clipping a vector of independent random numbers with densities, with bounds that are numbers or infinite and leave room: `exp` of the joint log-probability is the joint
density of the clipped vector with respect to Lebesgue measure plus unit atoms at the bounds, in every coordinate.  Missing: entries that are not independent, in particular one number
clipped at several bounds, where it is false (`C92_only_independent`), and equal bounds (`C59_equal_bounds_wrong`). -/
theorem C92_density_partial {Ω : Type*} [MeasurableSpace Ω] {P : Measure Ω} [IsProbabilityMeasure P] {n : ℕ} {t : List ℕ} {X : Fin n → Ω → ℝ} (hX : ∀ i, Measurable (X i))
    (hind : iIndepFun X P) {lp lc : Arr FVal → Except Err (Arr FVal)} {g h : List ℕ → FVal → FVal} (hlp : EntrywiseFn [n] lp g) (hlc : EntrywiseFn [n] lc h)
    (hd : ∀ i : Fin n, IsLogDensity (fun x => .ok (g [i] (fin x))) (P.map (X i))) (hcdf : ∀ i : Fin n, IsLogCdf (fun x => .ok (h [i] (fin x))) (P.map (X i)))
    (hg : ∀ i : Fin n, Measurable fun x : ℝ => (g [i] (fin x)).toDens)
    {l u : ArrBound} (hl : bshape [[n], l.value.shape] = some [n]) (hu : bshape [[n], u.value.shape] = some [n]) (ht : bshape [l.value.shape, u.value.shape] = some t)
    (hok : u.UpperOk) (hord : BoundsOrdered l.value u.value t) {lo hi : Fin n → Option ℝ} (hlo : ∀ i : Fin n, LowerIs (l.arg [i]) (lo i)) (hhi : ∀ i : Fin n, UpperIs (u.arg [i]) (hi i))
    (hlt : ∀ i, BoundsLt (lo i) (hi i)) :
    P.map (fun ω (i : Fin n) => clipTo (lo i) (hi i) (X i ω)) =
      (Measure.pi fun i => volume + atomAt (lo i) + atomAt (hi i)).withDensity fun z => dens (arrayJoint (arrayClipLogprob false lp lc l u (vecArr z))) := by
  have hp : ∀ i, IsProbabilityMeasure (P.map (X i)) := fun i => Measure.isProbabilityMeasure_map (hX i).aemeasurable
  have hclip : ∀ a b : Option ℝ, Measurable (clipTo a b) := fun a b => by
    unfold clipTo
    cases a <;> cases b <;> fun_prop
  simp only [clip_joint hlp hlc hl hu ht hok hord]
  have hlaw : ∀ i, P.map (fun ω => clipTo (lo i) (hi i) (X i ω)) = (volume + atomAt (lo i) + atomAt (hi i)).withDensity fun x =>
      dens (measurableClip false (fun v => .ok (g [i] v)) (fun v => .ok (h [i] v)) (l.arg [i]) (u.arg [i]) (fin x)) := fun i => by
    ext s hs
    have := (C59_clip_partial (lp := fun v => .ok (g [i] v)) (lc := fun v => .ok (h [i] v)) (hd i) (hcdf i) (hlo i) (hhi i) (hlt i)).2 s hs
    rw [withDensity_apply _ hs, this, Measure.map_map (hclip _ _) (hX i)]
    rfl
  have hs : ∀ i, SigmaFinite ((volume + atomAt (lo i) + atomAt (hi i)).withDensity fun x =>
      dens (measurableClip false (fun v => .ok (g [i] v)) (fun v => .ok (h [i] v)) (l.arg [i]) (u.arg [i]) (fin x))) := fun i => by
    rw [← hlaw i]
    have := Measure.isProbabilityMeasure_map (μ := P) (f := fun ω => clipTo (lo i) (hi i) (X i ω)) ((hclip _ _).comp (hX i)).aemeasurable
    infer_instance
  have hind' : iIndepFun (fun i ω => clipTo (lo i) (hi i) (X i ω)) P := hind.comp (fun i => clipTo (lo i) (hi i)) fun i => hclip _ _
  have hmap := (iIndepFun_iff_map_fun_eq_pi_map fun i => ((hclip (lo i) (hi i)).comp (hX i)).aemeasurable).1 hind'
  simp only [Function.comp_apply] at hmap
  rw [hmap, show (fun i => P.map (clipTo (lo i) (hi i) ∘ X i)) = _ from funext hlaw]
  exact pi_withDensity_of _ fun i => clip_measurable' hl hu ht hok hord i (hg i)

/-- **C92** is false whenever the clipped entries are dependent, in particular when one random number is clipped at a vector of bounds: if `exp` of the joint log-probability is the density of
the clipped vector (with respect to any product measure), then its entries are independent. -/
theorem C92_only_independent {Ω : Type*} [MeasurableSpace Ω] {P : Measure Ω} [IsProbabilityMeasure P] {n : ℕ} {t : List ℕ} {Y : Fin n → Ω → ℝ} (hY : ∀ i, Measurable (Y i))
    {lp lc : Arr FVal → Except Err (Arr FVal)} {g h : List ℕ → FVal → FVal} (hlp : EntrywiseFn [n] lp g) (hlc : EntrywiseFn [n] lc h)
    (hg : ∀ i : Fin n, Measurable fun x : ℝ => (g [i] (fin x)).toDens)
    {l u : ArrBound} (hl : bshape [[n], l.value.shape] = some [n]) (hu : bshape [[n], u.value.shape] = some [n]) (ht : bshape [l.value.shape, u.value.shape] = some t)
    (hok : u.UpperOk) (hord : BoundsOrdered l.value u.value t) (ν : Fin n → Measure ℝ) [∀ i, SigmaFinite (ν i)]
    (hlaw : P.map (fun ω (i : Fin n) => Y i ω) = (Measure.pi ν).withDensity fun z => dens (arrayJoint (arrayClipLogprob false lp lc l u (vecArr z)))) : iIndepFun Y P := by
  simp only [clip_joint hlp hlc hl hu ht hok hord] at hlaw
  exact iIndepFun_of_prod_density hY ν (fun i => clip_measurable' hl hu ht hok hord i (hg i)) hlaw

namespace ClipArrayDemo

/-- Log-CDF of the standard normal. -/
noncomputable def h (v : FVal) : FVal := match normalLogcdf v (.fin 0) (.fin 1) with | .ok l => l | .error _ => .nan

noncomputable def lc (x : Arr FVal) : Except Err (Arr FVal) := .ok (x.map h)

theorem lc_entrywise (s : List ℕ) : EntrywiseFn s lc fun _ => h := fun x hx => ⟨_, rfl, hx, fun _ _ => rfl⟩

theorem h_cdf : IsLogCdf (fun x => .ok (h (fin x))) (gaussianReal 0 (1 ^ 2 : ℝ).toNNReal) := by
  have hc := (C43_normal_logcdf 0 (σ := 1) one_pos).1
  have e : (fun x : ℝ => Except.ok (h (fin x))) = fun x => normalLogcdf (fin x) (fin 0) (fin 1) := by
    funext x
    obtain ⟨v, hv, -⟩ := hc.clean x
    simp only [h, hv]
  rw [e]
  exact hc

theorem g_isDensity : IsLogDensity (fun x => .ok (RepeatedDemo.g 0 (fin x))) (gaussianReal 0 (1 ^ 2 : ℝ).toNNReal) := by
  have hd := (C09_normal 0 one_pos).1
  have e : (fun x : ℝ => Except.ok (RepeatedDemo.g 0 (.fin x))) = fun x => normalLogprob (.fin x) (.fin 0) (.fin 1) := by
    funext x
    obtain ⟨v, hv, -⟩ := hd.clean x
    simp only [RepeatedDemo.g, hv]
  rw [e]
  exact hd

/-- The bounds `0` and `[1, inf]`. -/
noncomputable def lower : ArrBound := ⟨numArr (fin 0), true⟩
noncomputable def upper : ArrBound := ⟨⟨[2], fun c => if c = [0] then fin 1 else pinf⟩, true⟩

theorem upper_ok : upper.UpperOk := fun c _ => by
  by_cases hc : c = [0]
  · right; exact ⟨1, by simp [upper, hc]⟩
  · left; simp [upper, hc]

theorem in_order : BoundsOrdered lower.value upper.value [2] := fun c _ => by
  have h1 : lower.value.entry c = fin 0 := rfl
  rw [h1]
  show FVal.le (fin 0) (if project c [2] = [0] then fin 1 else pinf)
  split <;> simp [FVal.le]

/-- Clipping two standard normals at `0` from below and the first one at `1` from above. -/
example : (Measure.infinitePi fun _ : Fin 2 => gaussianReal 0 (1 ^ 2 : ℝ).toNNReal).map (fun ω (i : Fin 2) => clipTo (some 0) (![some 1, none] i) (ω i)) =
    (Measure.pi fun i => volume + atomAt (some 0) + atomAt (![some 1, none] i)).withDensity fun z =>
      dens (arrayJoint (arrayClipLogprob false ElemwiseArrayDemo.lp lc lower upper (vecArr z))) :=
  C92_density_partial (P := Measure.infinitePi fun _ : Fin 2 => gaussianReal 0 (1 ^ 2 : ℝ).toNNReal) (X := fun k ω => ω k) (fun k => measurable_pi_apply k)
    (iIndepFun_infinitePi (P := fun _ : Fin 2 => gaussianReal 0 (1 ^ 2 : ℝ).toNNReal) (X := fun _ x => x) fun _ => measurable_id) (ElemwiseArrayDemo.lp_entrywise [2]) (lc_entrywise [2])
    (fun i => by rw [Measure.infinitePi_map_eval]; exact g_isDensity) (fun i => by rw [Measure.infinitePi_map_eval]; exact h_cdf)
    (fun i => by have := RepeatedDemo.g_dens 0; rw [this]; exact measurable_gaussianPDF _ _)
    (l := lower) (u := upper) (bshape_nil_right [2]) (bshape_self [2]) (bshape_nil_left [2]) upper_ok in_order (lo := fun _ => some 0) (hi := ![some 1, none])
    (fun i => rfl) (fun i => by fin_cases i <;> rfl) (fun i => by fin_cases i <;> simp [BoundsLt])

example : ∃ out, arrayClipLogprob false ElemwiseArrayDemo.lp lc lower upper (vecArr ![0, 1]) = .ok out ∧ out.shape = [2] ∧ ∀ c, InRange c [2] →
    measurableClip false (fun v => .ok (RepeatedDemo.g 0 v)) (fun v => .ok (h v)) (lower.arg c) (upper.arg c) ((vecArr ![0, 1]).get c) = .ok (out.get c) :=
  C92_entrywise (s := [2]) (t := [2]) (ElemwiseArrayDemo.lp_entrywise [2]) (lc_entrywise [2]) (l := lower) (u := upper) (bshape_nil_right [2]) (bshape_self [2]) (bshape_nil_left [2])
    upper_ok in_order (v := vecArr ![0, 1]) rfl fun c hc => by
      cases hc with
      | @cons i _ c _ hi hc => cases hc; exact ⟨_, vecArr_get _ hi⟩

/-- The lower bound `2` is above the first upper bound. -/
example : arrayClipLogprob false ElemwiseArrayDemo.lp lc ⟨numArr (fin 2), false⟩ upper (vecArr ![0, 1]) = .error .parameterValue :=
  C92_crossed_raises (s := [2]) (t := [2]) (ElemwiseArrayDemo.lp_entrywise [2]) (lc_entrywise [2]) (l := ⟨numArr (fin 2), false⟩) (u := upper) (bshape_nil_right [2]) (bshape_self [2])
    (bshape_nil_left [2]) (fun c _ => .inr ⟨2, rfl⟩) upper_ok (fun hne => by
      have h1 := hne [0] (.cons (by norm_num) .nil)
      have h2 : upper.value.entry [0] = fin 1 := by simp [upper, Arr.entry, project]
      rw [h2, show Arr.entry (⟨numArr (fin 2), false⟩ : ArrBound).value [0] = fin 2 from rfl] at h1
      simp [FVal.le] at h1) (v := vecArr ![0, 1]) rfl fun c hc => by
      cases hc with
      | @cons i _ c _ hi hc => cases hc; exact ⟨_, vecArr_get _ hi⟩

/-- Infinite bounds: at `-inf` the density of the normal variable if they are constants, its log-CDF if not. -/
example (x : ℝ) : arrayClipLogprob false ElemwiseArrayDemo.lp lc ⟨numArr ninf, true⟩ ⟨numArr pinf, true⟩ ⟨[2], fun c => if c = [0] then ninf else fin x⟩ =
    .ok ((⟨[2], fun c => if c = [0] then ninf else fin x⟩ : Arr FVal).map (RepeatedDemo.g 0)) :=
  C92_infinite_constants rfl (fun _ _ => rfl) rfl (fun _ _ => rfl) rfl rfl

example (x : ℝ) : ∃ out, arrayClipLogprob false ElemwiseArrayDemo.lp lc ⟨numArr ninf, false⟩ ⟨numArr pinf, true⟩ ⟨[2], fun c => if c = [0] then ninf else fin x⟩ = .ok out ∧
    out.get [0] = h ninf ∧ out.get [1] = RepeatedDemo.g 0 (fin x) := by
  obtain ⟨out, h1, -, h3⟩ := C92_infinite_variables (isInt := false) (s := [2]) (ElemwiseArrayDemo.lp_entrywise [2]) (lc_entrywise [2]) (l := ⟨numArr ninf, false⟩) (u := ⟨numArr pinf, true⟩)
    (bshape_nil_right [2]) rfl (fun _ _ => rfl) rfl (fun _ _ => rfl) (v := ⟨[2], fun c => if c = [0] then ninf else fin x⟩) rfl
  exact ⟨out, h1, (h3 [0] (.cons (by norm_num) .nil)).1 rfl, (h3 [1] (.cons (by norm_num) .nil)).2 (by simp)⟩

/-- One standard normal `X` clipped at `[0, 0]` from below: wrong with respect to every product measure. -/
theorem twice_wrong (ν : Fin 2 → Measure ℝ) [∀ i, SigmaFinite (ν i)] : (gaussianReal 0 (1 ^ 2 : ℝ).toNNReal).map (fun ω (_ : Fin 2) => max 0 ω) ≠
    (Measure.pi ν).withDensity fun z => dens (arrayJoint (arrayClipLogprob false ElemwiseArrayDemo.lp lc ⟨vecArr ![0, 0], false⟩ ⟨numArr pinf, true⟩ (vecArr z))) := by
  intro hlaw
  have hind := C92_only_independent (P := gaussianReal 0 (1 ^ 2 : ℝ).toNNReal) (Y := fun _ ω => max 0 ω) (fun _ => by fun_prop) (ElemwiseArrayDemo.lp_entrywise [2]) (lc_entrywise [2])
    (fun i => by have := RepeatedDemo.g_dens 0; rw [this]; exact measurable_gaussianPDF _ _) (l := ⟨vecArr ![0, 0], false⟩) (u := ⟨numArr pinf, true⟩) (t := [2])
    (bshape_self [2]) (bshape_nil_right [2]) (bshape_nil_right [2]) (fun c _ => .inl rfl) (fun c hc => by
      have h1 : (vecArr ![0, 0]).entry c = fin 0 := by
        cases hc with
        | @cons i _ c _ hi hc =>
          cases hc
          rw [Arr.entry, show (vecArr ![(0 : ℝ), 0]).shape = [2] from rfl, project_self (.cons hi .nil), vecArr_get _ hi]
          have : i = 0 ∨ i = 1 := by omega
          rcases this with rfl | rfl <;> rfl
      show FVal.le ((vecArr ![0, 0]).entry c) pinf
      rw [h1]
      trivial) ν hlaw
  have h2 := (hind.indepFun (i := 0) (j := 1) (by decide)).measure_inter_preimage_eq_mul {0} {0} (measurableSet_singleton 0) (measurableSet_singleton 0)
  have e : (fun ω : ℝ => max 0 ω) ⁻¹' {0} = Iic 0 := by ext x; simp
  rw [e, inter_self] at h2
  have hv : (1 ^ 2 : ℝ).toNNReal ≠ 0 := by simp
  have h0 : gaussianReal 0 (1 ^ 2 : ℝ).toNNReal (Iic 0) ≠ 0 := gaussian_ne_zero 0 (σ := 1) (by norm_num) (by simp)
  have h1 : gaussianReal 0 (1 ^ 2 : ℝ).toNNReal (Ioi 0) ≠ 0 := gaussian_ne_zero 0 (σ := 1) (by norm_num) (by simp)
  have h3 : gaussianReal 0 (1 ^ 2 : ℝ).toNNReal (Iic 0) = 1 := by
    have := (ENNReal.mul_eq_left h0 (measure_ne_top _ _)).1 h2.symm
    exact this
  rw [← compl_Iic, prob_compl_eq_zero_iff measurableSet_Iic |>.2 h3] at h1
  exact h1 rfl

end ClipArrayDemo

end Verif
