import Verif.Model.Switching
import Verif.Spec.Mixture
import Verif.Props.MixtureArray

/-! # C85: switching processes -/

namespace Verif

/-- NumPy indexing with integer arrays that are broadcast against each other. -/
theorem npSelect_adv_bcast {as : List (Arr ℤ)} {sh s : List ℕ} (hs : bshape (as.map Arr.shape) = some s)
    (h : List.Forall₂ (fun (a : Arr ℤ) (n : ℕ) => ∀ c, InRange c a.shape → -(n : ℤ) ≤ a.get c ∧ a.get c < n) as sh) :
    ∃ R, npSelect (as.map Index.adv) sh = .ok R ∧ R.shape = s ∧
      ∀ c, InRange c s → R.get c = List.zipWith (fun a n => wrap n (a.get (project c a.shape))) as sh := by
  have hl := h.length_eq
  have hadv : ∀ (as : List (Arr ℤ)) (sh : List ℕ), (List.zipWith (fun a n => Item.adv (a.map (wrap n))) as sh).filter Item.basic = [] := fun as sh => by
    rw [List.filter_eq_nil_iff]
    intro i hi
    obtain ⟨n, hn, rfl⟩ := List.mem_iff_getElem.1 hi
    simp [Item.basic]
  have hshape : ∀ (as : List (Arr ℤ)) (sh : List ℕ), as.length = sh.length →
      (List.zipWith (fun a n => Item.adv (a.map (wrap n))) as sh).filterMap Item.advShape = as.map Arr.shape := by
    intro as
    induction as with
    | nil => simp
    | cons a as ih =>
      rintro (_ | ⟨n, sh⟩) hl
      · simp at hl
      · rw [List.zipWith_cons_cons, List.filterMap_cons, ih sh (by simpa using hl)]; rfl
  have hk : blockAt (List.zipWith (fun a n => Item.adv (a.map (wrap n))) as sh) = 0 := by
    rw [blockAt]
    split
    · rcases as with _ | ⟨a, as⟩ <;> rcases sh with _ | ⟨n, sh⟩ <;> simp [Item.basic]
    · rfl
  have hb : bshape ((List.zipWith (fun a n => Item.adv (a.map (wrap n))) as sh).filterMap Item.advShape) = some s := by
    rw [hshape as sh hl]
    exact hs
  refine ⟨_, by rw [npSelect, items_adv h]; simp only [bind, Except.bind, hb]; rfl, ?_, fun c hc => ?_⟩
  · simp [hadv, hk]
  · simp only [hk, List.drop_zero, List.take_zero, List.nil_append]
    rw [pick_adv, List.take_of_length_le (by rw [hc.length_eq])]

/-- **C85** Any number of components that are scalars or vectors (broadcast to a common shape `S`), and states of any shape: the process has the shape of the states broadcast
with the components, and has at every place the entry of the component with the state of that place.  Missing: components with two or more axes, for which it is false
(`C85_two_axes_wrong`, `C85_two_axes_raises`). -/
theorem C85_switching_partial {α : Type} {comps : List (Arr α)} {S : List ℕ} (hne : comps ≠ []) (hS : bshape (comps.map Arr.shape) = some S) (hdim : S.length ≤ 1)
    {states : Arr ℤ} (hr : ∀ c, InRange c states.shape → -(comps.length : ℤ) ≤ states.get c ∧ states.get c < comps.length) {s : List ℕ} (hs : bshape [states.shape, S] = some s) :
    ∃ R, switchingProcess comps states = .ok R ∧ R.shape = s ∧
      ∀ c, InRange c s → ∃ comp, NpElem comps (states.get (project c states.shape)) comp ∧ R.get c = comp.get (project c comp.shape) := by
  obtain ⟨c0, cs, rfl⟩ := List.exists_cons_of_ne_nil hne
  have hcl : ∀ comp ∈ c0 :: cs, comp.shape.length ≤ S.length := fun comp hc => by
    rw [(bshape_some.1 hS).1]
    exact le_maxDims (List.mem_map_of_mem hc)
  -- the index arrays
  have hidx : switchingIndices states S = (states :: S.map arange).map Index.adv := by simp [switchingIndices]
  have hsb : bshape ((states :: S.map arange).map Arr.shape) = some s := by
    rcases S with _ | ⟨n, _ | ⟨m, S⟩⟩
    · have h1 := bshape_some.1 hs
      rw [List.map_nil, List.map_cons, List.map_nil]
      have hm : maxDims [states.shape, []] = states.shape.length := by simp [maxDims]
      have hm' : maxDims [states.shape] = states.shape.length := by simp [maxDims]
      rw [bshape_some, hm']
      rw [hm] at h1
      refine ⟨h1.1, fun d hd => ⟨fun t ht => (h1.2 d hd).1 t (by simp_all), fun h2 => ?_⟩⟩
      obtain ⟨t, ht, h3⟩ := (h1.2 d hd).2 h2
      rcases List.mem_cons.1 ht with rfl | ht
      · exact ⟨_, by simp, h3⟩
      · rw [List.mem_singleton.1 ht] at h3
        refine absurd ?_ h2
        rw [← h3]
        simp [padded, List.getD_replicate]
    · exact hs
    · simp at hdim
  have hF : List.Forall₂ (fun (a : Arr ℤ) (n : ℕ) => ∀ c, InRange c a.shape → -(n : ℤ) ≤ a.get c ∧ a.get c < n) (states :: S.map arange) ((cs.length + 1) :: S) := by
    refine .cons (by simpa using hr) ?_
    have : ∀ S : List ℕ, List.Forall₂ (fun (a : Arr ℤ) (n : ℕ) => ∀ c, InRange c a.shape → -(n : ℤ) ≤ a.get c ∧ a.get c < n) (S.map arange) S := by
      intro S
      induction S with
      | nil => exact .nil
      | cons n S ih =>
        refine .cons (fun c hc => ?_) ih
        cases hc with
        | cons h _ => simp only [arange, List.headD_cons]; omega
    exact this S
  obtain ⟨R, hR, hRs, hRg⟩ := npSelect_adv_bcast hsb hF
  refine ⟨⟨R.shape, fun c => (((c0 :: cs).map (Arr.bcastTo S)).getD ((R.get c).headD 0) (c0.bcastTo S)).get (R.get c).tail⟩, ?_, hRs, fun c hc => ?_⟩
  · rw [switchingProcess, hS]
    simp only [List.map_cons, Arr.stack0, List.length_map, hidx, hR]
    simp only [List.map_cons] at hR
    simp only [hR]
  · have h1 := hr _ (project_inRange hs (t := states.shape) (by simp) hc)
    simp only [hRg c hc, List.zipWith_cons_cons, List.headD_cons, List.tail_cons, List.length_cons] at h1 ⊢
    set k := states.get (project c states.shape) with hk
    have hw : wrap (cs.length + 1) k < (c0 :: cs).length := by
      simp only [wrap, List.length_cons]
      split <;> omega
    refine ⟨(c0 :: cs)[wrap (cs.length + 1) k], ?_, ?_⟩
    · rw [NpElem]
      by_cases h0 : k < 0
      · refine .inr ⟨h0, by simp only [List.length_cons]; omega, ?_⟩
        simp only [wrap, h0, if_true, List.length_cons]
        rw [List.getElem?_eq_getElem]
      · refine .inl ⟨by omega, ?_⟩
        simp only [wrap, h0, if_false]
        rw [List.getElem?_eq_getElem]
    · rw [List.getD_eq_getElem _ _ (by simpa using hw), List.getElem_map]
      simp only [Arr.bcastTo]
      congr 1
      have h2 := hcl _ (List.getElem_mem hw)
      generalize hcomp : (c0 :: cs)[wrap (cs.length + 1) k] = comp at h2
      have hmem : comp ∈ c0 :: cs := hcomp ▸ List.getElem_mem hw
      rcases S with _ | ⟨n, _ | ⟨m, S⟩⟩
      · have : comp.shape = [] := by simpa using h2
        simp [project, this]
      · have hsl : 1 ≤ s.length := by rw [(bshape_some.1 hs).1]; exact le_maxDims (t := [n]) (by simp)
        have hcl : 1 ≤ c.length := by rw [hc.length_eq]; exact hsl
        rcases hsh : comp.shape with _ | ⟨m, _ | ⟨m', sh⟩⟩
        · simp [project]
        · have hmn : m = 1 ∨ m = n := by
            have h3 := bshape_some.1 hS
            have h4 : maxDims ((c0 :: cs).map Arr.shape) = 1 := by rw [← h3.1]; rfl
            have h5 := (h3.2 0 (by simp)).1 comp.shape (List.mem_map_of_mem hmem)
            rw [h4, hsh] at h5
            simpa [padded] using h5
          have e1 : ∀ m, project c [m] = [if m = 1 then 0 else c[c.length - 1]] := fun m => by
            simp only [project, List.length_singleton]
            rw [List.drop_eq_getElem_cons (by omega), List.zipWith_cons_cons, List.zipWith_nil_right]
          simp only [List.map_cons, List.map_nil, List.zipWith_cons_cons, List.zipWith_nil_left, arange, e1, List.headD_cons]
          rcases hmn with rfl | rfl
          · simp [project]
          · by_cases h1 : m = 1
            · simp [project, h1]
            · simp [project, h1, wrap]
        · rw [hsh] at h2; simp at h2
      · simp at hdim

/-- Broadcasting arrays of one shape. -/
theorem bshape_same {α : Type} {comps : List (Arr α)} {S : List ℕ} (hne : comps ≠ []) (h : ∀ a ∈ comps, a.shape = S) : bshape (comps.map Arr.shape) = some S :=
  bshape_replicate (fun t ht => by obtain ⟨a, ha, rfl⟩ := List.mem_map.1 ht; exact h a ha) (by simpa using hne)

/-- **C85** (refuted part) Components and states with two axes of one length `n ≥ 2`: the process has, at the place `[i, j]`, the entry `[j, j]` of the component with
the state of the place, whatever `i` is. -/
theorem C85_two_axes_wrong {α : Type} {comps : List (Arr α)} {n : ℕ} (hn : 2 ≤ n) (hne : comps ≠ []) (hS : ∀ a ∈ comps, a.shape = [n, n]) {states : Arr ℤ} (hst : states.shape = [n, n])
    (hr : ∀ c, InRange c states.shape → 0 ≤ states.get c ∧ states.get c < comps.length) :
    ∃ R, switchingProcess comps states = .ok R ∧ R.shape = [n, n] ∧
      ∀ i j, i < n → j < n → ∃ comp, NpElem comps (states.get [i, j]) comp ∧ R.get [i, j] = comp.get [j, j] := by
  have hb := bshape_same hne hS
  obtain ⟨c0, cs, rfl⟩ := List.exists_cons_of_ne_nil hne
  have hsb : bshape ((states :: [n, n].map arange).map Arr.shape) = some [n, n] := by
    rw [bshape_some]
    have hm : maxDims ((states :: [n, n].map arange).map Arr.shape) = 2 := by simp [maxDims, hst, arange]
    rw [hm]
    refine ⟨rfl, fun d hd => ?_⟩
    have hd' : d = 0 ∨ d = 1 := by simp at hd; omega
    rcases hd' with rfl | rfl <;> simp [padded, hst, arange]
  have hF : List.Forall₂ (fun (a : Arr ℤ) (n : ℕ) => ∀ c, InRange c a.shape → -(n : ℤ) ≤ a.get c ∧ a.get c < n) (states :: [n, n].map arange) [cs.length + 1, n, n] := by
    have ha : ∀ c, InRange c (arange n).shape → -(n : ℤ) ≤ (arange n).get c ∧ (arange n).get c < n := fun c hc => by
      cases hc with
      | cons h _ => simp only [arange, List.headD_cons]; omega
    refine .cons (fun c hc => ?_) (.cons ha (.cons ha .nil))
    have := hr c hc
    simp only [List.length_cons] at this
    omega
  obtain ⟨R, hR, hRs, hRg⟩ := npSelect_adv_bcast hsb hF
  refine ⟨⟨R.shape, fun c => (((c0 :: cs).map (Arr.bcastTo [n, n])).getD ((R.get c).headD 0) (c0.bcastTo [n, n])).get (R.get c).tail⟩, ?_, hRs, fun i j hi hj => ?_⟩
  · rw [switchingProcess, hb]
    have hidx : switchingIndices states [n, n] = (states :: [n, n].map arange).map Index.adv := by simp [switchingIndices]
    simp only [List.map_cons, Arr.stack0, List.length_map, hidx]
    simp only [List.map_cons] at hR
    simp only [hR]
  · have hc : InRange [i, j] [n, n] := .cons hi (.cons hj .nil)
    have h1 := hr [i, j] (by rw [hst]; exact hc)
    have hp : project [i, j] states.shape = [i, j] := by rw [hst]; exact project_self hc
    have hlt : (states.get [i, j]).toNat < (c0 :: cs).length := by omega
    have hn1 : n ≠ 1 := by omega
    refine ⟨(c0 :: cs)[(states.get [i, j]).toNat], .inl ⟨h1.1, List.getElem?_eq_getElem hlt⟩, ?_⟩
    have hg : R.get [i, j] = [(states.get [i, j]).toNat, j, j] := by
      rw [hRg _ hc]
      have : ¬ states.get [i, j] < 0 := by omega
      have hpa : project [i, j] (arange n).shape = [j] := by simp [project, arange, hn1]
      have hga : (arange n).get [j] = (j : ℤ) := rfl
      simp [hp, wrap, this, hpa, hga]
    simp only [hg, List.headD_cons, List.tail_cons]
    rw [List.getD_eq_getElem _ _ (by simpa using hlt), List.getElem_map]
    simp only [Arr.bcastTo]
    rw [hS _ (List.getElem_mem hlt), project_self (.cons hj (.cons hj .nil))]

/-- **C85** (refuted part) Components with two axes of different lengths (neither of length one): the construction raises, whatever the states. -/
theorem C85_two_axes_raises {α : Type} {comps : List (Arr α)} {m n : ℕ} (hm : m ≠ 1) (hn : n ≠ 1) (hmn : m ≠ n) (hne : comps ≠ []) (hS : ∀ a ∈ comps, a.shape = [m, n]) (states : Arr ℤ) :
    switchingProcess comps states = .error .indexError := by
  have hb := bshape_same hne hS
  obtain ⟨c0, cs, rfl⟩ := List.exists_cons_of_ne_nil hne
  rw [switchingProcess, hb]
  simp only [List.map_cons, Arr.stack0, List.length_map]
  have key : npSelect (switchingIndices states [m, n]) [cs.length + 1, m, n] = .error .indexError := by
    rw [npSelect]
    rcases hi : items (switchingIndices states [m, n]) [cs.length + 1, m, n] with e | its
    · simp only [switchingIndices, List.map_cons, List.map_nil, items] at hi
      split at hi
      · rw [if_pos, if_pos] at hi
        · cases hi
        · intro c hc
          cases hc with
          | cons h _ => simp only [arange, List.headD_cons]; omega
        · intro c hc
          cases hc with
          | cons h _ => simp only [arange, List.headD_cons]; omega
      · cases hi; rfl
    · simp only [bind, Except.bind]
      have hsh : its.filterMap Item.advShape = [states.shape, [m], [n]] := by
        simp only [switchingIndices, List.map_cons, List.map_nil, items] at hi
        split at hi
        · rw [if_pos, if_pos] at hi
          · cases hi; rfl
          · intro c hc
            cases hc with
            | cons h _ => simp only [arange, List.headD_cons]; omega
          · intro c hc
            cases hc with
            | cons h _ => simp only [arange, List.headD_cons]; omega
        · cases hi
      rw [hsh]
      rcases hbs : bshape [states.shape, [m], [n]] with _ | s
      · rfl
      · exfalso
        have h := bshape_some.1 hbs
        have hl1 : 1 ≤ maxDims [states.shape, [m], [n]] := le_maxDims (t := [m]) (by simp)
        have h2 := (h.2 (s.length - 1) (by omega)).1
        have hp : ∀ k, padded (maxDims [states.shape, [m], [n]]) [k] (s.length - 1) = k := fun k => by
          rw [padded, List.getD_append_right _ _ _ _ (by simp; omega)]
          simp [h.1]
        have hm' := (h2 [m] (by simp)).resolve_left (by rw [hp]; exact hm)
        have hn' := (h2 [n] (by simp)).resolve_left (by rw [hp]; exact hn)
        rw [hp] at hm' hn'
        exact hmn (hm'.trans hn'.symm)
  rw [key]

/-- **C85** (log-probability) Any number of vector components of length `n` with elementwise log-probabilities `f`, and states of any shape that selects existing components: at
every place, the log-probability of a switching process is that of the entry selected by `C85_switching_partial` (the component with the state of that place, at the place's last coordinate), at
the value of the place. -/
theorem C85_logprob_partial {comps : List MixComp} {n : ℕ} {f : ℕ → List ℕ → FVal → FVal} (hne : comps ≠ []) (hshape : ∀ c ∈ comps, c.shape = [1, n])
    (hlp : ∀ m (h : m < comps.length) ps vs, ps.length = vs.length → (∀ p ∈ ps, InRange p [1, n]) → comps[m].lp ps vs = .ok (List.zipWith (f m) ps vs))
    {states : Arr ℤ} (hr : ∀ c, InRange c states.shape → 0 ≤ states.get c ∧ states.get c < comps.length) {s : List ℕ} (hs : bshape [states.shape, [n]] = some s)
    (empty : List ℕ → FVal) (value : Arr FVal) :
    ∃ out, arrayMixtureLogprob (some 0) (switchingIndices states [n]) comps empty value = .ok out ∧ out.shape = s ∧
      ∀ c, InRange c s → out.get c = f (states.get (project c states.shape)).toNat (0 :: project c [n]) (value.get c) := by
  have hF : List.Forall₂ (fun (a : Arr ℤ) (n : ℕ) => ∀ c, InRange c a.shape → -(n : ℤ) ≤ a.get c ∧ a.get c < n) [states, arange n] [comps.length, n] := by
    refine .cons (fun c hc => by have := hr c hc; omega) (.cons (fun c hc => ?_) .nil)
    cases hc with
    | cons h _ => simp only [arange, List.headD_cons]; omega
  obtain ⟨R, hR, hRs, hRg⟩ := npSelect_adv_bcast (as := [states, arange n]) (s := s) hs hF
  obtain ⟨out, h1, h2, h3⟩ := C63_stack_partial (comps := comps) (S := [n]) (f := f) hne hshape hlp (r := 0) (I := states) (fun c hc => (hr c hc).1) (rest := [.adv (arange n)])
    ⟨arange n, by simp, by simp [arange]⟩ (by simp [Index.Ascending]) (R := R) hR empty value
  refine ⟨out, h1, h2.trans hRs, fun c hc => ?_⟩
  obtain ⟨k, rs, h4, h5, h6⟩ := h3 c (by rw [hRs]; exact hc)
  have h0 := hr _ (project_inRange hs (t := states.shape) (by simp) hc)
  rw [hRg c hc] at h4
  have hneg : ¬ states.get (project c states.shape) < 0 := by omega
  have hin := project_inRange hs (t := [n]) (by simp) hc
  have hpc : ∃ j, project c [n] = [j] ∧ j < n := by
    rcases hp : project c [n] with _ | ⟨j, _ | ⟨j', l⟩⟩
    · rw [hp] at hin; cases hin
    · rw [hp] at hin
      cases hin with
      | cons h _ => exact ⟨j, rfl, h⟩
    · rw [hp] at hin
      cases hin with
      | cons _ h => cases h
  obtain ⟨j, hj, hjn⟩ := hpc
  have hga : (arange n).get (project c (arange n).shape) = (j : ℤ) := by
    show (((project c [n]).headD 0 : ℕ) : ℤ) = j
    rw [hj]; rfl
  simp only [List.zipWith_cons_cons, List.zipWith_nil_left, wrap, hneg, if_false, hga, List.cons.injEq] at h4
  have hj0 : ¬ (j : ℤ) < 0 := by omega
  simp only [hj0, if_false, Int.toNat_natCast] at h4
  rw [h6, hj, ← h4.1, ← h4.2]

namespace SwitchingDemo

/-- A scalar and a vector of three entries. -/
def comps : List (Arr ℕ) := [⟨[], fun _ => 7⟩, ⟨[3], fun c => c.headD 0⟩]

/-- Two sequences of three states. -/
def states : Arr ℤ := ⟨[2, 3], fun c => if c.headD 0 = 0 then 1 else 0⟩

theorem states_range : ∀ c, InRange c states.shape → 0 ≤ states.get c ∧ states.get c < 2 := fun c _ => by
  simp only [states]
  split <;> omega

example : ∃ R, switchingProcess comps states = .ok R ∧ R.shape = [2, 3] ∧
    ∀ c, InRange c [2, 3] → ∃ comp, NpElem comps (states.get (project c states.shape)) comp ∧ R.get c = comp.get (project c comp.shape) :=
  C85_switching_partial (comps := comps) (S := [3]) (by simp [comps]) (by decide) (by simp) (states := states) (fun c hc => by
    have := states_range c hc
    have h : comps.length = 2 := rfl
    rw [h]; omega) (s := [2, 3]) (by decide)

example (empty : List ℕ → FVal) (value : Arr FVal) : ∃ out, arrayMixtureLogprob (some 0) (switchingIndices states [3])
      [⟨[1, 3], fun ps vs => .ok (List.zipWith (fun _ v => v) ps vs)⟩, ⟨[1, 3], fun ps vs => .ok (List.zipWith (fun p v => v + .fin (p.getLastD 0)) ps vs)⟩] empty value = .ok out ∧ out.shape = [2, 3] ∧
      ∀ c, InRange c [2, 3] → out.get c = (fun m p v => if m = 0 then v else v + .fin (p.getLastD 0)) (states.get (project c states.shape)).toNat (0 :: project c [3]) (value.get c) :=
  C85_logprob_partial (comps := [⟨[1, 3], fun ps vs => .ok (List.zipWith (fun _ v => v) ps vs)⟩, ⟨[1, 3], fun ps vs => .ok (List.zipWith (fun p v => v + .fin (p.getLastD 0)) ps vs)⟩])
    (n := 3) (f := fun m p v => if m = 0 then v else v + .fin (p.getLastD 0)) (by simp) (by simp) (fun m h ps vs _ => by
    have : m = 0 ∨ m = 1 := by simp at h; omega
    rcases this with rfl | rfl <;> simp) (states := states) states_range (by decide) empty value

/-- Two square components. -/
def squares : List (Arr ℕ) := [⟨[2, 2], fun c => c.headD 0⟩, ⟨[2, 2], fun c => 10 + c.headD 0⟩]
def states2 : Arr ℤ := ⟨[2, 2], fun _ => 1⟩

/-- The entry `[0, 1]` of the second component is `10`, the process has `11` there. -/
example : ∃ R, switchingProcess squares states2 = .ok R ∧ R.get [0, 1] = 11 ∧ squares[1].get [0, 1] = 10 := by
  obtain ⟨R, h1, -, h3⟩ := C85_two_axes_wrong (comps := squares) (n := 2) le_rfl (by simp [squares]) (by simp [squares]) (states := states2) rfl (fun c _ => by
    have h : squares.length = 2 := rfl
    rw [h]; simp [states2])
  obtain ⟨comp, h4, h5⟩ := h3 0 1 (by norm_num) (by norm_num)
  rcases h4 with h4 | h4
  · have : comp = ⟨[2, 2], fun c => 10 + c.headD 0⟩ := by
      have h6 : some _ = some comp := h4.2
      exact (Option.some.inj h6).symm
    exact ⟨R, h1, by rw [h5, this]; rfl, rfl⟩
  · exact absurd h4.1 (by simp [states2])

example (states : Arr ℤ) : switchingProcess [(⟨[2, 3], fun c => c.headD 0⟩ : Arr ℕ)] states = .error .indexError :=
  C85_two_axes_raises (m := 2) (n := 3) (by norm_num) (by norm_num) (by norm_num) (by simp) (by simp) states

end SwitchingDemo

end Verif
