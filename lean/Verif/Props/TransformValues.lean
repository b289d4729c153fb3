import Verif.Model.TransformValues
import Verif.Lemmas.Dict

/-! # C55: which values get transformed -/

namespace Verif.TransVals
open Verif

variable {R V T : Type} [DecidableEq R] [DecidableEq V]

/-- Specification: the request for `rv` asks for transform `t` of a node whose registered default is `reg`. -/
def Asks (reqs : Dict R (Option (Req T))) (rv : R) (reg : Option T) (t : T) : Prop :=
  (rv, some (.transform t)) ∈ reqs ∨ ((rv, some .default) ∈ reqs ∧ reg = some t)

theorem vt_error (M : Dict R V) (reqs : Dict R (Option (Req T))) (acc : Dict V (Option (Req T))) :
    (∃ rv ∈ Dict.keys reqs, rv ∉ Dict.keys M) ↔ valuesToTransforms M reqs acc = .error .keyError := by
  induction reqs generalizing acc with
  | nil => simp [Dict.keys, valuesToTransforms]
  | cons p reqs ih =>
    obtain ⟨rv, tr⟩ := p
    simp only [valuesToTransforms]
    cases h : Dict.get? M rv with
    | none =>
      simp only [iff_true]
      exact ⟨rv, by simp [Dict.keys], Dict.get?_eq_none.mp h⟩
    | some v =>
      simp only
      rw [← ih]
      have hm : rv ∈ Dict.keys M := Dict.get?_isSome.mp ⟨v, h⟩
      constructor
      · rintro ⟨r, hr, hr'⟩
        simp only [Dict.keys, List.map_cons, List.mem_cons] at hr
        rcases hr with rfl | hr
        · exact absurd hm hr'
        · exact ⟨r, hr, hr'⟩
      · rintro ⟨r, hr, hr'⟩
        exact ⟨r, by simp only [Dict.keys, List.map_cons, List.mem_cons]; exact .inr hr, hr'⟩

theorem vt_ok {M : Dict R V} (hk : (Dict.keys M).Nodup) (hv : (Dict.values M).Nodup) {reqs : Dict R (Option (Req T))}
    (hr : (Dict.keys reqs).Nodup) {acc vt : Dict V (Option (Req T))} (h : valuesToTransforms M reqs acc = .ok vt)
    {rv : R} {v : V} (hm : (rv, v) ∈ M) :
    Dict.get? vt v = (Dict.get? reqs rv).elim (Dict.get? acc v) some := by
  induction reqs generalizing acc with
  | nil =>
    simp only [valuesToTransforms, Except.ok.injEq] at h
    simp [Dict.get?, h]
  | cons p reqs ih =>
    obtain ⟨r, tr⟩ := p
    simp only [valuesToTransforms] at h
    cases h' : Dict.get? M r with
    | none => rw [h'] at h; cases h
    | some w =>
      rw [h'] at h
      simp only [Dict.keys, List.map_cons, List.nodup_cons] at hr
      rw [ih hr.2 h]
      simp only [Dict.get?]
      split_ifs with hrv
      · subst hrv
        rw [Dict.get?_eq_none.mpr hr.1]
        have : w = v := by
          have := Dict.get?_of_mem hk hm
          rw [h'] at this
          simpa using this
        simp [Dict.get?_set, this]
      · have hw : w ≠ v := by
          rintro rfl
          have h1 := Dict.mem_of_get? h'
          exact hrv (congrArg Prod.fst (List.inj_on_of_nodup_map hv h1 hm rfl))
        rw [Dict.get?_set, if_neg hw]

theorem transformValues_eq {vt : Dict V (Option (Req T))} {n : ValuedNode V T} (hd : n.hasDefaultOutput = true) {reqs : Dict R (Option (Req T))}
    (hr : (Dict.keys reqs).Nodup) {rv : R} (h : Dict.get? vt n.value = Dict.get? reqs rv) (t : T) :
    transformValues vt n = some t ↔ Asks reqs rv n.registered t := by
  have key (x : Option (Req T)) : (rv, x) ∈ reqs ↔ Dict.get? reqs rv = some x := ⟨Dict.get?_of_mem hr, Dict.mem_of_get?⟩
  unfold transformValues Asks
  rw [key, key, h]
  cases h' : Dict.get? reqs rv with
  | none => simp [hd]
  | some x =>
    cases x with
    | none => simp [hd]
    | some q => cases q <;> simp [hd]

/-- **C55**, errors: a request for a variable that is not among the valued variables raises `KeyError`, whatever else is requested; every
other set of requests is accepted. -/
theorem C55_unknown_variable_raises (reqs : Dict R (Option (Req T))) (M : Dict R V) (nodes : List (ValuedNode V T)) (vcv : Dict V (ValueVar V)) :
    ((∃ rv ∈ Dict.keys reqs, rv ∉ Dict.keys M) → transformValuesRewrite reqs M nodes vcv = .error .keyError) ∧
    ((∀ rv ∈ Dict.keys reqs, rv ∈ Dict.keys M) → ∃ r, transformValuesRewrite reqs M nodes vcv = .ok r) := by
  have ho : ∀ (reqs : Dict R (Option (Req T))) acc e, valuesToTransforms M reqs acc = .error e → e = .keyError := by
    intro reqs
    induction reqs with
    | nil => intro acc e h; cases h
    | cons p reqs ih =>
      intro acc e h
      simp only [valuesToTransforms] at h
      cases h' : Dict.get? M p.1 with
      | none => rw [h'] at h; cases h; rfl
      | some w => rw [h'] at h; exact ih _ _ h
  constructor
  · intro h
    simp only [transformValuesRewrite, (vt_error M reqs []).mp h]
  · intro h
    cases hv : valuesToTransforms M reqs [] with
    | error e =>
      obtain rfl := ho _ _ _ hv
      obtain ⟨rv, h1, h2⟩ := (vt_error M reqs []).mpr hv
      exact absurd (h rv h1) h2
    | ok vt => exact ⟨rewriteLoop vt nodes vcv, by simp only [transformValuesRewrite, hv]⟩

theorem rewriteLoop_fst (vt : Dict V (Option (Req T))) (nodes : List (ValuedNode V T)) (vcv : Dict V (ValueVar V)) :
    (rewriteLoop vt nodes vcv).1 = nodes.map (transformValues vt) := by
  induction nodes generalizing vcv with
  | nil => rfl
  | cons n ns ih => simp [rewriteLoop, ih]

theorem rewriteLoop_snd (vt : Dict V (Option (Req T))) (nodes : List (ValuedNode V T)) (vcv : Dict V (ValueVar V))
    (hin : ∀ n ∈ nodes, n.value ∈ Dict.keys vcv) (v : V) :
    Dict.keys (rewriteLoop vt nodes vcv).2 = Dict.keys vcv ∧
    Dict.get? (rewriteLoop vt nodes vcv).2 v =
      if ∃ n ∈ nodes, n.value = v ∧ (transformValues vt n).isSome then some (.transformed v) else Dict.get? vcv v := by
  induction nodes generalizing vcv with
  | nil => simp [rewriteLoop]
  | cons n ns ih =>
    simp only [rewriteLoop]
    have hk : Dict.keys (recordTransform vcv n (transformValues vt n)) = Dict.keys vcv := by
      cases transformValues vt n with
      | none => rfl
      | some t => exact Dict.keys_set_of_mem (hin n (by simp)) _
    obtain ⟨h1, h2⟩ := ih (recordTransform vcv n (transformValues vt n)) fun m hm => by rw [hk]; exact hin m (List.mem_cons_of_mem _ hm)
    refine ⟨h1.trans hk, ?_⟩
    rw [h2]
    by_cases ha : ∃ m ∈ ns, m.value = v ∧ (transformValues vt m).isSome
    · rw [if_pos ha, if_pos]
      obtain ⟨m, hm, h⟩ := ha
      exact ⟨m, List.mem_cons_of_mem _ hm, h⟩
    · rw [if_neg ha]
      cases ht : transformValues vt n with
      | none =>
        simp only [recordTransform]
        rw [if_neg]
        rintro ⟨m, hm, h⟩
        rcases List.mem_cons.mp hm with rfl | hm
        · rw [ht] at h; simp at h
        · exact ha ⟨m, hm, h⟩
      | some t =>
        simp only [recordTransform, Dict.get?_set]
        by_cases hv : n.value = v
        · rw [if_pos hv, if_pos ⟨n, by simp, hv, by rw [ht]; rfl⟩, hv]
        · rw [if_neg hv, if_neg]
          rintro ⟨m, hm, h⟩
          rcases List.mem_cons.mp hm with rfl | hm
          · exact hv h.1
          · exact ha ⟨m, hm, h⟩

/-- **C55**: for any accepted requests, at the node that binds `rv` to its own value variable, transform `t` is applied exactly if the request
for `rv` is `t`, or is `DEFAULT_TRANSFORM` and `t` is the registered default; in all other cases (`None`, no entry, no registered
default) the node is left alone.  The value variables keep their order, and the ones returned in the transformed space are exactly
those at which a transform was applied.
The node must still carry the value variable itself (see `C55_incsubtensor_ignored`). -/
theorem C55_exactly_requested_partial {reqs : Dict R (Option (Req T))} {M : Dict R V} {nodes : List (ValuedNode V T)} {vcv : Dict V (ValueVar V)}
    (hk : (Dict.keys M).Nodup) (hv : (Dict.values M).Nodup) (hr : (Dict.keys reqs).Nodup)
    (hin : ∀ n ∈ nodes, n.value ∈ Dict.keys vcv)
    {res : List (Option T)} {vcv' : Dict V (ValueVar V)} (h : transformValuesRewrite reqs M nodes vcv = .ok (res, vcv')) :
    ∃ f : ValuedNode V T → Option T, res = nodes.map f ∧
      (∀ n ∈ nodes, ∀ rv, (rv, n.value) ∈ M → n.hasDefaultOutput = true → ∀ t, f n = some t ↔ Asks reqs rv n.registered t) ∧
      Dict.keys vcv' = Dict.keys vcv ∧
      ∀ v, Dict.get? vcv' v = if ∃ n ∈ nodes, n.value = v ∧ (f n).isSome then some (.transformed v) else Dict.get? vcv v := by
  unfold transformValuesRewrite at h
  cases hvt : valuesToTransforms M reqs [] with
  | error e => rw [hvt] at h; cases h
  | ok vt =>
    rw [hvt] at h
    simp only [Except.ok.injEq] at h
    refine ⟨transformValues vt, ?_, ?_, ?_, ?_⟩
    · rw [← rewriteLoop_fst vt nodes vcv, h]
    · intro n _ rv hm hd t
      refine transformValues_eq hd hr ?_ t
      rw [vt_ok hk hv hr hvt hm]
      cases Dict.get? reqs rv <;> rfl
    · have := fun v => (rewriteLoop_snd vt nodes vcv hin v).1
      rw [h] at this
      cases vcv with
      | nil =>
        cases nodes with
        | nil => simp only [rewriteLoop, Prod.mk.injEq] at h; rw [← h.2]
        | cons n ns => exact absurd (hin n (by simp)) (by simp [Dict.keys])
      | cons p l => exact this p.1
    · intro v
      have := (rewriteLoop_snd vt nodes vcv hin v).2
      rwa [h] at this

/-- Two variables; a transform requested for the first, the default (none registered) for the second. -/
example := C55_exactly_requested_partial (R := ℕ) (V := ℕ) (T := ℕ) (reqs := [(0, some (.transform 7)), (1, some .default)])
  (M := [(0, 10), (1, 11)]) (nodes := [⟨true, none, 10⟩, ⟨true, none, 11⟩]) (vcv := [(10, .original 20), (11, .original 21)])
  (by decide) (by decide) (by decide) (by decide) (res := [some 7, none]) (vcv' := [(10, .transformed 10), (11, .original 21)]) rfl

/-- **C55** fails when the intermediate graph no longer binds the variable to its value variable itself.  For `rv = set_subtensor(Y[idx], data)`,
`incsubtensor_rv_replace` (rewriting.py:116-159) binds `Y` to a new expression of the value variable; the requested transform is then
neither applied nor reported.  Here `0` is requested to be transformed and its node carries the new expression `99`. -/
theorem C55_incsubtensor_ignored (t : T) :
    Asks (R := ℕ) [(0, some (.transform t))] 0 none t ∧
    transformValuesRewrite (R := ℕ) (V := ℕ) [(0, some (.transform t))] [(0, 10)] [⟨true, none, 99⟩] [(10, .original 20)] =
      .ok ([none], [(10, .original 20)]) := ⟨.inl (by simp), rfl⟩

/-- **C55** fails for variables of nodes with several outputs and no default output, such as scans, whose outputs include the updates of the random generators: `default_output` raises a `ValueError`,
which transforms.py:186-190 take for "nothing to do".  The requested transform is neither applied nor reported. -/
theorem C55_scan_ignored (t : T) :
    Asks (R := ℕ) [(0, some (.transform t))] 0 none t ∧
    transformValuesRewrite (R := ℕ) (V := ℕ) [(0, some (.transform t))] [(0, 10)] [⟨false, none, 10⟩] [(10, .original 20)] =
      .ok ([none], [(10, .original 20)]) := ⟨.inl (by simp), rfl⟩

end Verif.TransVals
