import Verif.Model.ArrObserved
import Verif.Spec.ArrObserved
import Verif.Props.ArrGraph
import Verif.Props.Incsubtensor

/-! # C150: partially observed variables in models -/

namespace Verif.ArrGraph
open Verif Cond

variable {Di : Type} {nodes : ℕ → Option (ObsNode Di)} {obs : ℕ → Option (Obs Di)}

/-- The value after the rewrite, as an array. -/
noncomputable def valueSeen (nodes : ℕ → Option (ObsNode Di)) (ρ : ℕ → Arr FVal) (v : ℕ) (y : Arr FVal) : Arr FVal :=
  match nodes v with
  | some node => observedValue (node.at (evalAt (fun _ => ⟨[], fun _ => .nan⟩) ρ node.data)) y
  | none => y

theorem eval_fixed (ρ σ : ℕ → Arr FVal) (ω : ℕ → Di → List (Arr FVal) → Arr FVal) (e : Expr Di) (h : Fixed e) : eval ρ ω (cleanup e) = evalAt σ ρ e := by
  induction e with
  | const x => rfl
  | inp i => rfl
  | app n f args ih =>
    simp only [cleanup, eval, evalAt]
    congr 1
    funext i
    exact ih i (h i)
  | rv id dist n args ih => exact h.elim
  | valued r v => exact h.elim

theorem data_stated {o : Obs Di} {node : ObsNode Di} (h : Stated o node) : node.data = o.data := by
  rcases h with rfl | ⟨_, _, _, rfl⟩ <;> rfl

theorem fixed_of_stated (hs : AllStated obs nodes) : ∀ v node, nodes v = some node → Fixed node.data := fun v node h => by
  rcases hs v with ⟨-, h2⟩ | ⟨o, node', -, h2, h3, h4⟩
  · rw [h] at h2
    cases h2
  · rw [h] at h2
    cases h2
    rw [data_stated h3]
    exact h4

theorem eval_observedExpr (hfix : ∀ v node, nodes v = some node → Fixed node.data) (v x : ℕ) (ρ : ℕ → Arr FVal) (ω : ℕ → Di → List (Arr FVal) → Arr FVal) :
    eval ρ ω (cleanup (observedExpr nodes v (.inp x))) = valueSeen nodes ρ v (ρ x) := by
  unfold observedExpr valueSeen
  cases hn : nodes v with
  | none => rfl
  | some node =>
    simp only [cleanup, eval, Matrix.cons_val_zero, Matrix.cons_val_one]
    rw [eval_fixed ρ (fun _ => ⟨[], fun _ => .nan⟩) ω _ (hfix v node hn)]

theorem eval_replaceObserved (hfix : ∀ v node, nodes v = some node → Fixed node.data) (d : Dict ℕ ℕ) (ρ : ℕ → Arr FVal) (ω : ℕ → Di → List (Arr FVal) → Arr FVal) (e : Expr Di) (hu : User e) :
    eval ρ ω (cleanup (replaceObserved nodes d e)) = evalGiven (fun v => (Dict.get? d v).map fun x => valueSeen nodes ρ v (ρ x)) ρ ω e := by
  induction e with
  | const x => rfl
  | inp i => rfl
  | app n f args ih =>
    simp only [replaceObserved, cleanup, eval, evalGiven]
    congr 1
    funext i
    exact ih i (hu i)
  | rv id dist n args ih =>
    cases hv : Dict.get? d id with
    | some v => simp only [replaceObserved, hv, cleanup, evalGiven, Option.map_some, eval_observedExpr hfix]
    | none =>
      simp only [replaceObserved, hv, cleanup, eval, evalGiven, Option.map_none]
      congr 2
      funext i
      exact ih i (hu i)
  | valued r v => exact hu.elim

theorem indices_stated {o : Obs Di} {node : ObsNode Di} (h : Stated o node) (d : Arr FVal) :
    indicesFromSubtensor (node.at d).idx_list (node.at d).inputs = .ok o.idx ∧ (node.at d).data = d := by
  refine ⟨?_, rfl⟩
  rcases h with rfl | ⟨ixs, hpre, hidx, rfl⟩
  · rfl
  · rw [hidx]
    rcases eq_or_ne ixs [] with rfl | hne
    · rfl
    · exact (C71_indices_iff hne true d).2 hpre

theorem valueSeen_seenAs (hs : AllStated obs nodes) {ρ : ℕ → Arr FVal} {v : ℕ} {y : Arr FVal} (hf : ∀ o, obs v = some o → o.Fits ρ y) : SeenAs ρ (obs v) y (valueSeen nodes ρ v y) := by
  rcases hs v with ⟨h1, h2⟩ | ⟨o, node, h1, h2, h3, -⟩
  · simp only [h1, SeenAs, valueSeen, h2]
  · obtain ⟨R, hR, hd⟩ := hf o h1
    obtain ⟨z, hz, hr⟩ := setSubtensor_ok hR hd
    obtain ⟨i1, i2⟩ := indices_stated h3 (o.dataAt ρ)
    have hda : evalAt (fun _ => ⟨[], fun _ => .nan⟩) ρ node.data = o.dataAt ρ := by rw [data_stated h3]; rfl
    simp only [h1, SeenAs, valueSeen, h2, hda, observedValue, i1, i2, hz]
    exact hr

theorem setSubtensor_congr {y y' : Arr FVal} {idx : List Index} {data : Arr FVal} {R : Arr (List ℕ)} (hsh : y.shape = y'.shape) (hR : npSelect idx y.shape = .ok R)
    (h : ∀ p, (∀ c, InRange c R.shape → R.get c ≠ p) → y.get p = y'.get p) : (∃ e, setSubtensor y idx data = .error e ∧ setSubtensor y' idx data = .error e) ∨ setSubtensor y idx data = setSubtensor y' idx data := by
  have hR' : npSelect idx y'.shape = .ok R := hsh ▸ hR
  by_cases hd : bshape [data.shape, R.shape] = some R.shape
  · right
    simp only [setSubtensor, hR', bind, Except.bind, hd, if_true, hsh]
    congr 2
    funext p
    cases hl : lastSource R p with
    | some c => rfl
    | none =>
      refine h p fun c hc he => ?_
      rw [lastSource, List.find?_eq_none] at hl
      have := hl c (List.mem_reverse.2 (mem_allCoords.2 hc))
      simp [he] at this
  · left
    exact ⟨.valueError, by simp only [setSubtensor, hR, bind, Except.bind, hd, if_false], by simp only [setSubtensor, hR', bind, Except.bind, hd, if_false]⟩

theorem conditionalObserved_ok {defs : ℕ → Option (RVDef Di)} {rvs clones : List ℕ} (hc : clones.length = rvs.length) {realized : Dict ℕ ℕ}
    (hdef : ∀ v, v ∈ rvs ∨ v ∈ Dict.keys realized → (defs v).isSome) :
    ∃ terms vvs, conditionalObserved nodes defs rvs clones realized = .ok (terms, vvs) ∧
      ((Dict.keys terms).Nodup ∧ ∀ v, v ∈ Dict.keys terms ↔ v ∈ rvs ∨ v ∈ Dict.keys realized) ∧
      (∀ v r, v ∈ rvs ∨ v ∈ Dict.keys realized → defs v = some r → ∃ x, Dict.get? (rvValues rvs clones realized) v = some x ∧
        Dict.get? terms v = some ⟨r.dist, cleanup (observedExpr nodes v (.inp x)), r.n, fun i => cleanup (replaceObserved nodes (rvValues rvs clones realized) (r.args i))⟩) ∧
      Dict.keys terms = Dict.keys (rvValues rvs clones realized) ∧
      vvs = ((Dict.keys (rvValues rvs clones realized)).filter (· ∉ Dict.keys realized)).map fun v => (Dict.get? (rvValues rvs clones realized) v).getD 0 := by
  unfold conditionalObserved
  set d := rvValues rvs clones realized with hd
  have hdn : (Dict.keys d).Nodup := rvValues_nodup rvs clones realized
  have hdk : ∀ v, v ∈ Dict.keys d ↔ v ∈ rvs ∨ v ∈ Dict.keys realized := fun v => by
    rw [hd, rvValues, Dict.mem_keys_update, Dict.mem_keys_ofList, List.map_fst_zip hc.ge]
  have hdef' : ∀ v ∈ Dict.keys d, ∃ r, defs v = some r := fun v hv => Option.isSome_iff_exists.1 (hdef v ((hdk v).1 hv))
  let val : ℕ → ℕ := fun v => (Dict.get? d v).getD 0
  have hval : ∀ p ∈ d, val p.1 = p.2 := fun p hp => by simp only [val, Dict.get?_of_mem hdn (show (p.1, p.2) ∈ d from hp), Option.getD_some]
  have hval' : ∀ v ∈ Dict.keys d, Dict.get? d v = some (val v) := fun v hv => by
    obtain ⟨x, hx⟩ := Dict.get?_isSome.2 hv
    simp only [val, hx, Option.getD_some]
  by_cases hne : d = []
  · have hv0 : ∀ v, ¬ (v ∈ rvs ∨ v ∈ Dict.keys realized) := fun v hv => by
      have := (hdk v).2 hv
      rw [hne] at this
      simp [Dict.keys] at this
    refine ⟨[], [], ?_, ⟨by simp [Dict.keys], fun v => ⟨fun h => by simp [Dict.keys] at h, fun h => absurd h (hv0 v)⟩⟩, fun v r hv => absurd hv (hv0 v), by rw [hne]; rfl, by rw [hne]; rfl⟩
    rw [conditionalLogprob, ← hd, hne]
    rfl
  obtain ⟨p0, hp0⟩ := List.exists_mem_of_ne_nil d hne
  obtain ⟨r0, -⟩ := hdef' p0.1 (List.mem_map.2 ⟨p0, hp0, rfl⟩)
  let mk : ℕ → RVDef Di → Term Di := fun v r => ⟨r.dist, cleanup (observedExpr nodes v (.inp (val v))), r.n, fun i => cleanup (replaceObserved nodes d (r.args i))⟩
  let t : ℕ → Term Di := fun v => mk v ((defs v).getD r0)
  have ht : ∀ {v r}, defs v = some r → t v = mk v r := fun {v r} h => by show mk v ((defs v).getD _) = _; rw [h]; rfl
  have hcond := conditional_simple (B := backendObserved nodes defs d) (realized := realized) (val := val) (base := val) (t := t) hd
    (fun v hv => by obtain ⟨r, hr⟩ := hdef' v hv; simp [backendObserved, hr]) (fun _ _ => rfl)
    (by
      show Except.ok (d.map fun p => some (⟨p.1, p.2⟩ : ValuedOut ℕ), d.map Prod.snd) = _
      congr 2
      · exact List.map_congr_left fun p hp => by rw [hval p hp]
      · exact List.map_congr_left fun p hp => (hval p hp).symm)
    (fun v hv => by obtain ⟨r, hr⟩ := hdef' v hv; simp [backendObserved, hr]) (fun v hv => by obtain ⟨r, hr⟩ := hdef' v hv; rw [ht hr]; simp [backendObserved, hr, mk])
  have hkeys : Dict.keys (d.map fun p => (p.1, t p.1)) = Dict.keys d := by rw [Dict.keys, List.map_map]; rfl
  refine ⟨_, _, hcond, ⟨hkeys ▸ hdn, fun v => ?_⟩, fun v r hv hr => ⟨val v, hval' v ((hdk v).2 hv), ?_⟩, hkeys, rfl⟩
  · rw [← hdk, Dict.keys, List.map_map]
    rfl
  · rw [IR.get?_map_key d t ((hdk v).2 hv), ht hr]

theorem eval_observedTerm (hfix : ∀ v node, nodes v = some node → Fixed node.data) (kernel : Di → Arr FVal → List (Arr FVal) → Except Err (Arr FVal)) {r : RVDef Di} (hu : ∀ i, User (r.args i)) (d : Dict ℕ ℕ) (v x : ℕ) (ρ : ℕ → Arr FVal)
    (ω : ℕ → Di → List (Arr FVal) → Arr FVal) :
    Term.eval kernel ρ ω ⟨r.dist, cleanup (observedExpr nodes v (.inp x)), r.n, fun i => cleanup (replaceObserved nodes d (r.args i))⟩ =
      kernel r.dist (valueSeen nodes ρ v (ρ x)) (List.ofFn fun i => evalGiven (fun w => (Dict.get? d w).map fun x => valueSeen nodes ρ w (ρ x)) ρ ω (r.args i)) := by
  simp only [Term.eval, eval_observedExpr hfix]
  congr 2
  funext i
  exact eval_replaceObserved hfix d ρ ω _ (hu i)

/-- **C150** (single terms) Some variables of the model are partially observed, `at.set_subtensor(Y[idx], data)`.  `conditional_logprob` returns a term for each variable with a value.  At values to which the data fit, there
are arrays `σ`, the values with the data at the observed entries, such that every term is the log-probability of the distribution at `σ`, with parameters computed from `σ`: the other variables see the data too.
Missing: index expressions in which the integers of an entry are not the first ones, for which the claim is false (C71), data with random variables, and `at.inc_subtensor`, for which it is false (`C150_adding`). -/
theorem C150_terms_partial (kernel : Di → Arr FVal → List (Arr FVal) → Except Err (Arr FVal)) (hs : AllStated obs nodes) {defs : ℕ → Option (RVDef Di)}
    (huser : ∀ v r, defs v = some r → ∀ i, User (r.args i)) {rvs clones : List ℕ} (hc : clones.length = rvs.length) {realized : Dict ℕ ℕ}
    (hdef : ∀ v, v ∈ rvs ∨ v ∈ Dict.keys realized → (defs v).isSome) :
    ∃ terms vvs, conditionalObserved nodes defs rvs clones realized = .ok (terms, vvs) ∧
      ((Dict.keys terms).Nodup ∧ ∀ v, v ∈ Dict.keys terms ↔ v ∈ rvs ∨ v ∈ Dict.keys realized) ∧
      ∀ ρ : ℕ → Arr FVal, (∀ v x o, Dict.get? (rvValues rvs clones realized) v = some x → obs v = some o → o.Fits ρ (ρ x)) →
        ∃ σ : ℕ → Arr FVal, (∀ v x, Dict.get? (rvValues rvs clones realized) v = some x → SeenAs ρ (obs v) (ρ x) (σ v)) ∧
          ∀ v r, v ∈ rvs ∨ v ∈ Dict.keys realized → defs v = some r → ∃ t, Dict.get? terms v = some t ∧
            ∀ ω, t.eval kernel ρ ω = kernel r.dist (σ v) (List.ofFn fun i => evalGiven (fun w => (Dict.get? (rvValues rvs clones realized) w).map fun _ => σ w) ρ ω (r.args i)) := by
  obtain ⟨terms, vvs, h1, h2, h3, -⟩ := conditionalObserved_ok (nodes := nodes) hc hdef
  refine ⟨terms, vvs, h1, h2, fun ρ hf => ⟨fun v => valueSeen nodes ρ v (ρ ((Dict.get? (rvValues rvs clones realized) v).getD 0)), fun v x hx => ?_, fun v r hv hr => ?_⟩⟩
  · simp only [hx, Option.getD_some]
    exact valueSeen_seenAs hs fun o ho => hf v x o hx ho
  · obtain ⟨x, hx, ht⟩ := h3 v r hv hr
    refine ⟨_, ht, fun ω => ?_⟩
    rw [eval_observedTerm (fixed_of_stated hs) kernel (huser v r hr)]
    simp only [hx, Option.getD_some]
    congr 2
    funext i
    congr 1
    funext w
    cases Dict.get? (rvValues rvs clones realized) w <;> rfl

/-- **C150** (joint) The joint log-probability of such a model is the product of these terms, as densities. -/
theorem C150_joint (kernel : Di → Arr FVal → List (Arr FVal) → Except Err (Arr FVal)) {defs : ℕ → Option (RVDef Di)} {rvs clones : List ℕ} (hc : clones.length = rvs.length) {realized : Dict ℕ ℕ}
    (hdef : ∀ v, v ∈ rvs ∨ v ∈ Dict.keys realized → (defs v).isSome) (hne : ∃ v, v ∈ rvs ∨ v ∈ Dict.keys realized) :
    ∃ terms vvs j, conditionalObserved nodes defs rvs clones realized = .ok (terms, vvs) ∧ jointObserved nodes defs rvs clones realized = .ok (some (j, vvs)) ∧
      ∀ ρ ω, dens (evalJoint kernel ρ ω j) = (terms.map fun p => dens (arrayJoint (p.2.eval kernel ρ ω))).prod := by
  obtain ⟨terms, vvs, h1, h2, -⟩ := conditionalObserved_ok (nodes := nodes) hc hdef
  refine ⟨terms, vvs, ?_⟩
  have hne' : terms ≠ [] := by
    rintro rfl
    obtain ⟨v, hv⟩ := hne
    simpa [Dict.keys] using (h2.2 v).2 hv
  have h1' := h1
  rw [conditionalObserved] at h1'
  rw [jointObserved, jointLogprob, h1']
  match terms, hne' with
  | [(v, t)], _ => exact ⟨_, h1, rfl, fun ρ ω => by simp [evalJoint]⟩
  | a :: b :: l, _ =>
    refine ⟨_, h1, rfl, fun ρ ω => ?_⟩
    rw [evalJoint, Graph.dens_sumE, List.map_map, Dict.values, List.map_map]
    rfl

theorem evalAt_congr_reads (σ : ℕ → Arr FVal) {ρ ρ' : ℕ → Arr FVal} (e : Expr Di) (h : ∀ x, ReadsInput x e → ρ x = ρ' x) : evalAt σ ρ e = evalAt σ ρ' e := by
  induction e with
  | const x => rfl
  | inp i => exact h i rfl
  | app n f args ih =>
    simp only [evalAt]
    congr 1
    funext i
    exact ih i fun x hx => h x ⟨i, hx⟩
  | rv id dist n args ih => rfl
  | valued r v ih1 ih2 => exact ih1 h

theorem valueSeen_congr (hs : AllStated obs nodes) {ρ ρ' : ℕ → Arr FVal} {v : ℕ} {y y' : Arr FVal} (hf : ∀ o, obs v = some o → o.Fits ρ y) (hρ : ∀ o, obs v = some o → o.dataAt ρ = o.dataAt ρ')
    (h : SameMissing (obs v) y y') : valueSeen nodes ρ v y = valueSeen nodes ρ' v y' := by
  rcases hs v with ⟨h1, h2⟩ | ⟨o, node, h1, h2, h3, -⟩
  · simp only [h1, SameMissing] at h
    simp only [valueSeen, h2, h]
  · simp only [h1, SameMissing] at h
    obtain ⟨hsh, R, hR, hp⟩ := h
    obtain ⟨R', hR', hd⟩ := hf o h1
    obtain ⟨i1, i2⟩ := indices_stated h3 (o.dataAt ρ)
    obtain ⟨z, hz, -⟩ := setSubtensor_ok hR' hd
    have hda : ∀ ρ, evalAt (fun _ => ⟨[], fun _ => .nan⟩) ρ node.data = o.dataAt ρ := fun ρ => by rw [data_stated h3]; rfl
    simp only [valueSeen, h2, hda, ← hρ o h1, observedValue, i1, i2]
    rcases setSubtensor_congr (data := o.dataAt ρ) hsh hR hp with ⟨e, he, -⟩ | he
    · rw [hz] at he
      cases he
    · rw [← he, hz]

theorem evalGiven_congr_reads (vals : ℕ → Option (Arr FVal)) {ρ ρ' : ℕ → Arr FVal} (ω : ℕ → Di → List (Arr FVal) → Arr FVal) (e : Expr Di) (h : ∀ x, ReadsInput x e → ρ x = ρ' x) :
    evalGiven vals ρ ω e = evalGiven vals ρ' ω e := by
  induction e with
  | const x => rfl
  | inp i => exact h i rfl
  | app n f args ih =>
    simp only [evalGiven]
    congr 1
    funext i
    exact ih i fun x hx => h x ⟨i, hx⟩
  | rv id dist n args ih =>
    simp only [evalGiven]
    cases vals id with
    | some x => rfl
    | none =>
      simp only
      congr 2
      funext i
      exact ih i fun x hx => h x ⟨i, hx⟩
  | valued r v ih1 ih2 => exact ih1 h

/-- **C150** (observed entries are not read) What the user passes at the observed entries of a value has no effect on any term. -/
theorem C150_observed_unused (kernel : Di → Arr FVal → List (Arr FVal) → Except Err (Arr FVal)) (hs : AllStated obs nodes) {defs : ℕ → Option (RVDef Di)}
    (huser : ∀ v r, defs v = some r → ∀ i, User (r.args i)) {rvs clones : List ℕ} (hc : clones.length = rvs.length) {realized : Dict ℕ ℕ}
    (hdef : ∀ v, v ∈ rvs ∨ v ∈ Dict.keys realized → (defs v).isSome) {terms : Dict ℕ (Term Di)} {vvs : List ℕ} (h : conditionalObserved nodes defs rvs clones realized = .ok (terms, vvs))
    {ρ ρ' : ℕ → Arr FVal} (hf : ∀ v x o, Dict.get? (rvValues rvs clones realized) v = some x → obs v = some o → o.Fits ρ (ρ x))
    (hsame : ∀ v x, Dict.get? (rvValues rvs clones realized) v = some x → SameMissing (obs v) (ρ x) (ρ' x))
    (hother : ∀ x, x ∉ Dict.values (rvValues rvs clones realized) → ρ x = ρ' x)
    (hfree : ∀ v r, defs v = some r → ∀ i x, x ∈ Dict.values (rvValues rvs clones realized) → ¬ ReadsInput x (r.args i))
    (hdata : ∀ v o, obs v = some o → ∀ x, x ∈ Dict.values (rvValues rvs clones realized) → ¬ ReadsInput x o.data) (ω : ℕ → Di → List (Arr FVal) → Arr FVal) :
    ∀ v t, Dict.get? terms v = some t → t.eval kernel ρ ω = t.eval kernel ρ' ω := by
  obtain ⟨terms', vvs', h1, h2, h3, -⟩ := conditionalObserved_ok (nodes := nodes) hc hdef
  rw [h] at h1
  cases h1
  intro v t ht
  have hv := (h2.2 v).1 (Dict.get?_isSome.1 ⟨t, ht⟩)
  obtain ⟨r, hr⟩ := Option.isSome_iff_exists.1 (hdef v hv)
  obtain ⟨x, hx, ht'⟩ := h3 v r hv hr
  rw [ht] at ht'
  cases ht'
  have hseen : ∀ w x, Dict.get? (rvValues rvs clones realized) w = some x → valueSeen nodes ρ w (ρ x) = valueSeen nodes ρ' w (ρ' x) :=
    fun w x hx => valueSeen_congr hs (fun o ho => hf w x o hx ho) (fun o ho => evalAt_congr_reads _ _ fun x hx => hother x fun hm => hdata w o ho x hm hx) (hsame w x hx)
  rw [eval_observedTerm (fixed_of_stated hs) kernel (huser v r hr), eval_observedTerm (fixed_of_stated hs) kernel (huser v r hr), hseen v x hx]
  congr 2
  funext i
  have hg : (fun w => (Dict.get? (rvValues rvs clones realized) w).map fun x => valueSeen nodes ρ w (ρ x)) = fun w => (Dict.get? (rvValues rvs clones realized) w).map fun x => valueSeen nodes ρ' w (ρ' x) := by
    funext w
    cases hw : Dict.get? (rvValues rvs clones realized) w with
    | none => rfl
    | some x => simp only [Option.map_some, hseen w x hw]
  rw [hg]
  exact evalGiven_congr_reads _ ω _ fun x hx => hother x fun hm => hfree v r hr i x hm hx

theorem replaced_unique {α : Type} {y : Arr α} {idx : List Index} {data z z' : Arr α} (h : Replaced y idx data z) (h' : Replaced y idx data z') : z = z' := by
  obtain ⟨R, hR, s1, n1, l1⟩ := h
  obtain ⟨R', hR', s2, n2, l2⟩ := h'
  rw [hR] at hR'
  cases hR'
  obtain ⟨zs, zg⟩ := z
  obtain ⟨zs', zg'⟩ := z'
  simp only at s1 s2 n1 n2 l1 l2
  subst s1
  subst s2
  congr 1
  funext p
  rcases hf : lastSource R p with _ | b
  · have hno : ∀ c, InRange c R.shape → R.get c ≠ p := fun c hc he => by
      rw [lastSource, List.find?_eq_none] at hf
      have := hf c (List.mem_reverse.2 (mem_allCoords.2 hc))
      simp [he] at this
    rw [n1 p hno, n2 p hno]
  · rw [lastSource, List.find?_eq_some_iff_append] at hf
    obtain ⟨hb, as, bs, he, has⟩ := hf
    have hbr : InRange b R.shape := by
      rw [← mem_allCoords, ← List.mem_reverse, he]; simp
    obtain rfl : R.get b = p := by simpa using hb
    have hlast : ∀ c', InRange c' R.shape → b < c' → R.get c' ≠ R.get b := fun c' hc' hlt heq => by
      have hmem : c' ∈ (allCoords R.shape).reverse := List.mem_reverse.2 (mem_allCoords.2 hc')
      rw [he, List.mem_append, List.mem_cons] at hmem
      rcases hmem with hm | rfl | hm
      · exact absurd (has c' hm) (by simp [heq])
      · exact absurd hlt (List.lt_irrefl _)
      · have hp := List.pairwise_reverse.2 (allCoords_sorted R.shape)
        rw [he] at hp
        exact absurd ((List.pairwise_cons.1 (List.pairwise_append.1 hp).2.1).1 c' hm) (List.lt_asymm hlt)
    rw [l1 b hbr hlast, l2 b hbr hlast]

theorem seenAs_unique {ρ : ℕ → Arr FVal} {o : Option (Obs Di)} {y z z' : Arr FVal} (h : SeenAs ρ o y z) (h' : SeenAs ρ o y z') : z = z' := by
  cases o with
  | none => exact h.trans h'.symm
  | some o => exact replaced_unique h h'

theorem backendObserved_none (defs : ℕ → Option (RVDef Di)) (d : Dict ℕ ℕ) : backendObserved (fun _ => none) defs d = backend defs d := by
  have hr : ∀ e : Expr Di, replaceObserved (fun _ => none) d e = replaceValued d e := fun e => by
    induction e with
    | const x => rfl
    | inp i => rfl
    | app n f args ih => simp only [replaceObserved, replaceValued, ih]
    | rv id dist n args ih => simp only [replaceObserved, replaceValued, ih]; rfl
    | valued r v ih1 ih2 => simp only [replaceObserved, replaceValued, ih1, ih2]
  simp only [backendObserved, backend, hr]
  rfl

theorem map_snd_congr {K A B C : Type} {f : A → C} {g : B → C} : ∀ {l : List (K × A)} {l' : List (K × B)}, l.map Prod.fst = l'.map Prod.fst →
    (∀ p ∈ l, ∀ q ∈ l', p.1 = q.1 → f p.2 = g q.2) → l.map (fun p => f p.2) = l'.map fun p => g p.2
  | [], [], _, _ => rfl
  | [], _ :: _, h, _ => by simp at h
  | _ :: _, [], h, _ => by simp at h
  | p :: l, q :: l', h, hfg => by
    simp only [List.map_cons, List.cons.injEq] at h ⊢
    exact ⟨hfg p (by simp) q (by simp) h.1, map_snd_congr h.2 fun p hp q hq => hfg p (by simp [hp]) q (by simp [hq])⟩

theorem evalJoint_of_terms (kernel : Di → Arr FVal → List (Arr FVal) → Except Err (Arr FVal)) {terms terms' : Dict ℕ (Term Di)} (hk : Dict.keys terms = Dict.keys terms') (hne : terms ≠ [])
    (B B' : Backend ℕ ℕ Unit (Term Di)) {rvs clones : List ℕ} {realized : Dict ℕ ℕ} {vvs : List ℕ} (h : conditionalLogprob B rvs clones realized = .ok (terms, vvs))
    (h' : conditionalLogprob B' rvs clones realized = .ok (terms', vvs)) :
    ∃ j j', jointLogprob B rvs clones realized = .ok (some (j, vvs)) ∧ jointLogprob B' rvs clones realized = .ok (some (j', vvs)) ∧
      ∀ ρ ρ' ω, (∀ p ∈ terms, ∀ q ∈ terms', p.1 = q.1 → p.2.eval kernel ρ ω = q.2.eval kernel ρ' ω) → evalJoint kernel ρ ω j = evalJoint kernel ρ' ω j' := by
  rw [jointLogprob, jointLogprob, h, h']
  match terms, terms', hne, hk with
  | [(v, t)], [(v', t')], _, hk =>
    refine ⟨_, _, rfl, rfl, fun ρ ρ' ω he => ?_⟩
    simp only [evalJoint, he (v, t) (by simp) (v', t') (by simp) (by simpa [Dict.keys] using hk)]
  | [_], [], _, hk => simp [Dict.keys] at hk
  | [_], _ :: _ :: _, _, hk => simp [Dict.keys] at hk
  | _ :: _ :: _, [], _, hk => simp [Dict.keys] at hk
  | _ :: _ :: _, [_], _, hk => simp [Dict.keys] at hk
  | a :: b :: l, a' :: b' :: l', _, hk =>
    refine ⟨_, _, rfl, rfl, fun ρ ρ' ω he => ?_⟩
    simp only [evalJoint, Dict.values, List.map_map]
    congr 1
    exact map_snd_congr (f := fun t : Term Di => arrayJoint (t.eval kernel ρ ω)) (g := fun t : Term Di => arrayJoint (t.eval kernel ρ' ω)) hk fun p hp q hq hpq => by
      simp only [he p hp q hq hpq]

/-- **C150** (whole models) The joint log-probability of a model with partially observed variables, at values to which the data fit, is that of the model without the statements `Y[idx] = data`, at the values with the data
put in, and it takes the same value variables in the same order: what C106 says about the density holds for it.  Missing: as in `C150_terms_partial`. -/
theorem C150_plain_partial (kernel : Di → Arr FVal → List (Arr FVal) → Except Err (Arr FVal)) (hs : AllStated obs nodes) {defs : ℕ → Option (RVDef Di)}
    (huser : ∀ v r, defs v = some r → ∀ i, User (r.args i)) {rvs clones : List ℕ} (hc : clones.length = rvs.length) {realized : Dict ℕ ℕ}
    (hdef : ∀ v, v ∈ rvs ∨ v ∈ Dict.keys realized → (defs v).isSome) (hne : ∃ v, v ∈ rvs ∨ v ∈ Dict.keys realized)
    (hfree : ∀ v r, defs v = some r → ∀ i x, x ∈ Dict.values (rvValues rvs clones realized) → ¬ ReadsInput x (r.args i)) :
    ∃ j j' vvs, jointObserved nodes defs rvs clones realized = .ok (some (j, vvs)) ∧ joint defs rvs clones realized = .ok (some (j', vvs)) ∧
      ∀ ρ ρ' : ℕ → Arr FVal, (∀ v x o, Dict.get? (rvValues rvs clones realized) v = some x → obs v = some o → o.Fits ρ (ρ x)) →
        (∀ v x, Dict.get? (rvValues rvs clones realized) v = some x → SeenAs ρ (obs v) (ρ x) (ρ' x)) → (∀ x, x ∉ Dict.values (rvValues rvs clones realized) → ρ' x = ρ x) →
        ∀ ω, evalJoint kernel ρ ω j = evalJoint kernel ρ' ω j' := by
  obtain ⟨terms, vvs, h1, h2, h3, hk, rfl⟩ := conditionalObserved_ok (nodes := nodes) hc hdef
  obtain ⟨terms', vvs', h1', h2', h3', hk', rfl⟩ := conditionalObserved_ok (nodes := fun _ => none) hc hdef
  have hne' : terms ≠ [] := by
    rintro rfl
    obtain ⟨v, hv⟩ := hne
    simpa [Dict.keys] using (h2.2 v).2 hv
  rw [conditionalObserved] at h1 h1'
  rw [backendObserved_none] at h1'
  obtain ⟨j, j', e1, e2, e3⟩ := evalJoint_of_terms kernel (hk.trans hk'.symm) hne' _ _ h1 h1'
  refine ⟨j, j', _, e1, e2, fun ρ ρ' hf hseen hother ω => e3 ρ ρ' ω fun p hp q hq hpq => ?_⟩
  obtain ⟨v, t⟩ := p
  obtain ⟨v', t'⟩ := q
  obtain rfl : v = v' := hpq
  have hv := (h2.2 v).1 (List.mem_map.2 ⟨_, hp, rfl⟩)
  obtain ⟨r, hr⟩ := Option.isSome_iff_exists.1 (hdef v hv)
  obtain ⟨x, hx, ht⟩ := h3 v r hv hr
  obtain ⟨x', hx', ht'⟩ := h3' v r hv hr
  rw [hx] at hx'
  cases hx'
  rw [Dict.get?_of_mem h2.1 hp] at ht
  rw [Dict.get?_of_mem h2'.1 hq] at ht'
  cases ht
  cases ht'
  have hval : ∀ w x, Dict.get? (rvValues rvs clones realized) w = some x → valueSeen nodes ρ w (ρ x) = ρ' x :=
    fun w x hx => seenAs_unique (valueSeen_seenAs hs fun o ho => hf w x o hx ho) (hseen w x hx)
  simp only
  rw [eval_observedTerm (fixed_of_stated hs) kernel (huser v r hr), eval_observedTerm (nodes := fun _ => none) (fun _ _ h => by cases h) kernel (huser v r hr), hval v x hx]
  congr 2
  funext i
  have hg : (fun w => (Dict.get? (rvValues rvs clones realized) w).map fun x => valueSeen nodes ρ w (ρ x)) = fun w => (Dict.get? (rvValues rvs clones realized) w).map fun x => valueSeen (Di := Di) (fun _ => none) ρ' w (ρ' x) := by
    funext w
    cases hw : Dict.get? (rvValues rvs clones realized) w with
    | none => rfl
    | some x => simp only [Option.map_some, hval w x hw]; rfl
  rw [hg]
  exact evalGiven_congr_reads _ ω _ fun x hx => (hother x fun hm => hfree v r hr i x hm hx).symm

/-- **C150** (false for `+=`) `at.inc_subtensor(Y[idx], data)` gets the log-probability of `at.set_subtensor(Y[idx], data)`, so neither its own term nor those of the other variables are what was asked for: by
`C150_observed_unused` they do not even read the value at `idx`. -/
theorem C150_adding (nodes : ℕ → Option (ObsNode Di)) (defs : ℕ → Option (RVDef Di)) (rvs clones : List ℕ) (realized : Dict ℕ ℕ) :
    conditionalObserved (fun v => (nodes v).map fun n => { n with set_instead_of_inc := false }) defs rvs clones realized = conditionalObserved nodes defs rvs clones realized := by
  have he : ∀ v (e : Expr Di), observedExpr (fun v => (nodes v).map fun n => { n with set_instead_of_inc := false }) v e = observedExpr nodes v e := fun v e => by
    simp only [observedExpr]
    cases nodes v <;> rfl
  have hr : ∀ (d : Dict ℕ ℕ) (e : Expr Di), replaceObserved (fun v => (nodes v).map fun n => { n with set_instead_of_inc := false }) d e = replaceObserved nodes d e := fun d e => by
    induction e with
    | const x => rfl
    | inp i => rfl
    | app n f args ih => simp only [replaceObserved, ih]
    | rv id dist n args ih => simp only [replaceObserved, he, ih]
    | valued r v ih1 ih2 => simp only [replaceObserved, ih1, ih2]
  simp only [conditionalObserved, backendObserved, he, hr]

namespace ObservedDemo

/-- `Y` has shape `[4, 2]`, of which `Y[1:3, :]` is set to the input `20`, and `Z` has the parameter `Y`. -/
def model : Dict ℕ (RVDef Unit) := [(0, ⟨(), 0, Fin.elim0⟩), (1, ⟨(), 1, fun _ => .rv 0 () 0 Fin.elim0⟩)]

def seen (v : ℕ) : Option (Obs Unit) := if v = 0 then some ⟨IncsubtensorDemo.ixs.map Written.index, .inp 20⟩ else none

def stmts (v : ℕ) : Option (ObsNode Unit) :=
  if v = 0 then some ⟨some (IncsubtensorDemo.ixs.map Written.entry), true, .inp 20, (IncsubtensorDemo.ixs.flatMap Written.ints).map intIdx⟩ else none

theorem stated : AllStated seen stmts := fun v => by
  by_cases h : v = 0
  · exact .inr ⟨_, _, if_pos h, if_pos h, .inr ⟨_, IncsubtensorDemo.ixs_prefix, rfl, rfl⟩, trivial⟩
  · exact .inl ⟨if_neg h, if_neg h⟩

theorem user : ∀ v r, Dict.get? model v = some r → ∀ i, User (r.args i) := fun v r h i => by
  have := Dict.mem_of_get? h
  simp only [model, List.mem_cons, List.not_mem_nil, or_false, Prod.mk.injEq] at this
  rcases this with ⟨-, rfl⟩ | ⟨-, rfl⟩
  · exact i.elim0
  · exact fun k => k.elim0

theorem defined : ∀ v, v ∈ [0, 1] ∨ v ∈ Dict.keys ([] : Dict ℕ ℕ) → (Dict.get? model v).isSome := fun v hv => by
  simp [Dict.keys] at hv
  rcases hv with rfl | rfl <;> simp [model, Dict.get?]

theorem values : rvValues [0, 1] [10, 11] [] = [(0, 10), (1, 11)] := by decide

theorem fits {ρ : ℕ → Arr FVal} (hρ : (ρ 10).shape = [4, 2]) (hd : (ρ 20).shape = [2]) : ∀ v x o, Dict.get? (rvValues [0, 1] [10, 11] []) v = some x → seen v = some o → o.Fits ρ (ρ x) := fun v x o hx ho => by
  rw [values] at hx
  by_cases h : v = 0
  · subst h
    obtain rfl : 10 = x := by simpa [Dict.get?] using hx
    obtain rfl := Option.some.inj ho
    simp only [Obs.Fits, hρ, Obs.dataAt, evalAt, hd]
    exact IncsubtensorDemo.ok
  · simp [seen, h] at ho

/-- The term of `Z` has the partially observed `Y` as parameter. -/
example (kernel : Unit → Arr FVal → List (Arr FVal) → Except Err (Arr FVal)) : ∃ terms vvs, conditionalObserved stmts (Dict.get? model) [0, 1] [10, 11] [] = .ok (terms, vvs) ∧
    ∀ ρ, (ρ 10).shape = [4, 2] → (ρ 20).shape = [2] → ∃ z t, Replaced (ρ 10) (IncsubtensorDemo.ixs.map Written.index) (ρ 20) z ∧ Dict.get? terms 1 = some t ∧ ∀ ω, t.eval kernel ρ ω = kernel () (ρ 11) [z] := by
  obtain ⟨terms, vvs, h1, -, h3⟩ := C150_terms_partial kernel stated user (rvs := [0, 1]) (clones := [10, 11]) rfl (realized := []) defined
  refine ⟨terms, vvs, h1, fun ρ hρ hd => ?_⟩
  obtain ⟨σ, hσ, ht⟩ := h3 ρ (fits hρ hd)
  obtain ⟨t, ht, he⟩ := ht 1 _ (by simp) rfl
  have h10 := hσ 0 10 (by rw [values]; rfl)
  have h11 : σ 1 = ρ 11 := hσ 1 11 (by rw [values]; rfl)
  exact ⟨σ 0, t, h10, ht, fun ω => by rw [he, h11, values]; rfl⟩

example (kernel : Unit → Arr FVal → List (Arr FVal) → Except Err (Arr FVal)) :=
  C150_joint kernel (nodes := stmts) (rvs := [0, 1]) (clones := [10, 11]) rfl (realized := []) defined ⟨0, by simp⟩

theorem free : ∀ v r, Dict.get? model v = some r → ∀ i x, x ∈ Dict.values (rvValues [0, 1] [10, 11] []) → ¬ ReadsInput x (r.args i) := fun v r hr i x _ => by
  have := Dict.mem_of_get? hr
  simp only [model, List.mem_cons, List.not_mem_nil, or_false, Prod.mk.injEq] at this
  rcases this with ⟨-, rfl⟩ | ⟨-, rfl⟩
  · exact i.elim0
  · rintro ⟨k, -⟩
    exact k.elim0

/-- Values with the data put in exist for every value of the right shape. -/
example (kernel : Unit → Arr FVal → List (Arr FVal) → Except Err (Arr FVal)) :
    ∃ j j' vvs, jointObserved stmts (Dict.get? model) [0, 1] [10, 11] [] = .ok (some (j, vvs)) ∧ joint (Dict.get? model) [0, 1] [10, 11] [] = .ok (some (j', vvs)) ∧
      ∀ ρ : ℕ → Arr FVal, (ρ 10).shape = [4, 2] → (ρ 20).shape = [2] → ∃ z, Replaced (ρ 10) (IncsubtensorDemo.ixs.map Written.index) (ρ 20) z ∧
        ∀ ω, evalJoint kernel ρ ω j = evalJoint kernel (Function.update ρ 10 z) ω j' := by
  obtain ⟨j, j', vvs, h1, h2, h3⟩ := C150_plain_partial kernel stated user (rvs := [0, 1]) (clones := [10, 11]) rfl (realized := []) defined ⟨0, by simp⟩ free
  refine ⟨j, j', vvs, h1, h2, fun ρ hρ hd => ?_⟩
  have h0 := valueSeen_seenAs stated (v := 0) fun o ho => fits hρ hd 0 10 o (by rw [values]; rfl) ho
  refine ⟨_, h0, h3 ρ _ (fits hρ hd) (fun v x hx => ?_) fun x hx => ?_⟩
  · rw [values] at hx
    by_cases h : v = 0
    · subst h
      obtain rfl : 10 = x := by simpa [Dict.get?] using hx
      rw [Function.update_self]
      exact h0
    · obtain ⟨rfl, rfl⟩ : v = 1 ∧ x = 11 := by
        have := Dict.mem_of_get? hx
        simp [h] at this
        exact this
      rw [Function.update_of_ne (by decide)]
      rfl
  · rw [values] at hx
    exact Function.update_of_ne (fun h => hx (by simp [h, Dict.values])) _ _

/-- All the hypotheses hold, for values that differ at the observed entries. -/
example (kernel : Unit → Arr FVal → List (Arr FVal) → Except Err (Arr FVal)) (data : Arr FVal) (hdata : data.shape = [2]) (a b : FVal) (ω : ℕ → Unit → List (Arr FVal) → Arr FVal) :
    ∃ terms vvs, conditionalObserved stmts (Dict.get? model) [0, 1] [10, 11] [] = .ok (terms, vvs) ∧ ∃ R, npSelect (IncsubtensorDemo.ixs.map Written.index) [4, 2] = .ok R ∧
      ∀ z : Arr FVal, z.shape = [4, 2] → (∀ p, (∀ c, InRange c R.shape → R.get c ≠ p) → z.get p = a) →
      ∀ v t, Dict.get? terms v = some t → t.eval kernel (fun x => if x = 10 then ⟨[4, 2], fun _ => a⟩ else if x = 20 then data else ⟨[], fun _ => b⟩) ω = t.eval kernel (fun x => if x = 10 then z else if x = 20 then data else ⟨[], fun _ => b⟩) ω := by
  obtain ⟨terms, vvs, h1, -⟩ := C150_terms_partial kernel stated user (rvs := [0, 1]) (clones := [10, 11]) rfl (realized := []) defined
  obtain ⟨R, hR, -⟩ := IncsubtensorDemo.ok
  refine ⟨terms, vvs, h1, R, hR, fun z hz hz' => ?_⟩
  refine C150_observed_unused kernel stated user (rvs := [0, 1]) (clones := [10, 11]) rfl defined h1 (fits (by simp) (by simpa using hdata)) (fun v x hx => ?_) (fun x hx => ?_) (fun v r hr i x _ => ?_) (fun v o ho x hx => ?_) ω
  · rw [values] at hx
    by_cases h : v = 0
    · subst h
      obtain rfl : 10 = x := by simpa [Dict.get?] using hx
      exact ⟨hz.symm, R, hR, fun p hp => (hz' p hp).symm⟩
    · obtain ⟨-, rfl⟩ : v = 1 ∧ x = 11 := by
        have := Dict.mem_of_get? hx
        simp [h] at this
        exact this
      simp only [seen, h, if_false, SameMissing]
      rfl
  · rw [values] at hx
    have : x ≠ 10 := fun h => hx (by simp [h, Dict.values])
    simp [this]
  · have := Dict.mem_of_get? hr
    simp only [model, List.mem_cons, List.not_mem_nil, or_false, Prod.mk.injEq] at this
    rcases this with ⟨-, rfl⟩ | ⟨-, rfl⟩
    · exact i.elim0
    · rintro ⟨k, -⟩
      exact k.elim0
  · rw [values] at hx
    by_cases h : v = 0
    · subst h
      obtain rfl := Option.some.inj ho
      rintro rfl
      simp [Dict.values] at hx
    · simp [seen, h] at ho

end ObservedDemo

open ObservedDemo in
/-- **C150** (false for `+=`, a witness) `Y` is a vector of one number, `Y' = at.inc_subtensor(Y[[0]], d)` has the value `y`, and `Z` has the parameter `Y'`.  The term of `Z` is computed with the parameter `d`, whatever
`y` is. -/
theorem C150_adding_wrong (d y : ℝ) (hdy : d ≠ y) :
    ∃ terms vvs t, conditionalObserved (fun v => if v = 0 then some ⟨none, false, .const ⟨[], fun _ => .fin d⟩, [.adv ⟨[1], fun _ => 0⟩]⟩ else none) (Dict.get? model) [0, 1] [10, 11] [] = .ok (terms, vvs) ∧
      Dict.get? terms 1 = some t ∧ ∀ (kernel : Unit → Arr FVal → List (Arr FVal) → Except Err (Arr FVal)) (ρ : ℕ → Arr FVal), ρ 10 = ⟨[1], fun _ => .fin y⟩ →
        ∃ z, (∀ ω, t.eval kernel ρ ω = kernel () (ρ 11) [z]) ∧ z.shape = [1] ∧ z.get [0] = .fin d ∧ z ≠ ρ 10 := by
  let st : ℕ → Option (ObsNode Unit) := fun v => if v = 0 then some ⟨none, true, .const ⟨[], fun _ => .fin d⟩, [.adv ⟨[1], fun _ => 0⟩]⟩ else none
  have hst : (fun v => if v = 0 then some (⟨none, false, .const ⟨[], fun _ => FVal.fin d⟩, [.adv ⟨[1], fun _ => 0⟩]⟩ : ObsNode Unit) else none) = fun v => (st v).map fun n => { n with set_instead_of_inc := false } := by
    funext v
    by_cases h : v = 0 <;> simp [st, h]
  rw [hst, C150_adding]
  obtain ⟨terms, vvs, h1, -, h3, -⟩ := conditionalObserved_ok (nodes := st) (defs := Dict.get? model) (rvs := [0, 1]) (clones := [10, 11]) rfl (realized := []) defined
  obtain ⟨x, hx, ht⟩ := h3 1 _ (by simp) rfl
  rw [values] at hx ht
  obtain rfl : 11 = x := by simpa [Dict.get?] using hx
  refine ⟨terms, vvs, _, h1, ht, fun kernel ρ hρ => ?_⟩
  obtain ⟨R, r1, r2, r3⟩ := npSelect_adv (as := [⟨[1], fun _ => 0⟩]) (sh := [1]) (s := [1]) (by simp) (by simp) (.cons (fun c _ => by simp) .nil)
  have hr0 : InRange [0] R.shape := by rw [r2]; exact .cons one_pos .nil
  obtain ⟨z, z1, R', z2, z3, -, z4⟩ := setSubtensor_ok (y := (⟨[1], fun _ => .fin y⟩ : Arr FVal)) (data := ⟨[], fun _ => .fin d⟩) r1 (by rw [r2]; rfl)
  have z2' := r1.symm.trans z2
  cases z2'
  have hz := z4 [0] hr0 (fun c' hc' h => by
    rw [r2] at hc'
    cases hc' with
    | cons h0 hc' =>
      cases hc'
      obtain rfl : _ = 0 := Nat.lt_one_iff.1 h0
      exact absurd h (List.lt_irrefl _))
  rw [r3 [0] (by rw [← r2]; exact hr0)] at hz
  have hz0 : z.get [0] = .fin d := hz
  refine ⟨z, fun ω => ?_, z3, hz0, fun h => ?_⟩
  · rw [eval_observedTerm (fun v node h => by by_cases hv : v = 0 <;> simp [st, hv] at h; rw [← h]; trivial) kernel (user 1 _ rfl)]
    have hv : valueSeen st ρ 0 (ρ 10) = z := by
      have z1' : setSubtensor (⟨[1], fun _ => .fin y⟩ : Arr FVal) [.adv ⟨[1], fun _ => 0⟩] ⟨[], fun _ => .fin d⟩ = .ok z := z1
      simp only [valueSeen, st, if_true, observedValue, ObsNode.at, evalAt, indicesFromSubtensor, hρ, z1']
    show kernel () (ρ 11) [valueSeen st ρ 0 (ρ 10)] = _
    rw [hv]
  · rw [h, hρ] at hz0
    exact hdy (FVal.fin.inj hz0).symm

example := C150_adding_wrong 1 5 (by norm_num)

end Verif.ArrGraph
