import Verif.Lemmas.ArrTransform
import Verif.Props.ArrGraph
import Verif.Props.IRTransform

/-! # C107: the joint density of a model with array variables, on transformed scales -/

namespace Verif.ArrGraph
open Verif Cond MeasureTheory Set

variable {Di : Type} {X Z : ℕ → Type} [∀ i, MeasurableSpace (X i)] [∀ i, MeasurableSpace (Z i)]

theorem wanted_eq {reqs : Dict ℕ (Option (TransVals.Req ATransform))} {registered : Di → Option ATransform} {l : List (ℕ × RVDef Di)} {tr : ℕ → Option ATransform}
    (h : Requested reqs registered l tr) : wanted reqs registered (Dict.get? l) = tr := by
  funext v
  have key : ∀ t, wanted reqs registered (Dict.get? l) v = some t ↔ tr v = some t := by
    intro t
    rw [h v t]
    simp only [wanted, TransVals.transformValues, Bool.not_true, Bool.false_eq_true, if_false]
    cases hr : Dict.get? reqs v with
    | none => simp
    | some o =>
      cases o with
      | none => simp
      | some q =>
        cases q with
        | transform t' => simp
        | default =>
          cases hl : Dict.get? l v with
          | none => simp
          | some r => simp
  cases ht : tr v with
  | some t => exact (key t).2 ht
  | none =>
    cases hw : wanted reqs registered (Dict.get? l) v with
    | none => rfl
    | some t => rw [(key t).1 hw] at ht; cases ht

theorem dens_evalJointT (kernel : Di → Arr FVal → List (Arr FVal) → Except Err (Arr FVal)) {defs : ℕ → Option (RVDef Di)} {reqs : Dict ℕ (Option (TransVals.Req ATransform))}
    {registered : Di → Option ATransform} {tv : ℕ → ℕ} {order rvs clones : List ℕ} {realized : Dict ℕ ℕ} {terms : Dict ℕ (TTerm Di)} {vvs : List ℕ} (hne : terms ≠ [])
    (h : conditionalLogprob (backendT defs (rvValues rvs clones realized) reqs registered tv order) rvs clones realized = .ok (terms, vvs)) :
    ∃ j, jointT defs reqs registered tv order rvs clones realized = .ok (some (j, vvs)) ∧
      ∀ uj ρ ω, dens (evalJointT kernel uj ρ ω j) = (terms.map fun p => dens (arrayJoint (p.2.eval kernel uj ρ ω))).prod := by
  rw [jointT, jointLogprob, h]
  match terms, hne with
  | [(v, t)], _ => exact ⟨_, rfl, fun uj ρ ω => by simp [evalJointT]⟩
  | a :: b :: l, _ =>
    refine ⟨_, rfl, fun uj ρ ω => ?_⟩
    rw [evalJointT, Graph.dens_sumE, List.map_map, Dict.values, List.map_map]
    rfl

/-- The joint term is, in every such environment, the product of the factors of the variables. -/
theorem joint_factors {l : List (ℕ × RVDef Di)} {rvs clones : List ℕ} {realized : Dict ℕ ℕ} {reqs : Dict ℕ (Option (TransVals.Req ATransform))} {registered : Di → Option ATransform}
    {tr : ℕ → Option ATransform} {tv : ℕ → ℕ} {order : List ℕ} (hs : Setting l rvs clones realized reqs registered tr tv order)
    (hfirst : ∀ v, (tr v).isSome → ¬ ChildFirst l (Dict.keys (rvValues rvs clones realized)) v) (kernel : Di → Arr FVal → List (Arr FVal) → Except Err (Arr FVal)) :
    ∃ j, jointT (Dict.get? l) reqs registered tv order rvs clones realized =
        .ok (some (j, ((firstOcc rvs).filter (· ∉ Dict.keys realized)).map fun v => if (tr v).isSome then tv v else (Dict.get? (rvValues rvs clones realized) v).getD 0)) ∧
      ∀ (arrZ : ∀ i, Z i → Arr FVal) uj ρ ω τ env A, Env l (rvValues rvs clones realized) tr tv arrZ ρ τ env →
        dens (evalJointT kernel uj env ω j) = densT kernel tr uj arrZ ρ τ l A := by
  classical
  set d := rvValues rvs clones realized with hd
  have hw := wanted_eq hs.requested
  have hdn : (Dict.keys d).Nodup := rvValues_nodup rvs clones realized
  have hnd := hs.ordered.nodup
  have hdk : ∀ v, v ∈ Dict.keys d ↔ v ∈ l.map Prod.fst := fun v => by rw [hd, IR.keys_values hs.length, hs.mem]
  have hget : ∀ p ∈ l, Dict.get? l p.1 = some p.2 := fun p hp => Dict.get?_of_mem hnd hp
  have hdef : ∀ v ∈ Dict.keys d, ∃ r, Dict.get? l v = some r := fun v hv => by
    obtain ⟨p, hp, rfl⟩ := List.mem_map.1 ((hdk v).1 hv)
    exact ⟨_, hget p hp⟩
  let x := fun v => (Dict.get? d v).getD 0
  have hget' : ∀ v ∈ l.map Prod.fst, Dict.get? d v = some (x v) := fun v hv => by
    obtain ⟨y, hy⟩ := Dict.get?_isSome.2 ((hdk v).2 hv)
    simp only [x, hy, Option.getD_some]
  have hxinj : ∀ v ∈ l.map Prod.fst, ∀ w ∈ l.map Prod.fst, x v = x w → v = w := fun v hv w hw h => hs.inj v w (x v) (hget' v hv) (h ▸ hget' w hw)
  let ins := insOf (Dict.get? l) d
  let rep := visitAll tr x tv ins order
  have hins : ∀ p ∈ l, ins p.1 = List.ofFn fun i => replaceValued d (p.2.args i) := fun p hp => by simp only [ins, insOf, hget p hp]
  let mk : ℕ → RVDef Di → TTerm Di := fun v r => ⟨r.dist, valueVar tr x tv v, r.n, fun i => rep (replaceValued d (r.args i)), (tr v).map fun t => (t, (ins v).map rep), none⟩
  let t : ℕ → TTerm Di := fun v => mk v ((Dict.get? l v).getD (l.head hs.ne).2)
  have ht : ∀ {v r}, Dict.get? l v = some r → t v = mk v r := fun {v r} h => by show mk v ((Dict.get? l v).getD _) = _; rw [h]; rfl
  have hreq : ((Dict.keys reqs).all fun v => v ∈ Dict.keys d) = true := by
    rw [List.all_eq_true]
    intro v hv
    simpa using (hdk v).2 (hs.keys v hv)
  have hfirst' : ∀ v, (tr v).isSome → innerFirst (Dict.get? l) d v = false := fun v hv => by
    rw [← Bool.not_eq_true, innerFirst_iff hdn hs.user fun p hp i id hid => (hdk id).2 (hs.closed p hp i id hid)]
    exact hfirst v hv
  have hrepT : visitAll tr x tv (insAt (Dict.get? l) d) order = rep := visitAll_congr (fun v hv => by simp [insAt, hfirst' v hv, ins]) order
  have hcond := conditional_simple (B := backendT (Dict.get? l) d reqs registered tv order) (realized := realized) (val := valueVar tr x tv) (base := valueVar tr x tv) (t := t) hd
    (fun v hv => by obtain ⟨r, hr⟩ := hdef v hv; simp [backendT, hr]) (fun _ _ => rfl)
    (by simp only [backendT, hreq, if_true, hw]; rfl)
    (fun v hv => by obtain ⟨r, hr⟩ := hdef v hv; simp [backendT, hr])
    (fun v hv => by
      obtain ⟨r, hr⟩ := hdef v hv
      rw [ht hr]
      simp only [backendT, hr, hw]
      rw [show visitAll tr (fun v => (Dict.get? d v).getD 0) tv (insAt (Dict.get? l) d) order = rep from hrepT]
      cases hv : tr v with
      | none => split_ifs <;> simp [mk, hv]
      | some u =>
        have h1 := hfirst' v (by simp [hv])
        simp [h1, mk, hv, insAt, ins])
  have hk : (Dict.keys d).filter (· ∉ Dict.keys realized) = (firstOcc rvs).filter (· ∉ Dict.keys realized) := by
    rw [hd, rvValues, keys_filter_update _ _ _ (by intro k hk; simpa using hk), keys_ofList, List.map_fst_zip hs.length.ge]
  rw [hk] at hcond
  have htne : (d.map fun p => (p.1, t p.1)) ≠ [] := by
    intro h0
    have h1 : d = [] := List.map_eq_nil_iff.1 h0
    have : (l.head hs.ne).1 ∈ Dict.keys d := (hdk _).2 (List.mem_map.2 ⟨_, List.head_mem hs.ne, rfl⟩)
    rw [h1] at this
    simp [Dict.keys] at this
  obtain ⟨j, hj, hdens⟩ := dens_evalJointT kernel htne hcond
  refine ⟨j, hj, fun arrZ uj ρ ω τ env A henv => ?_⟩
  rw [densT_eq kernel uj τ hs.ordered, hdens, List.map_map]
  set B := takeBack tr arrZ ρ τ l A with hB
  -- the values taken back, in the place of the value variables
  let env' : ℕ → Arr FVal := fun y => if h : ∃ v, v ∈ l.map Prod.fst ∧ (tr v).isSome ∧ x v = y then B h.choose else env y
  have henv1 : ∀ v ∈ l.map Prod.fst, (tr v).isSome → env' (x v) = B v := by
    intro v hv ht
    have h : ∃ w, w ∈ l.map Prod.fst ∧ (tr w).isSome ∧ x w = x v := ⟨v, hv, ht, rfl⟩
    simp only [env', h, dif_pos]
    rw [hxinj _ h.choose_spec.1 v hv h.choose_spec.2.2]
  have henv2 : ∀ y, (∀ v ∈ l.map Prod.fst, (tr v).isSome → y ≠ x v) → env' y = env y := by
    intro y hy
    have h : ¬ ∃ v, v ∈ l.map Prod.fst ∧ (tr v).isSome ∧ x v = y := fun ⟨v, h1, h2, h3⟩ => hy v h1 h2 h3.symm
    simp only [env', h, dif_neg, not_false_eq_true]
  have hitem : ∀ p ∈ l, B p.1 = offScale (tr p.1) (arrZ p.1 (τ p.1)) (params B ρ p.2) := fun p hp => takeBack_item hs.ordered hp
  have hBd : ∀ v ∈ l.map Prod.fst, env' (x v) = B v := by
    intro v hv
    by_cases ht : (tr v).isSome
    · exact henv1 v hv ht
    · have ht' : tr v = none := by simpa using ht
      rw [henv2 _ fun w hw hwt hh => ht (by rw [hxinj v hv w hw hh]; exact hwt), henv.kept v (x v) (hget' v hv) ht']
      obtain ⟨p, hp, rfl⟩ := List.mem_map.1 hv
      rw [hitem p hp, ht']
      rfl
  have hev : ∀ p ∈ l, ∀ i, eval env' ω (cleanup (replaceValued d (p.2.args i))) = evalAt B ρ (p.2.args i) := by
    intro p hp i
    rw [eval_cleanup_replace (σ := B) ω _ (hs.user p hp i) fun id hm => ⟨x id, hget' id (hs.closed p hp i id hm), hBd id (hs.closed p hp i id hm)⟩]
    refine evalAt_inputs (hs.user p hp i) fun k hk => ?_
    obtain ⟨h1, h2⟩ := henv.inputs p hp i k hk
    rw [henv2 k fun v hv _ => h2 v (x v) (hget' v hv), h1]
  have hparams : ∀ p ∈ l, ((ins p.1).map fun a => eval env' ω (cleanup a)) = params B ρ p.2 := by
    intro p hp
    rw [hins p hp, List.map_ofFn, params]
    congr 1
    funext i
    exact hev p hp i
  have hrep : ∀ e, eval env ω (cleanup (rep e)) = eval env' ω (cleanup e) := by
    refine eval_visitAll (rank := (l.map Prod.fst).idxOf) ?_ ?_ hs.order ?_ ?_
    · intro v hv a ha w hw _ hm
      obtain ⟨p, hp, rfl⟩ := List.mem_map.1 hv
      rw [hins p hp] at ha
      obtain ⟨i, rfl⟩ := (List.mem_ofFn' _ _).1 ha
      rcases reads_replace (hs.user p hp i) (fun id hid => (hdk id).2 (hs.closed p hp i id hid)) hm with h | ⟨id, h1, h2⟩
      · exact absurd rfl ((henv.inputs p hp i _ h).2 w (x w) (hget' w hw))
      · rw [← hs.inj id w (x w) h2 (hget' w hw)]
        exact hs.ordered.rank hp h1 (hs.closed p hp i id h1)
    · intro v hv w hw
      exact hs.fresh v w (x w) hv (hget' w hw)
    · intro y hy
      exact (henv2 y hy).symm
    · intro v hv t ht
      obtain ⟨p, hp, rfl⟩ := List.mem_map.1 hv
      have h1 : env' (tv p.1) = arrZ p.1 (τ p.1) := by
        rw [henv2 _ fun w hw _ => hs.fresh p.1 w (x w) hv (hget' w hw), henv.new p.1 hv (by simp [ht])]
      rw [henv1 p.1 hv (by simp [ht]), hitem p hp, ht, h1, hparams p hp]
      rfl
  have hterm : ∀ p ∈ l, (t p.1).eval kernel uj env ω = termAt (kernel p.2.dist) (tr p.1) uj (arrZ p.1 (τ p.1)) (params B ρ p.2) := by
    intro p hp
    have hv : p.1 ∈ l.map Prod.fst := List.mem_map.2 ⟨p, hp, rfl⟩
    have hargs : (List.ofFn fun i => eval env ω (cleanup (rep (replaceValued d (p.2.args i))))) = params B ρ p.2 := by
      simp only [hrep, hev p hp]
      rfl
    rw [ht (hget p hp)]
    simp only [TTerm.eval, mk, hargs, termAt]
    cases htr : tr p.1 with
    | none =>
      simp only [Option.map_none, valueVar, htr, Option.isSome_none, Bool.false_eq_true, if_false]
      rw [henv.kept p.1 (x p.1) (hget' _ hv) htr]
    | some t =>
      simp only [Option.map_some, valueVar, htr, Option.isSome_some, if_true, List.map_map]
      rw [henv.new p.1 hv (by simp [htr])]
      have e1 : (ins p.1).map ((fun e => eval env ω (cleanup e)) ∘ rep) = params B ρ p.2 := by
        rw [← hparams p hp]
        exact List.map_congr_left fun a _ => hrep a
      rw [e1]
  have e1 : (d.map ((fun p : ℕ × TTerm Di => dens (arrayJoint (p.2.eval kernel uj env ω))) ∘ fun p => (p.1, t p.1))) =
      (Dict.keys d).map fun v => dens (arrayJoint ((t v).eval kernel uj env ω)) := by rw [Dict.keys, List.map_map]; rfl
  have hperm : (Dict.keys d).Perm (l.map Prod.fst) := (List.perm_ext_iff_of_nodup hdn hnd).2 hdk
  rw [e1, (hperm.map _).prod_eq, List.map_map]
  congr 1
  refine List.map_congr_left fun p hp => ?_
  show dens (arrayJoint ((t p.1).eval kernel uj env ω)) = _
  rw [hterm p hp]

/-- **C107** For every model of array-valued random variables, in dependency order and with parameters that are valid with probability one, and every choice of transforms: the joint term of
`joint_logprob` with `TransformValuesRewrite` is the density of the transformed draws, whatever order the rewriter takes.  Its integral over the values on the transformed scales, times any function of
them, is the mean of the function at the forward transforms of the drawn values.  Missing: calls in which a transformed variable that is given through others comes after one that is given through it
(`hfirst`), for which the claim is false (`C107_child_first`, `C107_order_counterexample`).  The value variables are returned in the order of the arguments; for transformed variables it is the new one. -/
theorem C107_joint_density_partial (arr : ∀ i, X i → Arr FVal) (arrZ : ∀ i, Z i → Arr FVal) (kernel : Di → Arr FVal → List (Arr FVal) → Except Err (Arr FVal))
    (fwd : ∀ i, Di → List (Arr FVal) → X i → Z i) (reg : ∀ i, Di → List (Arr FVal) → Set (Z i)) (law : ∀ i, Di → List (Arr FVal) → Measure (X i)) (ref : ∀ i, Measure (Z i))
    (ρ : ℕ → Arr FVal) (ω : ℕ → Di → List (Arr FVal) → Arr FVal) {l : List (ℕ × RVDef Di)} {rvs clones : List ℕ} {realized : Dict ℕ ℕ}
    {reqs : Dict ℕ (Option (TransVals.Req ATransform))} {registered : Di → Option ATransform} {tr : ℕ → Option ATransform} {tv : ℕ → ℕ} {order : List ℕ}
    (hs : Setting l rvs clones realized reqs registered tr tv order) (hfirst : ∀ v, (tr v).isSome → ¬ ChildFirst l (Dict.keys (rvValues rvs clones realized)) v)
    (env : (∀ i, Z i) → ℕ → Arr FVal) (henv : ∀ τ, Env l (rvValues rvs clones realized) tr tv arrZ ρ τ (env τ)) :
    ∃ j, jointT (Dict.get? l) reqs registered tv order rvs clones realized =
        .ok (some (j, ((firstOcc rvs).filter (· ∉ Dict.keys realized)).map fun v => if (tr v).isSome then tv v else (Dict.get? (rvValues rvs clones realized) v).getD 0)) ∧
      ∀ (σ₀ : ∀ i, X i) (τ₀ : ∀ i, Z i), ValidT arr arrZ kernel tr fwd reg law ref ρ l σ₀ → ∀ ψ : (∀ i, Z i) → ENNReal,
        refT tr arrZ reg ref ρ l (asg arr σ₀) τ₀ (fun τ => dens (evalJointT kernel true (env τ) ω j) * ψ τ) =
          sampleE arr law ρ l σ₀ fun σ => ψ (scaled arr fwd ρ l τ₀ σ) := by
  obtain ⟨j, hj, hfac⟩ := joint_factors (Z := Z) hs hfirst kernel
  refine ⟨j, hj, fun σ₀ τ₀ hvalid ψ => ?_⟩
  simp_rw [hfac arrZ true ρ ω _ (env _) (asg arr σ₀) (henv _), ← scaleT_eq hs.ordered.nodup]
  exact ancestralT arr kernel fwd law ψ hs.ordered σ₀ τ₀ hvalid

/-- **C107** (false in general) If every transformed variable is given through other variables and comes after a variable given through it, then there are no Jacobian terms at all, at any values and draws. -/
theorem C107_child_first {l : List (ℕ × RVDef Di)} {rvs clones : List ℕ} {realized : Dict ℕ ℕ} {reqs : Dict ℕ (Option (TransVals.Req ATransform))} {registered : Di → Option ATransform}
    {tr : ℕ → Option ATransform} {tv : ℕ → ℕ} {order : List ℕ} (hs : Setting l rvs clones realized reqs registered tr tv order)
    (hfirst : ∀ v, (tr v).isSome → ChildFirst l (Dict.keys (rvValues rvs clones realized)) v) (kernel : Di → Arr FVal → List (Arr FVal) → Except Err (Arr FVal)) :
    ∃ j vvs, jointT (Dict.get? l) reqs registered tv order rvs clones realized = .ok (some (j, vvs)) ∧ ∀ env ω, dens (evalJointT kernel true env ω j) = dens (evalJointT kernel false env ω j) := by
  set d := rvValues rvs clones realized with hd
  have hw := wanted_eq hs.requested
  have hdn : (Dict.keys d).Nodup := rvValues_nodup rvs clones realized
  have hdk : ∀ v, v ∈ Dict.keys d ↔ v ∈ l.map Prod.fst := fun v => by rw [hd, IR.keys_values hs.length, hs.mem]
  have hdef : ∀ v ∈ Dict.keys d, ∃ r, Dict.get? l v = some r := fun v hv => by
    obtain ⟨p, hp, rfl⟩ := List.mem_map.1 ((hdk v).1 hv)
    exact ⟨_, Dict.get?_of_mem hs.ordered.nodup hp⟩
  let x := fun v => (Dict.get? d v).getD 0
  let rep := visitAll tr x tv (insAt (Dict.get? l) d) order
  let mk : ℕ → RVDef Di → TTerm Di := fun v r => ⟨r.dist, valueVar tr x tv v, r.n, fun i => rep (replaceValued d (r.args i)), none, (tr v).map fun _ => rep (.inp (x v))⟩
  let t : ℕ → TTerm Di := fun v => mk v ((Dict.get? l v).getD (l.head hs.ne).2)
  have ht : ∀ {v r}, Dict.get? l v = some r → t v = mk v r := fun {v r} h => by show mk v ((Dict.get? l v).getD _) = _; rw [h]; rfl
  have hreq : ((Dict.keys reqs).all fun v => v ∈ Dict.keys d) = true := by
    rw [List.all_eq_true]
    intro v hv
    simpa using (hdk v).2 (hs.keys v hv)
  have hcond := conditional_simple (B := backendT (Dict.get? l) d reqs registered tv order) (realized := realized) (val := valueVar tr x tv) (base := valueVar tr x tv) (t := t) hd
    (fun v hv => by obtain ⟨r, hr⟩ := hdef v hv; simp [backendT, hr]) (fun _ _ => rfl)
    (by simp only [backendT, hreq, if_true, hw]; rfl)
    (fun v hv => by obtain ⟨r, hr⟩ := hdef v hv; simp [backendT, hr])
    (fun v hv => by
      obtain ⟨r, hr⟩ := hdef v hv
      rw [ht hr]
      simp only [backendT, hr, hw]
      cases hv : tr v with
      | none => split_ifs <;> simp [mk, hv, rep, x]
      | some u =>
        have h1 := (innerFirst_iff hdn hs.user fun p hp i id hid => (hdk id).2 (hs.closed p hp i id hid)).2 (hfirst v (by simp [hv]))
        simp [h1, mk, hv, rep, x])
  have htne : (d.map fun p => (p.1, t p.1)) ≠ [] := by
    intro h0
    have h1 : d = [] := List.map_eq_nil_iff.1 h0
    have : (l.head hs.ne).1 ∈ Dict.keys d := (hdk _).2 (List.mem_map.2 ⟨_, List.head_mem hs.ne, rfl⟩)
    rw [h1] at this
    simp [Dict.keys] at this
  obtain ⟨j, hj, hdens⟩ := dens_evalJointT kernel htne hcond
  refine ⟨j, _, hj, fun env ω => ?_⟩
  rw [hdens, hdens, List.map_map, List.map_map]
  congr 1
  refine List.map_congr_left fun p _ => ?_
  show dens (arrayJoint ((mk p.1 _).eval kernel true env ω)) = dens (arrayJoint ((mk p.1 _).eval kernel false env ω))
  simp only [TTerm.eval, mk]
  cases tr p.1 <;> rfl

end Verif.ArrGraph
