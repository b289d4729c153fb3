import Verif.Spec.Graph
import Verif.Props.Core
import Verif.Lemmas.Density
import Verif.Props.Dist1
import Verif.Props.Dist2

/-! # C07, C08: conditional terms and the joint density of a model -/

namespace Verif.Graph
open Verif Cond MeasureTheory

variable {Di : Type}

/-! ## C07 -/

/-- The values of the random variables: those of their value variables. -/
def valueOf (vals : Dict ℕ ℕ) (ρ : ℕ → FVal) (id : ℕ) : Option FVal := (Dict.get? vals id).map ρ

theorem eval_cleanup_replace (vals : Dict ℕ ℕ) (ρ : ℕ → FVal) (ω : ℕ → Di → List FVal → FVal) (e : Expr Di) (h : User e) :
    eval ρ ω (cleanup (replaceValued vals e)) = evalGiven (valueOf vals ρ) ρ ω e := by
  induction e with
  | const x => rfl
  | inp i => rfl
  | app n f args ih =>
    simp only [replaceValued, cleanup, eval, evalGiven]
    congr 1
    funext i
    exact ih i (h i)
  | rv id dist n args ih =>
    cases hv : Dict.get? vals id with
    | none =>
      simp only [replaceValued, hv, cleanup, eval, evalGiven, valueOf, Option.map_none]
      congr 2
      funext i
      exact ih i (h i)
    | some v => simp [replaceValued, hv, cleanup, eval, evalGiven, valueOf]
  | valued r v => exact h.elim

theorem evalGiven_eq_evalAt {vals : ℕ → Option FVal} {ρ σ : ℕ → FVal} {ω : ℕ → Di → List FVal → FVal} (e : Expr Di)
    (h : ∀ id, Mentions id e → vals id = some (σ id)) : evalGiven vals ρ ω e = evalAt σ ρ e := by
  induction e with
  | const x => rfl
  | inp i => rfl
  | app n f args ih =>
    simp only [evalGiven, evalAt]
    congr 1
    funext i
    exact ih i fun id hid => h id ⟨i, hid⟩
  | rv id dist n args ih => simp [evalGiven, evalAt, h id rfl]
  | valued r v ih1 ih2 => exact ih1 h

theorem backend_contract (defs : ℕ → Option (RVDef Di)) (d : Dict ℕ ℕ) :
    Contract (backend defs d) ∧ KeepsValues (backend defs d) ∧ SingleOutput (backend defs d) := by
  refine ⟨⟨fun n => ?_, fun n o ho => ?_, fun n vs lps h hl => ?_, fun d' outs vals h => ?_⟩, fun d' outs vals h => ?_, fun n => ?_⟩
  · simp only [backend]; split_ifs <;> simp
  · simp only [backend] at ho ⊢
    split_ifs at ho with h
    · have : o = n := by simpa using ho
      subst this; simp [h]
    · simp at ho
  · simp only [backend] at h hl ⊢
    cases hd : defs n with
    | none => simp [hd] at h
    | some r =>
      match vs with
      | [] => simp [hd] at h
      | [v] =>
        simp only [hd, Except.ok.injEq] at h
        simp [← h]
      | a :: b :: l => simp [hd] at h
  · simp only [backend, Except.ok.injEq, Prod.mk.injEq] at h
    rw [← h.1, ← h.2]; simp
  · simp only [backend, Except.ok.injEq, Prod.mk.injEq] at h
    refine ⟨h.2.symm, ?_⟩
    intro i o ho
    rw [← h.1, List.getElem?_map] at ho
    rw [List.getElem?_map]
    cases hd : d'[i]? with
    | none => simp [hd] at ho
    | some p =>
      simp only [hd, Option.map_some, Option.some.injEq] at ho ⊢
      rw [← ho]
  · simp only [backend]; split_ifs <;> simp

/-- The term graph stored for a variable. -/
theorem conditional_term {defs : ℕ → Option (RVDef Di)} {rvs clones : List ℕ} {realized : Dict ℕ ℕ} {terms : Dict ℕ (Term Di)}
    {vvs : List ℕ} (h : conditional defs rvs clones realized = .ok (terms, vvs)) {v x : ℕ}
    (hx : Dict.get? (rvValues rvs clones realized) v = some x) {r : RVDef Di} (hr : defs v = some r) :
    Dict.get? terms v = some ⟨r.dist, .inp x, r.n, fun i => cleanup (replaceValued (rvValues rvs clones realized) (r.args i))⟩ := by
  obtain ⟨hB, hK, hS⟩ := backend_contract defs (rvValues rvs clones realized)
  have hown := C05_own_value_single_partial hB hS h
  have hc : Converts (backend defs (rvValues rvs clones realized)) (rvValues rvs clones realized) v v x := by
    obtain ⟨i, hi⟩ := List.mem_iff_getElem?.1 (Dict.mem_of_get? hx)
    refine ⟨_, _, rfl, i, ?_, ?_⟩
    · rw [List.getElem?_map, hi]; rfl
    · rw [List.getElem?_map, hi]; rfl
  have hmo : (backend defs (rvValues rvs clones realized)).measurableOutputs v = [v] := by simp [backend, hr]
  obtain ⟨lps, h1, j, h2, h3⟩ := hown v v x v hc (by simp [backend, hr]) [x] (by rw [hmo]; rfl) (by
    intro j o' y h1 h2
    rw [hmo] at h1
    match j with
    | 0 =>
      have e1 : o' = v := (Option.some.inj h1).symm
      have e2 : y = x := (Option.some.inj h2).symm
      subst e1 e2
      exact ⟨_, hc⟩
    | j + 1 => simp at h1)
  rw [hmo] at h2
  match j with
  | 0 =>
    rw [← h3]
    simp only [backend, hr, Except.ok.injEq] at h1
    rw [← h1]
    rfl
  | j + 1 => simp at h2

/-- **C07** The term of `v`, evaluated at any values `ρ` of the inputs and value variables and with any sampler `ω` for the random variables
that have no value, is the log-density of `v`'s distribution at `v`'s value, with the parameters computed from the values of the
valued random variables; variables without value are sampled given the values of their valued ancestors.  What the valued variables'
own distributions and parameters are plays no role (`evalGiven` never looks). -/
theorem C07_conditional_on_values (kernel : Di → FVal → List FVal → Except Err FVal) {defs : ℕ → Option (RVDef Di)}
    (huser : ∀ v r, defs v = some r → ∀ i, User (r.args i)) {rvs clones : List ℕ} (hc : clones.length = rvs.length) {realized : Dict ℕ ℕ}
    {terms : Dict ℕ (Term Di)} {vvs : List ℕ} (h : conditional defs rvs clones realized = .ok (terms, vvs)) {v : ℕ}
    (hv : v ∈ rvs ∨ v ∈ Dict.keys realized) {r : RVDef Di} (hr : defs v = some r) :
    ∃ x t, Dict.get? (rvValues rvs clones realized) v = some x ∧ Dict.get? terms v = some t ∧
      ∀ ρ ω, t.eval kernel ρ ω = kernel r.dist (ρ x) (paramsGiven (valueOf (rvValues rvs clones realized) ρ) ρ ω r) := by
  have hk : v ∈ Dict.keys (rvValues rvs clones realized) := by
    rw [rvValues, Dict.mem_keys_update, Dict.mem_keys_ofList, List.map_fst_zip hc.ge]; exact hv
  obtain ⟨x, hx⟩ := Dict.get?_isSome.2 hk
  refine ⟨x, _, hx, conditional_term h hx hr, fun ρ ω => ?_⟩
  simp only [Term.eval, eval, paramsGiven]
  congr 2
  funext i
  exact eval_cleanup_replace _ _ _ _ (huser v r hr i)

/-- Replace the distribution and parameters of the random variables for which `upd` has a new definition. -/
def redefine (upd : ℕ → Option (RVDef Di)) : Expr Di → Expr Di
  | .const x => .const x
  | .inp i => .inp i
  | .app n f args => .app n f fun i => redefine upd (args i)
  | .rv id dist n args =>
    match upd id with
    | some r => .rv id r.dist r.n r.args
    | none => .rv id dist n fun i => redefine upd (args i)
  | .valued r v => .valued (redefine upd r) (redefine upd v)

/-- **C07**, independence: giving the valued ancestors other distributions and parameters leaves the value of the term of `v` unchanged. -/
theorem C07_ancestors_irrelevant (kernel : Di → FVal → List FVal → Except Err FVal) {defs defs' : ℕ → Option (RVDef Di)}
    (upd : ℕ → Option (RVDef Di)) {rvs clones : List ℕ} (hc : clones.length = rvs.length) {realized : Dict ℕ ℕ}
    (hupd : ∀ w, (upd w).isSome → w ∈ rvs ∨ w ∈ Dict.keys realized)
    (huser : ∀ v r, defs v = some r → ∀ i, User (r.args i)) (huser' : ∀ v r, defs' v = some r → ∀ i, User (r.args i))
    {terms terms' : Dict ℕ (Term Di)} {vvs vvs' : List ℕ} (h : conditional defs rvs clones realized = .ok (terms, vvs))
    (h' : conditional defs' rvs clones realized = .ok (terms', vvs')) {v : ℕ} (hv : v ∈ rvs ∨ v ∈ Dict.keys realized) {r : RVDef Di}
    (hr : defs v = some r) (hr' : defs' v = some ⟨r.dist, r.n, fun i => redefine upd (r.args i)⟩) :
    ∃ t t', Dict.get? terms v = some t ∧ Dict.get? terms' v = some t' ∧ ∀ ρ ω, t'.eval kernel ρ ω = t.eval kernel ρ ω := by
  obtain ⟨x, t, hx, ht, he⟩ := C07_conditional_on_values kernel huser hc h hv hr
  obtain ⟨x', t', hx', ht', he'⟩ := C07_conditional_on_values kernel huser' hc h' hv hr'
  rw [hx] at hx'
  cases hx'
  refine ⟨t, t', ht, ht', fun ρ ω => ?_⟩
  rw [he, he']
  simp only [paramsGiven]
  congr 2
  funext i
  have gen : ∀ e : Expr Di, evalGiven (valueOf (rvValues rvs clones realized) ρ) ρ ω (redefine upd e) =
      evalGiven (valueOf (rvValues rvs clones realized) ρ) ρ ω e := by
    intro e
    induction e with
    | const x => rfl
    | inp i => rfl
    | app n f args ih => simp only [redefine, evalGiven, ih]
    | rv id dist n args ih =>
      cases hu : upd id with
      | none => simp only [redefine, hu, evalGiven, ih]
      | some r' =>
        have hk : id ∈ Dict.keys (rvValues rvs clones realized) := by
          rw [rvValues, Dict.mem_keys_update, Dict.mem_keys_ofList, List.map_fst_zip hc.ge]; exact hupd id (by simp [hu])
        obtain ⟨y, hy⟩ := Dict.get?_isSome.2 hk
        simp [redefine, hu, evalGiven, valueOf, hy]
    | valued r v ih1 ih2 => simp only [redefine, evalGiven, ih1]
  exact gen _

/-! ## Returning -/

theorem checkValued_ok (defs : ℕ → Option (RVDef Di)) (d' d : Dict ℕ ℕ) (h : ∀ v ∈ Dict.keys d, (defs v).isSome) :
    checkValued (backend defs d') d = .ok () := by
  induction d with
  | nil => rfl
  | cons p d ih =>
    obtain ⟨v, x⟩ := p
    have hv := h v (by simp [Dict.keys])
    simp only [checkValued, backend, hv, if_true, ne_eq, not_true_eq_false, if_false]
    exact ih fun w hw => h w (by simp only [Dict.keys, List.map_cons, List.mem_cons] at hw ⊢; exact Or.inr hw)

theorem bindLoop_entries {V N D T : Type} [DecidableEq V] [DecidableEq N] [DecidableEq D] {B : Backend V N D T} {realized : Dict V V}
    {es : List (Entry V N)} {st : St V N} (h : ∀ e ∈ es, B.owner e.rv = some e.node) :
    bindLoop B realized (es.map Entry.src) st = .ok (es.foldl (step realized) st) := by
  induction es generalizing st with
  | nil => rfl
  | cons e es ih =>
    simp only [List.map_cons, Entry.src, bindLoop, h e (by simp), List.foldl_cons]
    exact ih fun e' he' => h e' (by simp [he'])

/-- `conditional_logprob` returns whenever every requested or realized variable is a random variable of the model. -/
theorem conditional_returns {defs : ℕ → Option (RVDef Di)} {rvs clones : List ℕ} (hc : clones.length = rvs.length) {realized : Dict ℕ ℕ}
    (hdef : ∀ v, v ∈ rvs ∨ v ∈ Dict.keys realized → (defs v).isSome) : ∃ terms vvs, conditional defs rvs clones realized = .ok (terms, vvs) := by
  set d := rvValues rvs clones realized with hd
  have hnd : (Dict.keys d).Nodup := rvValues_nodup rvs clones realized
  have hkey : ∀ v ∈ Dict.keys d, (defs v).isSome := by
    intro v hv
    rw [hd, rvValues, Dict.mem_keys_update, Dict.mem_keys_ofList, List.map_fst_zip hc.ge] at hv
    exact hdef v hv
  let es : List (Entry ℕ ℕ) := d.map fun p => ⟨p.1, p.2, p.1, p.2, p.1⟩
  have hzip : List.zip (Dict.keys d) (d.map Prod.snd) = d := by
    have h : ∀ l : List (ℕ × ℕ), List.zip (l.map Prod.fst) (l.map Prod.snd) = l := by
      intro l
      induction l with
      | nil => rfl
      | cons a l ih => simp [ih]
    exact h d
  have hsrc : List.zip (d.map fun p => some (⟨p.1, p.2⟩ : ValuedOut ℕ)) d = es.map Entry.src := by
    have h : ∀ l : List (ℕ × ℕ), List.zip (l.map fun p => some (⟨p.1, p.2⟩ : ValuedOut ℕ)) l =
        (l.map fun p => (⟨p.1, p.2, p.1, p.2, p.1⟩ : Entry ℕ ℕ)).map Entry.src := by
      intro l
      induction l with
      | nil => rfl
      | cons a l ih => simp only [List.map_cons, List.zip_cons_cons, ih]; rfl
    exact h d
  have hown : ∀ e ∈ es, (backend defs d).owner e.rv = some e.node := by
    intro e he
    obtain ⟨p, hp, rfl⟩ := List.mem_map.1 he
    simp [backend, hkey p.1 (List.mem_map.2 ⟨p, hp, rfl⟩)]
  have hnodes : (es.map Entry.node).Nodup := by
    have : es.map Entry.node = Dict.keys d := by simp only [es, List.map_map]; rfl
    rw [this]; exact hnd
  have hrun : ∀ (l : List (Entry ℕ ℕ)) acc, (∀ e ∈ l, e ∈ es) →
      ∃ res, nodeLoop (backend defs d) (run realized es) (l.map fun e => (e.node, [(e.val, e.base)])) acc = .ok res := by
    intro l
    induction l with
    | nil => intro acc _; exact ⟨acc, rfl⟩
    | cons e l ih =>
      intro acc hl
      have he := hl e (by simp)
      obtain ⟨p, hp, hpe⟩ := List.mem_map.1 he
      have hnode : e.node = e.rv := by rw [← hpe]
      have hsome : (defs e.node).isSome := by rw [← hpe]; exact hkey p.1 (List.mem_map.2 ⟨p, hp, rfl⟩)
      obtain ⟨r, hr⟩ := Option.isSome_iff_exists.1 hsome
      obtain ⟨old, hold⟩ := run_newToOld_of_mem realized es he
      rw [← hnode] at hold
      have hmo : (backend defs d).measurableOutputs e.node = [e.node] := by simp [backend, hr]
      have hlp : (backend defs d).logprob e.node [e.val] =
          .ok [⟨r.dist, cleanup (.inp e.val), r.n, fun i => cleanup (replaceValued d (r.args i))⟩] := by simp [backend, hr]
      obtain ⟨a1, a2⟩ := acc
      simp only [List.map_cons, nodeLoop, hmo, List.map_nil, hlp]
      simp only [List.length_singleton, lt_irrefl, if_false, ne_eq, not_true_eq_false, List.cons_ne_nil, List.zip_cons_cons, List.zip_nil_right,
        termLoop, hold]
      exact ih _ fun e he => hl e (List.mem_cons_of_mem _ he)
  obtain ⟨⟨terms, vvs⟩, hres⟩ := hrun es ([], []) fun e he => he
  refine ⟨terms, vvs, ?_⟩
  have hrw : (backend defs d).rewrite d = .ok (d.map (fun p => some ⟨p.1, p.2⟩), d.map Prod.snd) := rfl
  rw [conditional, conditionalLogprob, constructIr, ← hd, checkValued_ok defs d d hkey, hrw]
  simp only
  rw [hzip, Dict.ofList_of_nodup hnd, hsrc, bindLoop_entries hown]
  show nodeLoop (backend defs d) (run realized es) (run realized es).nodesToVals ([], []) = _
  rw [run_of_nodup realized es hnodes]
  exact hres

/-! ## C08 -/

theorem toDens_add (a b : FVal) : (a + b).toDens = a.toDens * b.toDens := by
  cases a <;> cases b <;> simp [FVal.toDens, Real.exp_add, ENNReal.ofReal_mul (Real.exp_pos _).le, Real.exp_pos]

theorem dens_sumE (l : List (Except Err FVal)) : dens (sumE l) = (l.map dens).prod := by
  induction l with
  | nil => simp [sumE, dens, FVal.toDens]
  | cons x l ih =>
    cases x with
    | error e => simp [sumE, dens]
    | ok x =>
      rw [List.map_cons, List.prod_cons, ← ih]
      cases h : sumE l with
      | error e => simp [sumE, h, dens]
      | ok y => simp [sumE, h, dens, toDens_add]

theorem dens_evalJoint (kernel : Di → FVal → List FVal → Except Err FVal) {defs : ℕ → Option (RVDef Di)} {rvs clones : List ℕ}
    {realized : Dict ℕ ℕ} {terms : Dict ℕ (Term Di)} {vvs : List ℕ} (hne : terms ≠ [])
    (h : conditional defs rvs clones realized = .ok (terms, vvs)) :
    ∃ j, joint defs rvs clones realized = .ok (some (j, vvs)) ∧
      ∀ ρ ω, dens (evalJoint kernel ρ ω j) = (terms.map fun p => dens (p.2.eval kernel ρ ω)).prod := by
  have h' : conditionalLogprob (backend defs (rvValues rvs clones realized)) rvs clones realized = .ok (terms, vvs) := h
  rw [joint, jointLogprob, h']
  match terms, hne with
  | [(v, t)], _ => exact ⟨_, rfl, fun ρ ω => by simp [evalJoint]⟩
  | a :: b :: l, _ =>
    refine ⟨_, rfl, fun ρ ω => ?_⟩
    rw [evalJoint, dens_sumE, List.map_map, Dict.values, List.map_map]
    rfl

theorem evalAt_congr {σ σ' ρ : ℕ → FVal} (e : Expr Di) (h : ∀ id, Mentions id e → σ id = σ' id) : evalAt σ ρ e = evalAt σ' ρ e := by
  induction e with
  | const x => rfl
  | inp i => rfl
  | app n f args ih =>
    simp only [evalAt]
    congr 1
    funext i
    exact ih i fun id hid => h id ⟨i, hid⟩
  | rv id dist n args ih => exact h id rfl
  | valued r v ih1 ih2 => exact ih1 h

theorem refE_congr {ref : Di → Measure ℝ} (l : List (ℕ × RVDef Di)) (σ : ℕ → ℝ) {φ ψ : (ℕ → ℝ) → ENNReal}
    (h : ∀ σ', (∀ i, i ∉ l.map Prod.fst → σ' i = σ i) → φ σ' = ψ σ') : refE ref l σ φ = refE ref l σ ψ := by
  induction l generalizing σ with
  | nil => exact h σ fun _ _ => rfl
  | cons p l ih =>
    obtain ⟨id, r⟩ := p
    simp only [refE]
    refine lintegral_congr fun x => ih _ fun σ' hσ' => h σ' fun i hi => ?_
    simp only [List.map_cons, List.mem_cons, not_or] at hi
    rw [hσ' i hi.2, Function.update_of_ne hi.1]

theorem refE_const_mul {ref : Di → Measure ℝ} (l : List (ℕ × RVDef Di)) (σ : ℕ → ℝ) {c : ENNReal} (hc : c ≠ ⊤) (φ : (ℕ → ℝ) → ENNReal) :
    refE ref l σ (fun σ => c * φ σ) = c * refE ref l σ φ := by
  induction l generalizing σ with
  | nil => rfl
  | cons p l ih =>
    obtain ⟨id, r⟩ := p
    simp only [refE, ih]
    rw [lintegral_const_mul' _ _ hc]

theorem refE_eq_sampleE (kernel : Di → FVal → List FVal → Except Err FVal) (law : Di → List FVal → Measure ℝ) (ref : Di → Measure ℝ)
    (ρ : ℕ → FVal) (φ : (ℕ → ℝ) → ENNReal) (l : List (ℕ × RVDef Di)) (σ : ℕ → ℝ) (hord : DependencyOrder l) (hvalid : Valid kernel law ref ρ l σ) :
    refE ref l σ (fun σ => (l.map fun p => dens (kernel p.2.dist (.fin (σ p.1)) (params (asg σ) ρ p.2))).prod * φ σ) = sampleE law ρ l σ φ := by
  induction l generalizing σ with
  | nil => simp [refE, sampleE]
  | cons p l ih =>
    obtain ⟨id, r⟩ := p
    obtain ⟨h1, h2, hord'⟩ := hord
    obtain ⟨good, hval'⟩ := hvalid
    have hprob := good.prob
    simp only [refE, sampleE]
    set f : ℝ → ENNReal := fun x => dens (kernel r.dist (.fin x) (params (asg σ) ρ r)) with hf
    have hfin : ∀ᵐ x ∂(ref r.dist), f x < ⊤ := by
      refine ae_lt_top good.meas ?_
      have : (law r.dist (params (asg σ) ρ r)) Set.univ = 1 := measure_univ
      rw [good.dens, withDensity_apply _ MeasurableSet.univ, Measure.restrict_univ] at this
      rw [hf, this]; exact ENNReal.one_ne_top
    have hdens : law r.dist (params (asg σ) ρ r) = (ref r.dist).withDensity f := good.dens
    rw [hdens, lintegral_withDensity_eq_lintegral_mul_non_measurable _ good.meas hfin]
    refine lintegral_congr_ae ?_
    filter_upwards [hfin] with x hx
    have e1 : refE ref l (Function.update σ id x) (fun σ' => (((id, r) :: l).map fun p => dens (kernel p.2.dist (.fin (σ' p.1)) (params (asg σ') ρ p.2))).prod * φ σ') =
        refE ref l (Function.update σ id x) (fun σ' => f x * ((l.map fun p => dens (kernel p.2.dist (.fin (σ' p.1)) (params (asg σ') ρ p.2))).prod * φ σ')) := by
      refine refE_congr _ _ fun σ' hσ' => ?_
      have hid : σ' id = x := by
        rw [hσ' id, Function.update_self]
        intro hmem
        obtain ⟨p, hp, hpid⟩ := List.mem_map.1 hmem
        exact (h2 p hp).1 hpid
      have hpar : params (asg σ') ρ r = params (asg σ) ρ r := by
        simp only [params]
        congr 1
        funext i
        refine evalAt_congr _ fun id' hm => ?_
        have hne : id' ≠ id := by rintro rfl; exact h1 i hm
        have hnl : id' ∉ l.map Prod.fst := by
          intro hmem
          obtain ⟨p, hp, hpid⟩ := List.mem_map.1 hmem
          subst hpid
          exact (h2 p hp).2 i hm
        simp only [asg]
        rw [hσ' id' hnl, Function.update_of_ne hne]
      rw [List.map_cons, List.prod_cons, hpar, hid, mul_assoc]
    rw [e1, refE_const_mul _ _ hx.ne, Pi.mul_apply]
    show f x * _ = f x * _
    by_cases h0 : f x = 0
    · rw [h0, zero_mul, zero_mul]
    · rw [ih _ hord' (hval' x h0)]

theorem nodup_ids {l : List (ℕ × RVDef Di)} (hord : DependencyOrder l) : (l.map Prod.fst).Nodup := by
  induction l with
  | nil => simp
  | cons p l ih =>
    obtain ⟨id, r⟩ := p
    refine List.nodup_cons.2 ⟨fun hmem => ?_, ih hord.2.2⟩
    obtain ⟨p, hp, hpid⟩ := List.mem_map.1 hmem
    exact (hord.2.1 p hp).1 hpid

/-- What `joint_logprob` returns, as a product over the variables. -/
theorem joint_product (kernel : Di → FVal → List FVal → Except Err FVal)
    (ρ : ℕ → FVal) (ω : ℕ → Di → List FVal → FVal) {l : List (ℕ × RVDef Di)} (hne : l ≠ []) (hord : DependencyOrder l) (huser : ∀ p ∈ l, ∀ i, User (p.2.args i))
    {rvs clones : List ℕ} {realized : Dict ℕ ℕ} (hc : clones.length = rvs.length) (hmem : ∀ v, (v ∈ rvs ∨ v ∈ Dict.keys realized) ↔ v ∈ l.map Prod.fst)
    (hclosed : ∀ p ∈ l, ∀ i id, Mentions id (p.2.args i) → id ∈ l.map Prod.fst)
    (env : (ℕ → ℝ) → ℕ → FVal) (henv : ∀ σ v x, Dict.get? (rvValues rvs clones realized) v = some x → env σ x = .fin (σ v))
    (hfresh : ∀ σ, ∀ p ∈ l, params (asg σ) (env σ) p.2 = params (asg σ) ρ p.2) :
    ∃ j vvs, joint (Dict.get? l) rvs clones realized = .ok (some (j, vvs)) ∧
      ∀ σ, dens (evalJoint kernel (env σ) ω j) = (l.map fun p => dens (kernel p.2.dist (.fin (σ p.1)) (params (asg σ) ρ p.2))).prod := by
  have hnd := nodup_ids hord
  have hget : ∀ p ∈ l, Dict.get? l p.1 = some p.2 := fun p hp => Dict.get?_of_mem hnd hp
  have hsome : ∀ v, v ∈ rvs ∨ v ∈ Dict.keys realized → (Dict.get? l v).isSome := by
    intro v hv
    obtain ⟨p, hp, rfl⟩ := List.mem_map.1 ((hmem v).1 hv)
    rw [hget p hp]; rfl
  obtain ⟨terms, vvs, hcond⟩ := conditional_returns hc hsome
  have hcond' : conditionalLogprob (backend (Dict.get? l) (rvValues rvs clones realized)) rvs clones realized = .ok (terms, vvs) := hcond
  obtain ⟨hB, hK, hS⟩ := backend_contract (Dict.get? l) (rvValues rvs clones realized)
  obtain ⟨hkn, hkm⟩ := C02_one_term_each hB hc hcond'
  have hkp : (Dict.keys terms).Perm (l.map Prod.fst) := by
    refine (List.perm_ext_iff_of_nodup hkn hnd).2 fun v => ?_
    rw [hkm, hmem]
  have htne : terms ≠ [] := by
    rintro rfl
    have := hkp.length_eq
    simp only [Dict.keys, List.map_nil, List.length_nil, List.length_map] at this
    exact hne (List.length_eq_zero_iff.1 this.symm)
  obtain ⟨j, hj, hdens⟩ := dens_evalJoint kernel htne hcond
  refine ⟨j, vvs, hj, fun σ => ?_⟩
  rw [hdens]
  -- the product over the dictionary is a product over its keys
  have hkey : ∀ p ∈ terms, dens (p.2.eval kernel (env σ) ω) =
      (match Dict.get? l p.1 with
        | some r => dens (kernel r.dist (.fin (σ p.1)) (params (asg σ) ρ r))
        | none => 0) := by
    intro p hp
    have hpk : p.1 ∈ Dict.keys terms := List.mem_map.2 ⟨p, hp, rfl⟩
    obtain ⟨q, hq, hqe⟩ := List.mem_map.1 (hkp.subset hpk)
    have hrv : p.1 ∈ rvs ∨ p.1 ∈ Dict.keys realized := (hkm _).1 hpk
    have hdef : Dict.get? l p.1 = some q.2 := by rw [← hqe]; exact hget q hq
    obtain ⟨x, t, hx, ht, hev⟩ := C07_conditional_on_values kernel (fun v r hvr i => by
      exact huser _ (Dict.mem_of_get? hvr) i) hc hcond hrv hdef
    have hpt : t = p.2 := by
      rw [Dict.get?_of_mem hkn (show (p.1, p.2) ∈ terms from hp)] at ht
      exact (Option.some.inj ht).symm
    rw [hdef, ← hpt, hev, henv σ _ _ hx]
    congr 2
    rw [← hfresh σ q hq]
    simp only [params, paramsGiven]
    congr 1
    funext i
    refine evalGiven_eq_evalAt _ fun id hm => ?_
    have hid := (hmem id).2 (hclosed q hq i id hm)
    have hidk : id ∈ Dict.keys (rvValues rvs clones realized) := by
      rw [rvValues, Dict.mem_keys_update, Dict.mem_keys_ofList, List.map_fst_zip hc.ge]; exact hid
    obtain ⟨y, hy⟩ := Dict.get?_isSome.2 hidk
    simp only [valueOf, hy, asg, Option.map_some]
    exact congrArg some (henv σ _ _ hy)
  rw [List.map_congr_left hkey]
  have e1 : (terms.map fun p => match Dict.get? l p.1 with
        | some r => dens (kernel r.dist (.fin (σ p.1)) (params (asg σ) ρ r))
        | none => 0) = (Dict.keys terms).map fun v => match Dict.get? l v with
        | some r => dens (kernel r.dist (.fin (σ v)) (params (asg σ) ρ r))
        | none => 0 := by rw [Dict.keys, List.map_map]; rfl
  rw [e1, (hkp.map _).prod_eq, List.map_map]
  congr 1
  refine List.map_congr_left fun p hp => ?_
  simp [hget p hp]

/-- **C08** (realized) The same with realized values: `exp` of the value of `joint_logprob`, as a function of the values of all variables, given or realized, is the density of their joint law. -/
theorem C08_realized_density (kernel : Di → FVal → List FVal → Except Err FVal) (law : Di → List FVal → Measure ℝ) (ref : Di → Measure ℝ)
    (ρ : ℕ → FVal) (ω : ℕ → Di → List FVal → FVal) {l : List (ℕ × RVDef Di)} (hne : l ≠ []) (hord : DependencyOrder l) (huser : ∀ p ∈ l, ∀ i, User (p.2.args i))
    {rvs clones : List ℕ} {realized : Dict ℕ ℕ} (hc : clones.length = rvs.length) (hmem : ∀ v, (v ∈ rvs ∨ v ∈ Dict.keys realized) ↔ v ∈ l.map Prod.fst)
    (hclosed : ∀ p ∈ l, ∀ i id, Mentions id (p.2.args i) → id ∈ l.map Prod.fst)
    (env : (ℕ → ℝ) → ℕ → FVal) (henv : ∀ σ v x, Dict.get? (rvValues rvs clones realized) v = some x → env σ x = .fin (σ v))
    (hfresh : ∀ σ, ∀ p ∈ l, params (asg σ) (env σ) p.2 = params (asg σ) ρ p.2) :
    ∃ j vvs, joint (Dict.get? l) rvs clones realized = .ok (some (j, vvs)) ∧
      ∀ (σ₀ : ℕ → ℝ), Valid kernel law ref ρ l σ₀ → ∀ φ : (ℕ → ℝ) → ENNReal,
        refE ref l σ₀ (fun σ => dens (evalJoint kernel (env σ) ω j) * φ σ) = sampleE law ρ l σ₀ φ := by
  obtain ⟨j, vvs, hj, hf⟩ := joint_product kernel ρ ω hne hord huser hc hmem hclosed env henv hfresh
  refine ⟨j, vvs, hj, fun σ₀ hvalid φ => ?_⟩
  rw [← refE_eq_sampleE kernel law ref ρ φ l σ₀ hord hvalid]
  congr 1
  funext σ
  congr 1
  exact hf σ

/-- **C08** For every model given by random variables `l` in dependency order whose reachable parameters are valid, `joint_logprob` of
all its variables (in any order) returns, and `exp` of its value, as a function of the values `σ` of the variables, is the density
(with respect to the product of the reference measures) of the joint law obtained by sampling the variables in dependency order:
the two integrals agree for every function `φ` of the values.  `env σ` is any environment in which each value variable holds
its variable's value; the value variables do not occur in the model. -/
theorem C08_joint_density (kernel : Di → FVal → List FVal → Except Err FVal) (law : Di → List FVal → Measure ℝ) (ref : Di → Measure ℝ)
    (ρ : ℕ → FVal) (ω : ℕ → Di → List FVal → FVal) {l : List (ℕ × RVDef Di)} (hne : l ≠ []) (hord : DependencyOrder l) (huser : ∀ p ∈ l, ∀ i, User (p.2.args i))
    {rvs clones : List ℕ} (hc : clones.length = rvs.length) (hperm : rvs.Perm (l.map Prod.fst))
    (hclosed : ∀ p ∈ l, ∀ i id, Mentions id (p.2.args i) → id ∈ l.map Prod.fst)
    (env : (ℕ → ℝ) → ℕ → FVal) (henv : ∀ σ v x, Dict.get? (rvValues rvs clones []) v = some x → env σ x = .fin (σ v))
    (hfresh : ∀ σ, ∀ p ∈ l, params (asg σ) (env σ) p.2 = params (asg σ) ρ p.2) :
    ∃ j vvs, joint (Dict.get? l) rvs clones [] = .ok (some (j, vvs)) ∧ vvs.length = rvs.length ∧
      ∀ (σ₀ : ℕ → ℝ), Valid kernel law ref ρ l σ₀ → ∀ φ : (ℕ → ℝ) → ENNReal,
        refE ref l σ₀ (fun σ => dens (evalJoint kernel (env σ) ω j) * φ σ) = sampleE law ρ l σ₀ φ := by
  obtain ⟨j, vvs, hj, h⟩ := C08_realized_density kernel law ref ρ ω hne hord huser (realized := []) hc (fun v => by rw [hperm.mem_iff]; simp [Dict.keys]) hclosed env henv hfresh
  refine ⟨j, vvs, hj, ?_, h⟩
  have hrn : rvs.Nodup := hperm.nodup_iff.2 (nodup_ids hord)
  have hcond' : ∃ terms, conditionalLogprob (backend (Dict.get? l) (rvValues rvs clones [])) rvs clones [] = .ok (terms, vvs) := by
    simp only [joint, jointLogprob] at hj
    cases hc : conditionalLogprob (backend (Dict.get? l) (rvValues rvs clones [])) rvs clones [] with
    | error e => rw [hc] at hj; cases hj
    | ok r =>
      obtain ⟨terms, vvs'⟩ := r
      rw [hc] at hj
      match terms, hj with
      | [(v, t)], hj => cases hj; exact ⟨_, rfl⟩
      | a :: b :: l, hj => cases hj; exact ⟨_, rfl⟩
  obtain ⟨terms, hcond'⟩ := hcond'
  obtain ⟨hB, hK, hS⟩ := backend_contract (Dict.get? l) (rvValues rvs clones [])
  have hao := C03_value_order_partial hB hS hK hc hcond'
  rw [ArgOrder] at hao
  have hfo : ∀ l : List ℕ, l.Nodup → firstOcc l = l := by
    intro l
    induction l with
    | nil => intro _; rfl
    | cons a l ih =>
      intro h
      rw [List.nodup_cons] at h
      rw [firstOcc, ih h.2, List.filter_eq_self.2]
      intro b hb
      simp only [decide_not, Bool.not_eq_eq_eq_not, Bool.not_true, decide_eq_false_iff_not]
      rintro rfl
      exact h.1 hb
  rw [hao, hfo rvs hrn]
  simp [Dict.keys]

/-! The model of the README: `σ² ~ InvGamma(1/2, 1/2)`, `Y ~ N(0, sqrt σ²)`, both requested, `Y` first. -/

theorem goodAt_of_isLogDensity {kernel : FVal → List FVal → Except Err FVal} {law : List FVal → Measure ℝ} {p : List FVal}
    (h : IsLogDensity (fun x => kernel (.fin x) p) (law p)) [hp : IsProbabilityMeasure (law p)]
    (hm : Measurable fun x : ℝ => dens (kernel (.fin x) p)) : GoodAt kernel law volume p := by
  refine ⟨hp, hm, Measure.ext fun s hs => ?_⟩
  rw [withDensity_apply _ hs, h.law s hs]

namespace Readme
open ProbabilityTheory

inductive Dist | invgamma | normal

noncomputable def kernel : Dist → FVal → List FVal → Except Err FVal
  | .invgamma, x, [a, b] => invgammaLogprob x a b
  | .normal, x, [m, s] => normalLogprob x m s
  | _, _, _ => .error .notImplemented

noncomputable def law : Dist → List FVal → Measure ℝ
  | .invgamma, [.fin a, .fin b] => (gammaMeasure a b).map fun g => g⁻¹
  | .normal, [.fin m, .fin s] => gaussianReal m (s ^ 2).toNNReal
  | _, _ => 0

noncomputable def sigma2 : RVDef Dist := ⟨.invgamma, 2, ![.const (.fin (1 / 2)), .const (.fin (1 / 2))]⟩
noncomputable def Y : RVDef Dist := ⟨.normal, 2, ![.const (.fin 0), .app 1 (fun a => FVal.sqrt (a 0)) ![.rv 0 .invgamma 2 sigma2.args]]⟩
noncomputable def model : List (ℕ × RVDef Dist) := [(0, sigma2), (1, Y)]

theorem valid (ρ : ℕ → FVal) (σ : ℕ → ℝ) : Valid kernel law (fun _ => volume) ρ model σ := by
  have h2 : (0 : ℝ) < 1 / 2 := by norm_num
  have p1 : params (asg σ) ρ sigma2 = [.fin (1 / 2), .fin (1 / 2)] := by simp [params, sigma2, List.ofFn_succ, evalAt]
  refine ⟨?_, fun x hx => ⟨?_, fun _ _ => trivial⟩⟩
  · rw [p1]
    have : IsProbabilityMeasure (law sigma2.dist [.fin (1 / 2), .fin (1 / 2)]) := by
      have := isProbabilityMeasure_gammaMeasure h2 h2
      exact Measure.isProbabilityMeasure_map (by fun_prop)
    refine goodAt_of_isLogDensity (C20_invgamma h2 h2).1 ?_
    show Measurable fun x : ℝ => dens (invgammaLogprob (.fin x) (.fin (1 / 2)) (.fin (1 / 2)))
    have e : (fun x : ℝ => dens (invgammaLogprob (.fin x) (.fin (1 / 2)) (.fin (1 / 2)))) =
        (Set.Ioi (0 : ℝ)).indicator fun x => ENNReal.ofReal (gammaPDFReal (1 / 2) (1 / 2) x⁻¹ * (x ^ 2)⁻¹) := by
      funext x
      rcases le_or_gt x 0 with h | h
      · rw [invgamma_eval_nonpos h2 h2 h, Set.indicator_of_notMem (by simpa using h)]; rfl
      · have := gammaPDFReal_pos h2 h2 (inv_pos.2 h)
        rw [invgamma_eval_pos h2 h2 h, Set.indicator_of_mem (Set.mem_Ioi.2 h), dens_log (by positivity), mul_comm]
    rw [e]
    exact ((((measurable_gammaPDFReal _ _).comp measurable_inv).mul (by fun_prop)).ennreal_ofReal).indicator measurableSet_Ioi
  · have hx0 : 0 < x := by
      by_contra hle
      rw [p1] at hx
      exact hx (by show dens (invgammaLogprob _ _ _) = 0; rw [invgamma_eval_nonpos h2 h2 (not_lt.1 hle)]; rfl)
    have p2 : params (asg (Function.update σ 0 x)) ρ Y = [.fin 0, .fin (Real.sqrt x)] := by
      simp [params, Y, List.ofFn_succ, evalAt, asg, FVal.sqrt_fin hx0.le]
    rw [p2]
    have hs := Real.sqrt_pos.2 hx0
    have : IsProbabilityMeasure (law Y.dist [.fin 0, .fin (Real.sqrt x)]) :=
      inferInstanceAs (IsProbabilityMeasure (gaussianReal 0 _))
    refine goodAt_of_isLogDensity (C09_normal 0 hs).1 ?_
    show Measurable fun y : ℝ => dens (normalLogprob (.fin y) (.fin 0) (.fin (Real.sqrt x)))
    have e : (fun y : ℝ => dens (normalLogprob (.fin y) (.fin 0) (.fin (Real.sqrt x)))) = gaussianPDF 0 (Real.sqrt x ^ 2).toNNReal := by
      funext y
      rw [normal_eval y 0 hs, dens_log (gaussianPDFReal_pos _ _ _ (toNNReal_sq_ne hs))]; rfl
    rw [e]
    exact measurable_gaussianPDF _ _

/-- Value variables `10` (for `σ²`) and `11` (for `Y`). -/
def env (σ : ℕ → ℝ) (i : ℕ) : FVal := if i = 10 then .fin (σ 0) else if i = 11 then .fin (σ 1) else .nan

example : ∃ j vvs, joint (Dict.get? model) [1, 0] [11, 10] [] = .ok (some (j, vvs)) ∧ vvs.length = 2 ∧
    ∀ σ₀, Valid kernel law (fun _ => volume) (fun _ => .nan) model σ₀ → ∀ φ : (ℕ → ℝ) → ENNReal,
      refE (fun _ => volume) model σ₀ (fun σ => dens (evalJoint kernel (env σ) (fun _ _ _ => .nan) j) * φ σ) = sampleE law (fun _ => .nan) model σ₀ φ := by
  refine C08_joint_density (l := model) (rvs := [1, 0]) (clones := [11, 10]) kernel law (fun _ => volume) (fun _ => .nan) (fun _ _ _ => .nan) (by simp [model]) ?_ ?_ rfl ?_ ?_ env ?_ ?_
  · simp [DependencyOrder, model, sigma2, Y, Mentions, Fin.forall_fin_two]
  · simp [model, sigma2, Y, User, Fin.forall_fin_two]
  · exact List.Perm.swap 0 1 []
  · simp [model, sigma2, Y, Mentions, Fin.forall_fin_two]
  · intro σ v x h
    have e : rvValues [1, 0] [11, 10] [] = [(1, 11), (0, 10)] := by decide
    rw [e] at h
    simp only [Dict.get?] at h
    split_ifs at h with h1 h2
    · cases h; subst h1; rfl
    · cases h; subst h2; rfl
  · intro σ p hp
    simp only [model, List.mem_cons, List.not_mem_nil, or_false] at hp
    rcases hp with rfl | rfl <;> simp [params, sigma2, Y, List.ofFn_succ, evalAt]

/-- The hypotheses of C07 hold for it too. -/
example : ∃ terms vvs, conditional (Dict.get? model) [1, 0] [11, 10] [] = .ok (terms, vvs) :=
  conditional_returns (defs := Dict.get? model) (rvs := [1, 0]) (clones := [11, 10]) (realized := []) rfl (by simp [model, Dict.get?, Dict.keys])

theorem users : ∀ v r, Dict.get? model v = some r → ∀ i, User (r.args i) := by
  intro v r h
  have := Dict.mem_of_get? h
  simp only [model, List.mem_cons, List.not_mem_nil, or_false, Prod.mk.injEq] at this
  rcases this with ⟨rfl, rfl⟩ | ⟨rfl, rfl⟩ <;> simp [sigma2, Y, User, Fin.forall_fin_two]

example : ∃ terms vvs t, conditional (Dict.get? model) [1, 0] [11, 10] [] = .ok (terms, vvs) ∧ Dict.get? terms 1 = some t ∧
    ∀ ρ ω, t.eval kernel ρ ω = normalLogprob (ρ 11) (.fin 0) (FVal.sqrt (ρ 10)) := by
  obtain ⟨terms, vvs, h⟩ := conditional_returns (defs := Dict.get? model) (rvs := [1, 0]) (clones := [11, 10]) (realized := []) rfl
    (by simp [model, Dict.get?, Dict.keys])
  obtain ⟨x, t, hx, ht, he⟩ := C07_conditional_on_values (rvs := [1, 0]) (clones := [11, 10]) kernel users rfl h (v := 1) (r := Y) (by simp) (by simp [model, Dict.get?])
  have e : rvValues [1, 0] [11, 10] [] = [(1, 11), (0, 10)] := by decide
  rw [e] at hx he
  cases hx
  exact ⟨terms, vvs, t, h, ht, fun ρ ω => by rw [he]; simp [paramsGiven, Y, List.ofFn_succ, evalGiven, kernel]; rfl⟩

/-- Only `Y` requested: `σ²` is sampled. -/
example : ∃ terms vvs t, conditional (Dict.get? model) [1] [11] [] = .ok (terms, vvs) ∧ Dict.get? terms 1 = some t ∧
    ∀ ρ ω, t.eval kernel ρ ω = normalLogprob (ρ 11) (.fin 0) (FVal.sqrt (ω 0 .invgamma [.fin (1 / 2), .fin (1 / 2)])) := by
  obtain ⟨terms, vvs, h⟩ := conditional_returns (defs := Dict.get? model) (rvs := [1]) (clones := [11]) (realized := []) rfl
    (by simp [model, Dict.get?, Dict.keys])
  obtain ⟨x, t, hx, ht, he⟩ := C07_conditional_on_values (rvs := [1]) (clones := [11]) kernel users rfl h (v := 1) (r := Y) (by simp) (by simp [model, Dict.get?])
  have e : rvValues [1] [11] [] = [(1, 11)] := by decide
  rw [e] at hx he
  cases hx
  refine ⟨terms, vvs, t, h, ht, fun ρ ω => ?_⟩
  rw [he]
  simp [paramsGiven, Y, List.ofFn_succ, evalGiven, kernel, valueOf, Dict.get?, sigma2]

end Readme

end Verif.Graph
