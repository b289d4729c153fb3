import Verif.Spec.FullMarginal
import Verif.Props.DrawnTerm

/-! # Variables without values in models with functions, clipping, rounding and mixtures: the average of the joint probability over their draws (C133) -/

namespace Verif.Full
open Verif Cond MeasureTheory ProbabilityTheory Set

variable {Di : Type}

theorem IsTree.mono {R R' : ℕ → Prop} (hR : ∀ v, R' v → R v) {kd : Di → Kind} {hasCdf : Di → Bool} {e : Expr Di} {t : RTree Di} (h : IsTree R kd hasCdf e t) : IsTree R' kd hasCdf e t := by
  have hv : ∀ e : Expr Di, ¬ HasValue R e → ¬ HasValue R' e := fun e h h' => by
    obtain ⟨id, h1, h2⟩ := h'
    exact h ⟨id, h1, hR id h2⟩
  induction h with
  | rv id dist n args => exact .rv ..
  | elem i h1 h2 h3 h4 _ ih => exact .elem i h1 (hv _ h2) h3 h4 ih
  | clip h0 h1 h2 => exact .clip h0 (fun h => h1 (hR _ h)) h2
  | round h0 h1 h2 h3 => exact .round h0 (fun h => h1 (hR _ h)) h2 h3
  | pick hm h1 _ ih => exact .pick hm (fun i => hv _ (h1 i)) ih

/-- The rewritten and cleaned graph computes what is read off the values and the draws. -/
theorem eval_values_drawn {defs : ℕ → Option (Expr Di)} {R : ℕ → Prop} {d : Dict ℕ ℕ} (hsub : ∀ v x, Dict.get? d v = some x → R v) {env ρ τ : ℕ → FVal} {ω : ℕ → Di → List FVal → FVal}
    (henv : ∀ v x, Dict.get? d v = some x → env x = τ v)
    (hfree : ∀ v e, R v → Dict.get? d v = none → defs v = some e → ∃ (dist : Di) (n : ℕ) (args : Fin n → Expr Di) (E : ℕ → Prop), e = .rv v dist n args ∧ (∀ i, DetBy R E (args i)) ∧
      ω v dist (List.ofFn fun i => readAt R τ ρ (args i)) = τ v)
    {e : Expr Di} (hc : Closed defs e) (hinp : ∀ i, UsesInput i e → env i = ρ i) {E : ℕ → Prop} (h : DetBy R E e) :
    eval env ω (cleanup (replaceValued d e)) = readAt R τ ρ e := by
  induction e generalizing E with
  | const c => rfl
  | inp i => exact hinp i rfl
  | app id k op n args ih =>
    cases hk : Dict.get? d id with
    | some v =>
      simp only [replaceValued, hk, cleanup, eval, readAt, hsub _ _ hk, if_true]
      exact henv _ _ hk
    | none =>
      by_cases hr : R id
      · obtain ⟨dist, n', args', E', he, -⟩ := hfree id _ hr hk hc.1
        cases he
      · simp only [replaceValued, hk, cleanup, eval, readAt, hr, if_false]
        congr 2
        funext i
        rcases h with h | h
        · exact absurd h.1 hr
        · exact ih i (hc.2 i) (fun j hj => hinp j ⟨i, hj⟩) (h.2 i)
  | rv id dist n args ih =>
    cases hk : Dict.get? d id with
    | some v =>
      simp only [replaceValued, hk, cleanup, eval, readAt, hsub _ _ hk, if_true]
      exact henv _ _ hk
    | none =>
      obtain ⟨dist', n', args', E', he, hdet, hω⟩ := hfree id _ h.1 hk hc.1
      cases he
      simp only [replaceValued, hk, cleanup, eval, readAt, h.1, if_true]
      rw [← hω]
      congr 2
      funext i
      exact ih i (hc.2 i) (fun j hj => hinp j ⟨i, hj⟩) (hdet i)
  | valued r v => exact hc.elim

/-- The source of an item that is a random variable. -/
theorem Listed.random {defs : ℕ → Option (Expr Di)} (hwf : WellFormed defs) {kd : Di → Kind} {hasCdf : Di → Bool} {R : ℕ → Prop} {it : Item Di} {e : Expr Di} (he : defs it.v = some e)
    (ht : IsTree R kd hasCdf e it.tree) {s : Source Di} (hs : it.tree = .rv s) : s.id = it.v ∧ e = .rv s.id s.dist s.n s.args := by
  have hid := (hwf _ _ he).1
  rw [hs] at ht
  cases ht
  exact ⟨Option.some.inj hid, rfl⟩

variable [IR.Normals Di]

/-- Drawing the random variables that satisfy `q` is integrating their densities. -/
theorem drawE_free {reg : Registry Di} {W : World Di} {hasCdf : Di → Bool} {defs : ℕ → Option (Expr Di)} (hwf : WellFormed defs) {R : ℕ → Prop} {ρ : ℕ → FVal} (q : Item Di → Bool) (φ : (ℕ → ℝ) → ENNReal) :
    ∀ (l : List (Item Di)) (seen : List ℕ) (τ : ℕ → ℝ), Listed defs W.kd hasCdf R l seen → (seen ++ l.map (·.v)).Nodup → (∀ it ∈ l, q it = true → it.Random) → Valid reg W R ρ (l.filter q) τ →
      drawE W.law R ρ (srcs (l.filter q)) τ φ = refE W R ρ (l.filter q) τ fun τ' => ((l.filter q).map (factor reg W.kd R ρ τ')).prod * φ τ'
  | [], seen, τ, _, _, _, _ => by simp [srcs, drawE, refE]
  | it :: l, seen, τ, hl, hnd, hrand, hval => by
    obtain ⟨⟨e, he, ht⟩, hdet, hl'⟩ := hl
    have hnd' : ((seen ++ [it.v]) ++ l.map (·.v)).Nodup := by simpa using hnd
    cases hq : q it with
    | false =>
      have e1 : (it :: l).filter q = l.filter q := by rw [List.filter_cons, hq]; rfl
      rw [e1] at hval ⊢
      exact drawE_free hwf q φ l _ τ hl' hnd' (fun it' h => hrand it' (List.mem_cons_of_mem _ h)) hval
    | true =>
      have e1 : (it :: l).filter q = it :: l.filter q := by rw [List.filter_cons, hq]; rfl
      rw [e1] at hval ⊢
      obtain ⟨s, hs⟩ := hrand it (by simp) hq
      obtain ⟨hid, -⟩ := Listed.random hwf he ht hs
      obtain ⟨hok, hval'⟩ := hval
      have hsrc : srcs (it :: l.filter q) = s :: srcs (l.filter q) := by simp [srcs, hs, RTree.sources]
      have hrange : it.tree.range W (readAt R (Graph.asg τ) ρ) = W.supp s.dist (s.params (readAt R (Graph.asg τ) ρ)) := by rw [hs]; rfl
      have href : it.tree.ref W (readAt R (Graph.asg τ) ρ) = mixedRef (W.kd s.dist == .float) (rvAtoms (W.kd s.dist)) := by rw [hs]; rfl
      have hok' : SourceOk reg W s.dist (s.params (readAt R (Graph.asg τ) ρ)) := by rw [hs] at hok; exact hok
      rw [hsrc, drawE, refE, hrange, href, hid]
      rw [hrange] at hval'
      have hmemb : ∀ v ∈ seen, v ∉ (it :: l).map (·.v) := fun v hv hv' => (List.nodup_append.1 hnd).2.2 _ hv _ hv' rfl
      have hself : it.v ∉ (l.filter q).map (·.v) := fun h => by
        have := (List.nodup_append.1 hnd).2.1
        rw [List.map_cons, List.nodup_cons] at this
        exact this.1 ((List.filter_sublist.map _).subset h)
      have hrest : ∀ x ∈ W.supp s.dist (s.params (readAt R (Graph.asg τ) ρ)),
          refE W R ρ (l.filter q) (Function.update τ it.v x) (fun τ' => ((it :: l.filter q).map (factor reg W.kd R ρ τ')).prod * φ τ') =
            dens (reg.kernel s.dist (.fin x) (s.params (readAt R (Graph.asg τ) ρ))) * drawE W.law R ρ (srcs (l.filter q)) (Function.update τ it.v x) φ := by
        intro x hx
        rw [drawE_free (reg := reg) hwf q φ l _ _ hl' hnd' (fun it' h => hrand it' (List.mem_cons_of_mem _ h)) (hval' x hx), ← refE_const_mul _ _ (hok'.finite x hx)]
        refine refE_congr _ _ fun τ' hτ' => ?_
        rw [List.map_cons, List.prod_cons, mul_assoc]
        congr 1
        have hτv : τ' it.v = x := by rw [hτ' it.v hself, Function.update_self]
        rw [factor, hτv]
        have hag : ∀ v, v ∈ seen → Graph.asg τ' v = Graph.asg τ v := by
          intro v hv
          show FVal.fin (τ' v) = .fin (τ v)
          have h1 := hmemb v hv
          rw [List.map_cons, List.mem_cons, not_or] at h1
          rw [hτ' v fun h => h1.2 ((List.filter_sublist.map _).subset h), Function.update_of_ne h1.1]
        rw [RTree.lp_congr reg W.kd (hdet.imp fun a ha => readAt_congr ha hag), hs]
        rfl
      rw [setLIntegral_congr_fun hok'.good.set hrest, hok'.good.dens]
      set f : ℝ → ENNReal := fun x => dens (reg.kernel s.dist (.fin x) (s.params (readAt R (Graph.asg τ) ρ))) with hf
      rw [lintegral_withDensity_eq_lintegral_mul_non_measurable _ hok'.good.meas (Filter.Eventually.of_forall fun x => ?_), ← lintegral_indicator hok'.good.set]
      · refine lintegral_congr fun x => ?_
        by_cases hx : x ∈ W.supp s.dist (s.params (readAt R (Graph.asg τ) ρ))
        · simp only [Pi.mul_apply, indicator_of_mem hx]
        · simp only [Pi.mul_apply, indicator_of_notMem hx, zero_mul]
      · by_cases hx : x ∈ W.supp s.dist (s.params (readAt R (Graph.asg τ) ρ))
        · rw [indicator_of_mem hx]; exact lt_top_iff_ne_top.2 (hok'.finite x hx)
        · rw [indicator_of_notMem hx]; exact ENNReal.zero_lt_top

/-- What `joint_logprob` returns when some random variables have no value, as a product over the variables that have one. -/
theorem joint_factors_given (reg : Registry Di) (W : World Di) (hasCdf : Di → Bool) (hN : ∀ dist, IR.Normals.isNormal dist = true → hasCdf dist = true) (ρ : ℕ → FVal) {defs : ℕ → Option (Expr Di)} (hwf : WellFormed defs)
    {l : List (Item Di)} (hnd : (l.map (·.v)).Nodup) (hlist : Listed defs W.kd hasCdf (· ∈ l.map (·.v)) l [])
    {rvs clones : List ℕ} {realized : Dict ℕ ℕ} (hc : clones.length = rvs.length) (hin : ∀ v, v ∈ rvs ∨ v ∈ Dict.keys realized → v ∈ l.map (·.v)) (hsome : ∃ v, v ∈ rvs ∨ v ∈ Dict.keys realized)
    (hrand : ∀ it ∈ freeItems l rvs realized, it.Random) (hother : ∀ it ∈ valuedItems l rvs realized, it.tree.OtherInputs (Determined fun w => w ∈ rvs ∨ w ∈ Dict.keys realized))
    {S : ℕ → Bool} (hrun : Run W.kd (outputs defs (rvValues rvs clones realized)) S)
    (env : (ℕ → ℝ) → ℕ → FVal) (henv : ∀ τ v x, Dict.get? (rvValues rvs clones realized) v = some x → env τ x = .fin (τ v))
    (hinp : ∀ τ v e, (v ∈ rvs ∨ v ∈ Dict.keys realized) → defs v = some e → ∀ i, UsesInput i e → env τ i = ρ i) :
    ∃ j vvs, joint hasCdf S defs rvs clones realized = .ok (some (j, vvs)) ∧ ∀ τ ω, DrawnAs (· ∈ l.map (·.v)) ρ (srcs (freeItems l rvs realized)) τ ω →
      dens (evalJoint reg W.kd (env τ) ω j) = ((valuedItems l rvs realized).map (factor reg W.kd (· ∈ l.map (·.v)) ρ τ)).prod := by
  set d := rvValues rvs clones realized with hd
  have hkey : ∀ v, v ∈ Dict.keys d ↔ (v ∈ rvs ∨ v ∈ Dict.keys realized) := by
    intro v
    rw [hd, rvValues, Dict.mem_keys_update, Dict.mem_keys_ofList, List.map_fst_zip hc.ge]
  have hitem : ∀ v, (v ∈ rvs ∨ v ∈ Dict.keys realized) → ∃ it ∈ valuedItems l rvs realized, it.v = v := fun v hv => by
    obtain ⟨it, hit, rfl⟩ := List.mem_map.1 (hin v hv)
    exact ⟨it, List.mem_filter.2 ⟨hit, by simpa using hv⟩, rfl⟩
  have hvalued : ∀ it ∈ valuedItems l rvs realized, it ∈ l ∧ (it.v ∈ rvs ∨ it.v ∈ Dict.keys realized) := fun it hit => ⟨List.mem_of_mem_filter hit, by simpa using (List.mem_filter.1 hit).2⟩
  have hnd' : ((valuedItems l rvs realized).map (·.v)).Nodup := hnd.sublist (List.filter_sublist.map _)
  obtain ⟨terms, vvs, hcond⟩ := (C99_outcome hN hwf hc (hasCdf := hasCdf) (realized := realized) (by
      intro v hv
      obtain ⟨it, hit, rfl⟩ := hitem v hv
      obtain ⟨E, ⟨e, he, -⟩, -⟩ := hlist.item (hvalued it hit).1
      rw [he]; rfl) hrun).1.2 (by
      intro v e hv he
      obtain ⟨it, hit, rfl⟩ := hitem v hv
      obtain ⟨E, ⟨e', he', ht⟩, hdt⟩ := hlist.item (hvalued it hit).1
      rw [he] at he'
      cases he'
      obtain ⟨a, b⟩ := (ht.mono hin).derived (hother it hit)
      exact ⟨⟨_, a⟩, b⟩)
  have hcond' : conditionalLogprob (backend hasCdf S defs d) rvs clones realized = .ok (terms, vvs) := hcond
  obtain ⟨hB, hK, hS⟩ := backend_contract hasCdf S defs d
  obtain ⟨hkn, hkm⟩ := C02_one_term_each hB hc hcond'
  have hkp : (Dict.keys terms).Perm ((valuedItems l rvs realized).map (·.v)) := by
    refine (List.perm_ext_iff_of_nodup hkn hnd').2 fun v => ?_
    rw [hkm]
    refine ⟨fun h => ?_, fun h => ?_⟩
    · obtain ⟨it, hit, rfl⟩ := hitem v h
      exact List.mem_map.2 ⟨it, hit, rfl⟩
    · obtain ⟨it, hit, rfl⟩ := List.mem_map.1 h
      exact (hvalued it hit).2
  have htne : terms ≠ [] := by
    rintro rfl
    obtain ⟨v, hv⟩ := hsome
    have : v ∈ Dict.keys ([] : Dict ℕ (Term Di)) := (hkm v).2 hv
    simp [Dict.keys] at this
  obtain ⟨j, hj, hdens⟩ := dens_evalJoint reg W.kd htne hcond
  refine ⟨j, vvs, hj, fun τ ω hω => ?_⟩
  rw [hdens]
  have hterm : ∀ it ∈ valuedItems l rvs realized, ∃ t, Dict.get? terms it.v = some t ∧ dens (t.eval reg W.kd (env τ) ω) = factor reg W.kd (· ∈ l.map (·.v)) ρ τ it := by
    intro it hit
    obtain ⟨hitl, hv⟩ := hvalued it hit
    obtain ⟨E, ⟨e, he, ht⟩, hdt⟩ := hlist.item hitl
    obtain ⟨x, hx⟩ := Dict.get?_isSome.2 ((hkey _).2 hv)
    have hcl : Closed defs e := (hwf _ _ he).2
    obtain ⟨t, h1, h2⟩ := tree_term hwf hc hrun hcond hx he (ht.mono hin) (hother it hit)
    refine ⟨t, h1, ?_⟩
    rw [factor, h2, henv τ _ _ hx]
    congr 1
    refine RTree.lp_congr reg W.kd ?_ _
    have hu := ht.inputs (P := fun a => Closed defs a ∧ ∀ i, UsesInput i a → UsesInput i e) ⟨hcl, fun _ h => h⟩ (fun _ _ _ _ _ h j => ⟨h.1.2 j, fun i hi => h.2 i ⟨j, hi⟩⟩)
      (fun _ _ _ _ h j => ⟨h.1.2 j, fun i hi => h.2 i ⟨j, hi⟩⟩)
    refine hdt.imp₂ hu fun a ha ⟨hca, hia⟩ => eval_values_drawn (defs := defs) (fun v x hvx => ?_) (fun v x hvx => henv τ v x hvx) (fun v e' hr hnone he' => ?_) hca (fun i hi => hinp τ _ _ hv he i (hia i hi)) ha
    · exact hin v ((hkey v).1 (Dict.get?_isSome.1 ⟨x, hvx⟩))
    · obtain ⟨it', hit', rfl⟩ := List.mem_map.1 hr
      have hnv : ¬ (it'.v ∈ rvs ∨ it'.v ∈ Dict.keys realized) := fun h => (Dict.get?_eq_none.1 hnone) ((hkey _).2 h)
      have hf : it' ∈ freeItems l rvs realized := List.mem_filter.2 ⟨hit', by simpa using hnv⟩
      obtain ⟨s, hs⟩ := hrand it' hf
      obtain ⟨E', ⟨e'', he'', ht'⟩, hdt'⟩ := hlist.item hit'
      rw [he'] at he''
      cases he''
      obtain ⟨hid, rfl⟩ := Listed.random hwf he' ht' hs
      refine ⟨s.dist, s.n, s.args, E', by rw [hid], fun i => ?_, ?_⟩
      · rw [hs] at hdt'
        exact hdt' i
      · have := hω s (List.mem_flatMap.2 ⟨it', hf, by rw [hs]; exact List.mem_singleton_self _⟩)
        rw [hid] at this
        exact this
  have hall : (terms.map fun p => dens (p.2.eval reg W.kd (env τ) ω)) = (Dict.keys terms).map fun v => match Dict.get? terms v with
      | some t => dens (t.eval reg W.kd (env τ) ω)
      | none => 0 := by
    rw [Dict.keys, List.map_map]
    refine List.map_congr_left fun p hp => ?_
    simp only [Function.comp_apply, Dict.get?_of_mem hkn (show (p.1, p.2) ∈ terms from hp)]
  rw [hall, (hkp.map _).prod_eq, List.map_map]
  congr 1
  refine List.map_congr_left fun it hit => ?_
  obtain ⟨t, h1, h2⟩ := hterm it hit
  simp only [Function.comp_apply, h1, h2]

/-- **C133** (functions) The same for models with elementwise functions, clipping, rounding and mixtures.  `l` lists the variables of the model.  Some are requested or realized; the others are random variables without value, which may be
parameters, clipping bounds and mixture indices of the former, but no other inputs of their functions (for which there is no density).  The joint log-probability contains draws of the variables without value.  Averaged over these
draws, given the values of the others, its exponential is what is left of the exponential of the joint log-probability of all variables when the values of the variables without value are integrated out. -/
theorem C133_functions_average (reg : Registry Di) (W : World Di) (hasCdf : Di → Bool) (hN : ∀ dist, IR.Normals.isNormal dist = true → hasCdf dist = true) (ρ : ℕ → FVal) {defs : ℕ → Option (Expr Di)} (hwf : WellFormed defs)
    {l : List (Item Di)} (hnd : (l.map (·.v)).Nodup) (hlist : Listed defs W.kd hasCdf (· ∈ l.map (·.v)) l [])
    {rvs clones rvs' clones' : List ℕ} {realized : Dict ℕ ℕ} (hc : clones.length = rvs.length) (hc' : clones'.length = rvs'.length)
    (hin : ∀ v, v ∈ rvs ∨ v ∈ Dict.keys realized → v ∈ l.map (·.v)) (hsome : ∃ v, v ∈ rvs ∨ v ∈ Dict.keys realized) (hall : ∀ v, v ∈ rvs' ↔ v ∈ l.map (·.v))
    (hrand : ∀ it ∈ freeItems l rvs realized, it.Random) (hother : ∀ it ∈ valuedItems l rvs realized, it.tree.OtherInputs (Determined fun w => w ∈ rvs ∨ w ∈ Dict.keys realized))
    {S S' : ℕ → Bool} (hrun : Run W.kd (outputs defs (rvValues rvs clones realized)) S) (hrun' : Run W.kd (outputs defs (rvValues rvs' clones' [])) S')
    (env env' : (ℕ → ℝ) → ℕ → FVal) (henv : ∀ τ v x, Dict.get? (rvValues rvs clones realized) v = some x → env τ x = .fin (τ v))
    (henv' : ∀ τ v x, Dict.get? (rvValues rvs' clones' []) v = some x → env' τ x = .fin (τ v))
    (hinp : ∀ τ v e, (v ∈ rvs ∨ v ∈ Dict.keys realized) → defs v = some e → ∀ i, UsesInput i e → env τ i = ρ i)
    (hinp' : ∀ τ v e, v ∈ rvs' → defs v = some e → ∀ i, UsesInput i e → env' τ i = ρ i) :
    ∃ j vvs j' vvs', joint hasCdf S defs rvs clones realized = .ok (some (j, vvs)) ∧ joint hasCdf S' defs rvs' clones' [] = .ok (some (j', vvs')) ∧
      ∀ ω ω' : (ℕ → ℝ) → ℕ → Di → List FVal → FVal, (∀ τ, DrawnAs (· ∈ l.map (·.v)) ρ ((freeItems l rvs realized).flatMap (·.tree.sources)) τ (ω τ)) →
        ∀ τ, Valid reg W (· ∈ l.map (·.v)) ρ (freeItems l rvs realized) τ →
          drawE W.law (· ∈ l.map (·.v)) ρ ((freeItems l rvs realized).flatMap (·.tree.sources)) τ (fun τ' => dens (evalJoint reg W.kd (env τ') (ω τ') j)) =
            refE W (· ∈ l.map (·.v)) ρ (freeItems l rvs realized) τ (fun τ' => dens (evalJoint reg W.kd (env' τ') (ω' τ') j')) := by
  obtain ⟨j, vvs, hj, hf⟩ := joint_factors_given reg W hasCdf hN ρ hwf hnd hlist hc hin hsome hrand hother hrun env henv hinp
  obtain ⟨v, hv⟩ := hsome
  have hf0 : freeItems l rvs' [] = [] := by
    rw [freeItems, List.filter_eq_nil_iff]
    intro it hit
    have : it.v ∈ rvs' := (hall _).2 (List.mem_map.2 ⟨it, hit, rfl⟩)
    simp [this]
  have hv0 : valuedItems l rvs' [] = l := by
    rw [valuedItems, List.filter_eq_self]
    intro it hit
    have : it.v ∈ rvs' := (hall _).2 (List.mem_map.2 ⟨it, hit, rfl⟩)
    simp [this]
  have hR : (fun w => w ∈ rvs' ∨ w ∈ Dict.keys ([] : Dict ℕ ℕ)) = (· ∈ l.map (·.v)) := by
    funext w
    simp [Dict.keys, hall]
  obtain ⟨j', vvs', hj', hf'⟩ := joint_factors_given reg W hasCdf hN ρ hwf hnd hlist hc' (realized := []) (fun w hw => by simpa [hR, Dict.keys] using (congrFun hR w).mp hw)
    ⟨v, .inl ((hall v).2 (hin v hv))⟩ (by simp [hf0]) (fun it hit => by
      rw [hR]
      rw [hv0] at hit
      obtain ⟨E, -, hdt⟩ := hlist.item hit
      exact (hdt.imp fun _ h => h.determined).others) hrun' env' henv' (fun τ w e hw => hinp' τ w e (hw.resolve_right (by simp [Dict.keys])))
  refine ⟨j, vvs, j', vvs', hj, hj', fun ω ω' hω τ hval => ?_⟩
  have := drawE_free (reg := reg) (W := W) (hasCdf := hasCdf) hwf (R := (· ∈ l.map (·.v))) (ρ := ρ) (fun it => !decide (it.v ∈ rvs ∨ it.v ∈ Dict.keys realized))
    (fun τ' => ((valuedItems l rvs realized).map (factor reg W.kd (· ∈ l.map (·.v)) ρ τ')).prod) l [] τ hlist (by simpa using hnd)
    (fun it hit hq => hrand it (List.mem_filter.2 ⟨hit, hq⟩)) hval
  have e1 : (fun τ' => dens (evalJoint reg W.kd (env τ') (ω τ') j)) = fun τ' => ((valuedItems l rvs realized).map (factor reg W.kd (· ∈ l.map (·.v)) ρ τ')).prod := funext fun τ' => hf τ' _ (hω τ')
  rw [e1]
  refine Eq.trans this ?_
  refine refE_congr _ _ fun τ' _ => ?_
  rw [hf' τ' (ω' τ') (by rw [hf0]; intro s hs; simp [srcs] at hs), hv0]
  have hperm : (freeItems l rvs realized ++ valuedItems l rvs realized).Perm l := by
    have := List.filter_append_perm (fun it : Item Di => !decide (it.v ∈ rvs ∨ it.v ∈ Dict.keys realized)) l
    simpa [freeItems, valuedItems] using this
  rw [← (hperm.map _).prod_eq, List.map_append, List.prod_append]
  rfl

/-! ## Example: `M ~ N(0, 1)` without value, `Y ~ N(M, 1)`, and `C = clip(Y, -1, M)` -/

namespace DemoMarginal
open DemoJoint (reg world normal_ok)

noncomputable def M : Expr Bool := .rv 0 true 2 ![.const (.fin 0), .const (.fin 1)]
noncomputable def Y : Expr Bool := .rv 1 true 2 ![M, .const (.fin 1)]
noncomputable def C : Expr Bool := .app 2 .float .clip 3 ![Y, .const (.fin (-1)), M]

noncomputable def defs : ℕ → Option (Expr Bool) := Dict.get? [(0, M), (1, Y), (2, C)]

noncomputable def sM : Source Bool := ⟨0, true, 2, ![.const (.fin 0), .const (.fin 1)]⟩
noncomputable def tC : RTree Bool := .clip (some (.const (.fin (-1)))) (some M) ⟨1, true, 2, ![M, .const (.fin 1)]⟩

noncomputable def items : List (Item Bool) := [⟨0, .rv sM⟩, ⟨2, tC⟩]

theorem wf : WellFormed defs := by
  have hM : Closed defs M := ⟨rfl, by simp [Fin.forall_fin_two, Closed]⟩
  have hY : Closed defs Y := ⟨rfl, fun i => by fin_cases i; exacts [hM, trivial]⟩
  have hC : Closed defs C := ⟨rfl, fun i => by fin_cases i; exacts [hY, trivial, hM]⟩
  intro v e h
  have := Dict.mem_of_get? h
  simp only [List.mem_cons, Prod.mk.injEq, List.not_mem_nil, or_false] at this
  rcases this with ⟨rfl, rfl⟩ | ⟨rfl, rfl⟩ | ⟨rfl, rfl⟩
  exacts [⟨rfl, hM⟩, ⟨rfl, hY⟩, ⟨rfl, hC⟩]

theorem listed : Listed defs world.kd (fun _ => true) (· ∈ items.map (·.v)) items [] := by
  have hM : DetBy (· ∈ items.map (·.v)) (· ∈ [0]) M := ⟨by simp [items], by simp⟩
  refine ⟨⟨M, rfl, .rv ..⟩, fun i => ?_, ⟨C, rfl, ?_⟩, ?_, trivial⟩
  · fin_cases i <;> trivial
  · have := IsTree.clip (R := (· ∈ items.map (·.v))) (kd := world.kd) (hasCdf := fun _ => true) (id := 2) (k := .float) (args := ![Y, .const (.fin (-1)), M]) (id' := 1) (dist := true) rfl (by simp [items]) rfl
    have h1 : boundOf 1 (.const (.fin (-1)) : Expr Bool) = some (.const (.fin (-1))) := if_neg (by simp [nodeId])
    have h2 : boundOf 1 M = some M := if_neg (by simp [nodeId, M])
    simp only [Matrix.cons_val_one, Matrix.cons_val_zero, Matrix.cons_val, h1, h2] at this
    exact this
  · refine ⟨fun e he => ?_, fun e he => ?_, fun i => ?_⟩
    · cases he; trivial
    · cases he; exact hM
    · fin_cases i
      · exact hM
      · trivial

/-- Value variable `12` for `C`, and `10` for `M`. -/
def env (τ : ℕ → ℝ) (i : ℕ) : FVal := if i = 12 then .fin (τ 2) else if i = 10 then .fin (τ 0) else .nan

/-- A sampler that draws the value of `M`, but only from `N(0, 1)`. -/
noncomputable def draw (τ : ℕ → ℝ) (id : ℕ) (_ : Bool) (p : List FVal) : FVal := open Classical in if id = 0 ∧ p = [.fin 0, .fin 1] then .fin (τ 0) else .nan

theorem free : freeItems items [2] [] = [⟨0, .rv sM⟩] := by simp [freeItems, items, Dict.keys]

theorem params (val : Expr Bool → FVal) (h : ∀ x, val (.const x) = x) : sM.params val = [.fin 0, .fin 1] := by simp [Source.params, sM, h]

theorem no_inputs {v i : ℕ} {e : Expr Bool} (he : defs v = some e) : ¬ UsesInput i e := by
  have hM : ¬ UsesInput i M := by simp [M, UsesInput, Fin.exists_fin_two]
  have hY : ¬ UsesInput i Y := by simp [Y, UsesInput, Fin.exists_fin_two, hM]
  have hC : ¬ UsesInput i C := by simp [C, UsesInput, Fin.exists_fin_succ, hM, hY]
  have := Dict.mem_of_get? he
  simp only [List.mem_cons, Prod.mk.injEq, List.not_mem_nil, or_false] at this
  rcases this with ⟨rfl, rfl⟩ | ⟨rfl, rfl⟩ | ⟨rfl, rfl⟩
  exacts [hM, hY, hC]

example : ∃ S S' j vvs j' vvs', Run world.kd (outputs defs (rvValues [2] [12] [])) S ∧ Run world.kd (outputs defs (rvValues [0, 2] [10, 12] [])) S' ∧
    joint (fun _ => true) S defs [2] [12] [] = .ok (some (j, vvs)) ∧ joint (fun _ => true) S' defs [0, 2] [10, 12] [] = .ok (some (j', vvs')) ∧
    ∀ τ : ℕ → ℝ, ∫⁻ m, dens (evalJoint reg world.kd (env (Function.update τ 0 m)) (draw (Function.update τ 0 m)) j) ∂(gaussianReal 0 (1 ^ 2 : ℝ).toNNReal) =
      ∫⁻ m, dens (evalJoint reg world.kd (env (Function.update τ 0 m)) (fun _ _ _ => .nan) j') := by
  obtain ⟨S, hrun⟩ := exists_run world.kd (outputs defs (rvValues [2] [12] []))
  obtain ⟨S', hrun'⟩ := exists_run world.kd (outputs defs (rvValues [0, 2] [10, 12] []))
  obtain ⟨j, vvs, j', vvs', hj, hj', h⟩ := C133_functions_average reg world (fun _ => true) (fun _ _ => rfl) (fun _ => .nan) wf (l := items) (by simp [items]) listed (rvs := [2]) (clones := [12])
    (rvs' := [0, 2]) (clones' := [10, 12]) (realized := []) rfl rfl (by simp [items, Dict.keys]) ⟨2, by simp⟩ (by simp [items]) (by rw [free]; simp [Item.Random])
    (by simp [valuedItems, items, Dict.keys, tC, RTree.OtherInputs]) hrun hrun' env env (by
      intro τ v x h
      have e : rvValues [2] [12] [] = [(2, 12)] := by decide
      rw [e] at h
      simp only [Dict.get?] at h
      split_ifs at h with h1
      cases h; subst h1; rfl) (by
      intro τ v x h
      have e : rvValues [0, 2] [10, 12] [] = [(0, 10), (2, 12)] := by decide
      rw [e] at h
      simp only [Dict.get?] at h
      split_ifs at h with h1 h2
      · cases h; subst h1; rfl
      · cases h; subst h2; rfl) (fun _ _ _ _ he i hi => absurd hi (no_inputs he)) (fun _ _ _ _ he i hi => absurd hi (no_inputs he))
  refine ⟨S, S', j, vvs, j', vvs', hrun, hrun', hj, hj', fun τ => ?_⟩
  have := h draw (fun _ _ _ _ => .nan) (fun τ s hs => by
    rw [free] at hs
    have hs' : s = sM := by simpa [RTree.sources] using hs
    subst hs'
    rw [params _ fun _ => rfl]
    exact if_pos ⟨rfl, rfl⟩) τ (by
    rw [free]
    refine ⟨?_, fun _ _ => trivial⟩
    show SourceOk reg world true (sM.params _)
    rw [params _ fun _ => rfl]
    exact normal_ok 0)
  rw [free] at this
  simp only [List.flatMap_cons, List.flatMap_nil, RTree.sources, List.append_nil, drawE, refE, params (readAt (· ∈ items.map (·.v)) (Graph.asg τ) fun _ => .nan) fun _ => rfl] at this
  have href : RTree.ref world (readAt (· ∈ items.map (·.v)) (Graph.asg τ) fun _ => .nan) (.rv sM) = volume := DemoJoint.refReal
  have hran : RTree.range world (readAt (· ∈ items.map (·.v)) (Graph.asg τ) fun _ => .nan) (.rv sM) = univ := rfl
  rw [href, hran, Measure.restrict_univ] at this
  exact this

end DemoMarginal

end Verif.Full
