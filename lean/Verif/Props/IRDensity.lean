import Verif.Lemmas.Tower
import Verif.Props.IR

/-! # C94: joint density of models with derived variables -/

namespace Verif.IR
open Verif Cond MeasureTheory Set

variable {Di : Type}

/-! ## Layers -/

/-- Value of an input when the measurable one is `x`. -/
def argVal (x : ℝ) : Arg → FVal
  | .meas => .fin x
  | .other v => v

theorem oneOf_ofFn {P : ℝ → Prop} {n : ℕ} (idx : Fin n) (a : Fin n → ℝ) (h : ∀ j, j ≠ idx → P (a j)) :
    OneOf P (List.ofFn fun i => if i = idx then Arg.meas else .other (.fin (a i))) := by
  induction n with
  | zero => exact idx.elim0
  | succ n ih =>
    rw [List.ofFn_succ]
    cases idx using Fin.cases with
    | zero =>
      have e : (List.ofFn fun i : Fin n => if i.succ = 0 then Arg.meas else .other (.fin (a i.succ))) = (List.ofFn fun i => a i.succ).map fun a => .other (.fin a) := by
        rw [List.map_ofFn]
        congr 1
      rw [if_pos rfl, e]
      refine .here fun b hb => ?_
      obtain ⟨i, rfl⟩ := (List.mem_ofFn' _ _).1 hb
      exact h _ (Fin.succ_ne_zero i)
    | succ k =>
      rw [if_neg (Fin.succ_ne_zero k).symm]
      have e : (List.ofFn fun i : Fin n => if i.succ = k.succ then Arg.meas else .other (.fin (a i.succ))) = List.ofFn fun i => if i = k then Arg.meas else .other (.fin (a i.succ)) := by
        congr 1
        funext i
        simp only [Fin.succ_inj]
      rw [e]
      exact .there (h 0 (Fin.succ_ne_zero k).symm) (ih k (fun i => a i.succ) fun j hj => h j.succ fun hh => hj (Fin.succ_inj.1 hh))

theorem foldr_args (x : ℝ) (as : List Arg) (h : ∀ a ∈ as, a = .meas ∨ ∃ r : ℝ, a = .other (.fin r)) :
    (as.map (argVal x)).foldr (· + ·) 0 = .fin ((as.map (Arg.real x)).sum) ∧ (as.map (argVal x)).foldr (· * ·) 1 = .fin ((as.map (Arg.real x)).prod) := by
  induction as with
  | nil => exact ⟨rfl, rfl⟩
  | cons a as ih =>
    obtain ⟨h1, h2⟩ := ih fun b hb => h b (by simp [hb])
    simp only [List.map_cons, List.foldr_cons, h1, h2, List.sum_cons, List.prod_cons]
    rcases h a (by simp) with rfl | ⟨r, rfl⟩ <;> simp [argVal, Arg.real]

theorem Layer.out_eq (ev : Expr Di → FVal) (l : Layer Di) (x : ℝ) : l.out ev x = l.op.eval ((l.inputs ev).map (argVal x)) := by
  rw [Layer.out, Layer.inputs, List.map_ofFn]
  congr 2
  funext j
  simp only [Function.comp_apply]
  split_ifs <;> rfl

/-- A supported function that is invertible has a rewrite to a node that computes it. -/
theorem Layer.node_ok {ev : Expr Di → FVal} {l : Layer Di} {D : Set ℝ} (hs : Supported l.op l.n) (hok : l.OkOn ev D) :
    ∃ nd, l.node ev = some nd ∧ nd.Ok D ∧ ∀ x ∈ D, l.out ev x = .fin (nd.fn x) := by
  obtain ⟨op, n, idx, args⟩ := l
  have hfin : ∀ (P : ℝ → Prop), (∀ j, j ≠ idx → ∃ a : ℝ, P a ∧ ev (args j) = .fin a) →
      OneOf P (Layer.inputs ev ⟨op, n, idx, args⟩) ∧ (Layer.inputs ev ⟨op, n, idx, args⟩).length = n ∧
        ∀ a ∈ Layer.inputs ev ⟨op, n, idx, args⟩, a = .meas ∨ ∃ r : ℝ, a = .other (.fin r) := by
    intro P h
    have e : Layer.inputs ev ⟨op, n, idx, args⟩ = List.ofFn fun i => if i = idx then Arg.meas else .other (.fin (realOf (.ok (ev (args i))))) := by
      rw [Layer.inputs]
      congr 1
      funext i
      by_cases hi : i = idx
      · simp [hi]
      · obtain ⟨a, -, ha⟩ := h i hi
        simp [hi, ha, realOf]
    rw [e]
    refine ⟨oneOf_ofFn idx _ fun j hj => ?_, by simp, fun a ha => ?_⟩
    · obtain ⟨a, h1, h2⟩ := h j hj
      rw [h2]
      exact h1
    · obtain ⟨i, rfl⟩ := (List.mem_ofFn' _ _).1 ha
      by_cases hi : i = idx
      · simp [hi]
      · simp [hi]
  simp only [Layer.out_eq]
  cases hs with
  | add h2 =>
    obtain ⟨h3, h4, h5⟩ := hfin (fun _ => True) fun j hj => by
      obtain ⟨a, ha⟩ := hok j hj
      exact ⟨a, trivial, ha⟩
    exact ⟨_, rfl, .add h3 (by rw [h4]; exact h2), fun x _ => (foldr_args x _ h5).1⟩
  | mul h2 =>
    obtain ⟨h3, h4, h5⟩ := hfin (fun a => a ≠ 0) hok
    exact ⟨_, rfl, .mul h3 (by rw [h4]; exact h2), fun x _ => (foldr_args x _ h5).2⟩
  | sub =>
    match idx, hok with
    | 0, hok =>
      obtain ⟨a, ha⟩ := hok 1 (by show (1 : Fin 2) ≠ 0; decide)
      have e : Layer.inputs ev ⟨.sub, 2, 0, args⟩ = [.meas, .other (.fin a)] := by simp [Layer.inputs, List.ofFn_succ, ha]
      exact ⟨.sub .meas (.other (.fin a)), by simp only [Layer.node, e], .sub a D, fun x _ => by simp [e, argVal, Op.eval, ElemNode.fn, Arg.real]⟩
    | 1, hok =>
      obtain ⟨a, ha⟩ := hok 0 (by show (0 : Fin 2) ≠ 1; decide)
      have e : Layer.inputs ev ⟨.sub, 2, 1, args⟩ = [.other (.fin a), .meas] := by simp [Layer.inputs, List.ofFn_succ, ha]
      exact ⟨.sub (.other (.fin a)) .meas, by simp only [Layer.node, e], .rsub a D, fun x _ => by simp [e, argVal, Op.eval, ElemNode.fn, Arg.real]⟩
  | div =>
    match idx, hok with
    | 0, hok =>
      obtain ⟨a, ha0, ha⟩ := hok.1 1 (by show (1 : Fin 2) ≠ 0; decide)
      have e : Layer.inputs ev ⟨.div, 2, 0, args⟩ = [.meas, .other (.fin a)] := by simp [Layer.inputs, List.ofFn_succ, ha]
      exact ⟨.div .meas (.other (.fin a)), by simp only [Layer.node, e], .div ha0, fun x _ => by simp [e, argVal, Op.eval, ElemNode.fn, Arg.real, FVal.div_fin _ ha0]⟩
    | 1, hok =>
      obtain ⟨a, ha0, ha⟩ := hok.1 0 (by show (0 : Fin 2) ≠ 1; decide)
      have e : Layer.inputs ev ⟨.div, 2, 1, args⟩ = [.other (.fin a), .meas] := by simp [Layer.inputs, List.ofFn_succ, ha]
      exact ⟨.div (.other (.fin a)) .meas, by simp only [Layer.node, e], .rdiv ha0 (hok.2 rfl), fun x hx => by
        simp [e, argVal, Op.eval, ElemNode.fn, Arg.real, FVal.div_fin _ (ne_of_gt (hok.2 rfl hx))]⟩
  | exp =>
    have e : Layer.inputs ev ⟨.exp, 1, idx, args⟩ = [.meas] := by simp [Layer.inputs, Subsingleton.elim idx 0]
    exact ⟨.exp .meas, by simp only [Layer.node, e], .exp D, fun x _ => by simp [e, argVal, Op.eval, ElemNode.fn, Arg.real]⟩
  | log =>
    have e : Layer.inputs ev ⟨.log, 1, idx, args⟩ = [.meas] := by simp [Layer.inputs, Subsingleton.elim idx 0]
    exact ⟨.log .meas, by simp only [Layer.node, e], .log hok, fun x hx => by simp [e, argVal, Op.eval, ElemNode.fn, Arg.real, FVal.log_fin_pos (hok hx)]⟩
  | reciprocal =>
    have e : Layer.inputs ev ⟨.reciprocal, 1, idx, args⟩ = [.meas] := by simp [Layer.inputs, Subsingleton.elim idx 0]
    exact ⟨.reciprocal .meas, by simp only [Layer.node, e], .reciprocal hok, fun x hx => by
      simp [e, argVal, Op.eval, ElemNode.fn, Arg.real, FVal.reciprocal_fin (ne_of_gt (hok hx))]⟩

/-- The same for towers. -/
theorem nodes_ok {ev : Expr Di → FVal} {ls : List (Layer Di)} {D : Set ℝ} (hs : ∀ l ∈ ls, Supported l.op l.n) (hok : TowerOkOn ev ls D) :
    ∃ ns, nodes ev ls = some ns ∧ TowerOk ns D ∧ ∀ x ∈ D, towerMap ev ls x = towerFn ns x := by
  induction ls generalizing D with
  | nil => exact ⟨[], rfl, trivial, fun x _ => rfl⟩
  | cons l ls ih =>
    obtain ⟨nd, h1, h2, h3⟩ := Layer.node_ok (hs l (by simp)) hok.1
    have hfn : ∀ x ∈ D, l.fn ev x = nd.fn x := fun x hx => by rw [Layer.fn, h3 x hx]; rfl
    have himg : l.fn ev '' D = nd.fn '' D := image_congr hfn
    obtain ⟨ns, h4, h5, h6⟩ := ih (fun l hl => hs l (by simp [hl])) hok.2
    rw [himg] at h5 h6
    refine ⟨nd :: ns, ?_, ⟨h2, h5⟩, fun x hx => ?_⟩
    · have h4' : List.mapM (Layer.node ev) ls = some ns := h4
      simp only [nodes, List.mapM_cons, h1, h4', bind, Option.bind, pure]
    · simp only [towerMap, towerFn, hfn x hx]
      exact h6 _ ⟨x, hx, rfl⟩

/-! ## The term of an item -/

/-- The log-probability of a tower when the other inputs are read off by `ev`. -/
noncomputable def termAt (kernel : Di → FVal → List FVal → Except Err FVal) (ev : Expr Di → FVal) (it : Item Di) (y : FVal) : Except Err FVal :=
  match nodes ev it.layers with
  | none => .error .notImplemented
  | some ns =>
    match derivedLogprob ns fun v => kernel it.source.dist v (List.ofFn fun i => ev (it.source.args i)) with
    | none => .error .notImplemented
    | some lp => lp y

theorem Layer.node_congr {ev ev' : Expr Di → FVal} (l : Layer Di) (h : ∀ j, j ≠ l.idx → ev (l.args j) = ev' (l.args j)) : l.node ev = l.node ev' := by
  have : l.inputs ev = l.inputs ev' := by
    rw [Layer.inputs, Layer.inputs]
    congr 1
    funext i
    by_cases hi : i = l.idx
    · simp [hi]
    · simp [hi, h i hi]
  rw [Layer.node, Layer.node, this]

theorem nodes_congr {ev ev' : Expr Di → FVal} (ls : List (Layer Di)) (h : ∀ l ∈ ls, ∀ j, j ≠ l.idx → ev (l.args j) = ev' (l.args j)) : nodes ev ls = nodes ev' ls := by
  induction ls with
  | nil => rfl
  | cons l ls ih =>
    have h1 : List.mapM (Layer.node ev) ls = List.mapM (Layer.node ev') ls := ih fun l hl => h l (by simp [hl])
    simp only [nodes, List.mapM_cons, Layer.node_congr l (h l (by simp)), h1]

theorem termAt_congr (kernel : Di → FVal → List FVal → Except Err FVal) {ev ev' : Expr Di → FVal} (it : Item Di) (h1 : ∀ l ∈ it.layers, ∀ j, j ≠ l.idx → ev (l.args j) = ev' (l.args j))
    (h2 : ∀ i, ev (it.source.args i) = ev' (it.source.args i)) (y : FVal) : termAt kernel ev it y = termAt kernel ev' it y := by
  simp only [termAt, nodes_congr it.layers h1, h2]

/-- One variable: integrals over its draws are integrals over its values against the derived density. -/
theorem item_step {kernel : Di → FVal → List FVal → Except Err FVal} {law : Di → List FVal → Measure ℝ} {ref : Di → Measure ℝ} {supp : Di → List FVal → Set ℝ} {ev : Expr Di → FVal}
    {it : Item Di} (hs : ∀ l ∈ it.layers, Supported l.op l.n) (hvol : it.layers ≠ [] → ref it.source.dist = volume)
    (hgood : GoodOn (kernel it.source.dist) (law it.source.dist) (ref it.source.dist) (supp it.source.dist) (List.ofFn fun i => ev (it.source.args i)))
    (hok : TowerOkOn ev it.layers (supp it.source.dist (List.ofFn fun i => ev (it.source.args i)))) :
    (∀ G : ℝ → ENNReal, ∫⁻ x, G (towerMap ev it.layers x) ∂(law it.source.dist (List.ofFn fun i => ev (it.source.args i))) =
      ∫⁻ y in towerMap ev it.layers '' supp it.source.dist (List.ofFn fun i => ev (it.source.args i)), dens (termAt kernel ev it (.fin y)) * G y ∂(ref it.source.dist)) ∧
    (∀ᵐ y ∂((ref it.source.dist).restrict (towerMap ev it.layers '' supp it.source.dist (List.ofFn fun i => ev (it.source.args i)))), dens (termAt kernel ev it (.fin y)) < ⊤) ∧
    law it.source.dist (List.ofFn fun i => ev (it.source.args i)) (supp it.source.dist (List.ofFn fun i => ev (it.source.args i)))ᶜ = 0 := by
  set p := List.ofFn fun i => ev (it.source.args i) with hp
  set μ := law it.source.dist p with hμ
  set D := supp it.source.dist p with hDdef
  have hprob : IsProbabilityMeasure μ := hgood.prob
  have hD : MeasurableSet D := hgood.set
  have hdens : μ = (ref it.source.dist).withDensity (D.indicator fun x => dens (kernel it.source.dist (.fin x) p)) := hgood.dens
  have hnull : μ Dᶜ = 0 := by
    rw [hdens, withDensity_apply _ hD.compl, setLIntegral_indicator hD]
    simp
  have hae : ∀ᵐ x ∂μ, x ∈ D := by rw [ae_iff]; exact hnull
  by_cases hl : it.layers = []
  · have et : ∀ y, termAt kernel ev it y = kernel it.source.dist y p := fun y => by simp [termAt, hl, nodes, derivedLogprob, hp]
    have em : towerMap ev it.layers = id := by rw [hl]; rfl
    rw [em, image_id]
    simp only [et, id_eq]
    have hfin : ∀ᵐ y ∂(ref it.source.dist), D.indicator (fun x => dens (kernel it.source.dist (.fin x) p)) y < ⊤ := by
      refine ae_lt_top hgood.meas ?_
      have : μ univ ≠ ⊤ := measure_ne_top _ _
      rwa [hdens, withDensity_apply _ MeasurableSet.univ, Measure.restrict_univ] at this
    refine ⟨fun G => ?_, ?_, hnull⟩
    · rw [hdens, lintegral_withDensity_eq_lintegral_mul_non_measurable _ hgood.meas hfin, ← lintegral_indicator hD]
      refine lintegral_congr fun y => ?_
      show D.indicator (fun x => dens (kernel it.source.dist (.fin x) p)) y * G y = D.indicator (fun x => dens (kernel it.source.dist (.fin x) p) * G x) y
      by_cases hy : y ∈ D
      · rw [indicator_of_mem hy, indicator_of_mem hy]
      · rw [indicator_of_notMem hy, indicator_of_notMem hy, zero_mul]
    · rw [ae_restrict_iff' hD]
      filter_upwards [hfin] with y hy hyD
      rwa [indicator_of_mem hyD] at hy
  · obtain ⟨ns, h1, h2, h3⟩ := nodes_ok hs hok
    obtain ⟨ts, h4, h5⟩ := tower_solid h2 hD
    have hlp : IsLogDensityOn (fun x => kernel it.source.dist (.fin x) p) D μ := by
      refine ⟨hgood.clean, fun s hsD hs => ?_, hnull⟩
      have : μ s = ∫⁻ y in s, D.indicator (fun x => dens (kernel it.source.dist (.fin x) p)) y := by
        rw [hdens, withDensity_apply _ hs, hvol hl]
      rw [this]
      exact setLIntegral_congr_fun hs fun y hy => by simp [hsD hy]
    obtain ⟨h6, h7⟩ := tower_lintegral (lp := fun v => kernel it.source.dist v p) h5 hD hgood.meas hlp
    have et : ∀ y, termAt kernel ev it y = layersLogprob ts (fun v => kernel it.source.dist v p) y := fun y => by simp only [termAt, h1, h4, ← hp]
    have himg : towerMap ev it.layers '' D = towerFn ns '' D := image_congr h3
    rw [hvol hl, himg]
    refine ⟨fun G => ?_, ?_, hnull⟩
    · have : ∫⁻ x, G (towerMap ev it.layers x) ∂μ = ∫⁻ x, G (towerFn ns x) ∂μ := by
        refine lintegral_congr_ae ?_
        filter_upwards [hae] with x hx
        rw [h3 x hx]
      rw [this, h6 G]
      simp only [et]
    · simp only [et]
      exact h7

/-! ## Towers in the converted graph -/

/-- A layer of the converted graph. -/
def conv (d : Dict ℕ ℕ) (l : Layer Di) : Layer Di := ⟨l.op, l.n, l.idx, fun j => replaceValued d (l.args j)⟩

theorem IsTower.supported {R : ℕ → Prop} {e : Expr Di} {s : Source Di} {ls : List (Layer Di)} (h : IsTower R e s ls) : ∀ l ∈ ls, Supported l.op l.n := by
  induction h with
  | rv => simp
  | app i hs _ _ ih =>
    intro l hl
    rcases List.mem_append.1 hl with hl | hl
    · exact ih l hl
    · rw [List.mem_singleton.1 hl]; exact hs

section
variable [Normals Di]

theorem IsTower.derived {R : ℕ → Prop} {isInt : Di → Bool} {e : Expr Di} {s : Source Di} {ls : List (Layer Di)} (h : IsTower R e s ls) (hf : ls ≠ [] → isInt s.dist = false)
    (hdet : ∀ l ∈ ls, ∀ j, j ≠ l.idx → Determined R (l.args j)) : Derived R isInt e s.dist := by
  induction h with
  | rv id dist n args => exact .rv id dist n args
  | app i hs hv _ ih =>
    exact .app i hs (ih (fun _ => hf (by simp)) fun l hl => hdet l (by simp [hl])) hv (hf (by simp)) fun j hj => hdet _ (List.mem_append_right _ (List.mem_singleton.2 rfl)) j hj

theorem IsTower.measOf {R : ℕ → Prop} {isInt : Di → Bool} {defs : ℕ → Option (Expr Di)} {d : Dict ℕ ℕ} (hR : R = (· ∈ Dict.keys d)) {S : ℕ → Bool} (hI : Inv isInt defs d S) {e : Expr Di}
    {s : Source Di} {ls : List (Layer Di)} (h : IsTower R e s ls) (hc : Closed defs e) (hdet : ∀ l ∈ ls, ∀ j, j ≠ l.idx → Determined R (l.args j)) (hm : isMeas S (cloneOf d e) = true) :
    IR.measOf S (cloneOf d e) = some ⟨s.id, s.dist, s.n, fun i => replaceValued d (s.args i), ls.map (conv d)⟩ := by
  subst hR
  induction h with
  | rv id dist n args => rfl
  | @app id op n args s ls i hs hv ht ih =>
    have ho : ∀ j, j ≠ i → Determined (· ∈ Dict.keys d) (args j) := fun j hj => hdet _ (List.mem_append_right _ (List.mem_singleton.2 rfl)) j hj
    have hi' := hI.elem_input hc ho hm
    have hid : ∃ id, nodeId (args i) = some id := by
      generalize args i = a at ht
      cases ht <;> exact ⟨_, rfl⟩
    obtain ⟨id', hid⟩ := hid
    have hS : S id = true := hm
    have := ih (hc.2 i) (isMeas_replace hi').1 fun l hl => hdet l (List.mem_append_left _ hl)
    simp only [cloneOf, IR.measOf, hS, if_true, hI.filter hc.2 hi' ho]
    rw [replaceValued_eq_clone hid fun hk => hv ⟨id', hid, hk⟩, this]
    simp [conv]

end

theorem DetBy.determined {R E : ℕ → Prop} {e : Expr Di} (h : DetBy R E e) : Determined R e := by
  induction e with
  | const c => trivial
  | inp i => trivial
  | app id op n args ih =>
    rcases h with h | h
    · exact .inl h.1
    · exact .inr fun i => ih i (h.2 i)
  | rv id dist n args ih => exact h.1
  | valued r v => exact h.elim

/-- The rewritten and cleaned graph computes what is read off the values. -/
theorem eval_cleanup {R : ℕ → Prop} {d : Dict ℕ ℕ} (hR : R = (· ∈ Dict.keys d)) {env ρ τ : ℕ → FVal} {ω : ℕ → Di → List FVal → FVal}
    (henv : ∀ v x, Dict.get? d v = some x → env x = τ v) {e : Expr Di} (hinp : ∀ i, UsesInput i e → env i = ρ i) {E : ℕ → Prop} (h : DetBy R E e) :
    eval env ω (cleanup (replaceValued d e)) = readAt R τ ρ e := by
  subst hR
  induction e with
  | const c => rfl
  | inp i => exact hinp i rfl
  | app id op n args ih =>
    by_cases hk : id ∈ Dict.keys d
    · obtain ⟨v, hv⟩ := Dict.get?_isSome.2 hk
      simp only [replaceValued, hv, cleanup, eval, readAt, hk, if_true]
      exact henv _ _ hv
    · have h0 := Dict.get?_eq_none.2 hk
      simp only [replaceValued, h0, cleanup, eval, readAt, hk, if_false]
      congr 2
      funext i
      rcases h with h | h
      · exact absurd h.1 hk
      · exact ih i (fun j hj => hinp j ⟨i, hj⟩) (h.2 i)
  | rv id dist n args ih =>
    have hk : id ∈ Dict.keys d := h.1
    obtain ⟨v, hv⟩ := Dict.get?_isSome.2 hk
    simp only [replaceValued, hv, cleanup, eval, readAt, hk, if_true]
    exact henv _ _ hv
  | valued r v => exact h.elim

theorem nodes_conv (d : Dict ℕ ℕ) (ev : Expr Di → FVal) (ls : List (Layer Di)) : nodes ev (ls.map (conv d)) = nodes (fun e => ev (replaceValued d e)) ls := by
  induction ls with
  | nil => rfl
  | cons l ls ih =>
    have h : List.mapM (Layer.node ev) (ls.map (conv d)) = List.mapM (Layer.node fun e => ev (replaceValued d e)) ls := ih
    simp only [nodes, List.map_cons, List.mapM_cons, h]
    rfl

/-! ## Forward sampling and reading off values -/

theorem readAt_congr {R E : ℕ → Prop} {τ τ' ρ : ℕ → FVal} {e : Expr Di} (h : DetBy R E e) (hE : ∀ v, E v → τ v = τ' v) : readAt R τ ρ e = readAt R τ' ρ e := by
  induction e with
  | const c => rfl
  | inp i => rfl
  | app id op n args ih =>
    rcases h with h | h
    · simp only [readAt, h.1, if_true, hE _ h.2]
    · simp only [readAt, h.1, if_false]
      congr 2
      funext i
      exact ih i (h.2 i)
  | rv id dist n args ih => simp only [readAt, h.1, if_true, hE _ h.2]
  | valued r v => exact h.elim

/-- Drawn values are read off correctly. -/
theorem eval_read {defs : ℕ → Option (Expr Di)} {R E : ℕ → Prop} {σ τ ρ : ℕ → FVal} (hE : ∀ v e, E v → defs v = some e → evalAt σ ρ e = τ v) {e : Expr Di} (hc : Closed defs e)
    (h : DetBy R E e) : evalAt σ ρ e = readAt R τ ρ e := by
  induction e with
  | const c => rfl
  | inp i => rfl
  | app id op n args ih =>
    rcases h with h | h
    · simp only [readAt, h.1, if_true]
      exact hE id _ h.2 hc.1
    · simp only [readAt, h.1, if_false, evalAt]
      congr 2
      funext i
      exact ih i (hc.2 i) (h.2 i)
  | rv id dist n args ih =>
    simp only [readAt, h.1, if_true]
    exact hE id _ h.2 hc.1
  | valued r v => exact h.elim

theorem towerMap_append (val : Expr Di → FVal) (ls : List (Layer Di)) (l : Layer Di) (x : ℝ) : towerMap val (ls ++ [l]) x = l.fn val (towerMap val ls x) := by
  induction ls generalizing x with
  | nil => rfl
  | cons a ls ih => exact ih _

theorem towerOkOn_append {val : Expr Di → FVal} {ls : List (Layer Di)} {l : Layer Di} {D : Set ℝ} (h : TowerOkOn val (ls ++ [l]) D) :
    TowerOkOn val ls D ∧ l.OkOn val (towerMap val ls '' D) := by
  induction ls generalizing D with
  | nil => exact ⟨trivial, by have := h.1; rwa [show towerMap val [] = id from rfl, image_id]⟩
  | cons a ls ih =>
    obtain ⟨h1, h2⟩ := ih h.2
    refine ⟨⟨h.1, h1⟩, ?_⟩
    rw [image_image] at h2
    exact h2

theorem IsTower.eval {R : ℕ → Prop} {e : Expr Di} {s : Source Di} {ls : List (Layer Di)} (h : IsTower R e s ls) {σ ρ : ℕ → FVal} {val : Expr Di → FVal}
    (hval : ∀ l ∈ ls, ∀ j, j ≠ l.idx → evalAt σ ρ (l.args j) = val (l.args j)) {D : Set ℝ} (hok : TowerOkOn val ls D) {x : ℝ} (hx : x ∈ D) (hs : σ s.id = .fin x) :
    evalAt σ ρ e = .fin (towerMap val ls x) := by
  induction h with
  | rv => exact hs
  | @app id op n args s ls i hsup hv ht ih =>
    obtain ⟨h1, h2⟩ := towerOkOn_append hok
    have hi := ih (fun l hl => hval l (by simp [hl])) h1 hs
    obtain ⟨nd, -, -, h3⟩ := Layer.node_ok (l := ⟨op, n, i, args⟩) hsup h2
    have h4 := h3 _ ⟨x, hx, rfl⟩
    have e1 : evalAt σ ρ (.app id op n args) = Layer.out val ⟨op, n, i, args⟩ (towerMap val ls x) := by
      simp only [evalAt, Layer.out]
      congr 2
      funext j
      by_cases hj : j = i
      · subst hj; simp [hi]
      · simp only [hj, if_false]
        exact hval _ (List.mem_append_right _ (List.mem_singleton.2 rfl)) j hj
    rw [e1, towerMap_append, Layer.fn, h4]
    rfl

theorem refE_congr {ref : Di → Measure ℝ} {supp : Di → List FVal → Set ℝ} {R : ℕ → Prop} {ρ : ℕ → FVal} (l : List (Item Di)) (τ : ℕ → ℝ) {φ ψ : (ℕ → ℝ) → ENNReal}
    (h : ∀ τ', (∀ i, i ∉ l.map (·.v) → τ' i = τ i) → φ τ' = ψ τ') : refE ref supp R ρ l τ φ = refE ref supp R ρ l τ ψ := by
  induction l generalizing τ with
  | nil => exact h τ fun _ _ => rfl
  | cons it l ih =>
    simp only [refE]
    refine lintegral_congr fun y => ih _ fun τ' hτ' => h τ' fun i hi => ?_
    simp only [List.map_cons, List.mem_cons, not_or] at hi
    rw [hτ' i hi.2, Function.update_of_ne hi.1]

theorem refE_const_mul {ref : Di → Measure ℝ} {supp : Di → List FVal → Set ℝ} {R : ℕ → Prop} {ρ : ℕ → FVal} (l : List (Item Di)) (τ : ℕ → ℝ) {c : ENNReal} (hc : c ≠ ⊤)
    (φ : (ℕ → ℝ) → ENNReal) : refE ref supp R ρ l τ (fun τ => c * φ τ) = c * refE ref supp R ρ l τ φ := by
  induction l generalizing τ with
  | nil => rfl
  | cons it l ih =>
    simp only [refE, ih]
    rw [lintegral_const_mul' _ _ hc]

/-- Density factor of an item at the values `τ`. -/
noncomputable def factor (kernel : Di → FVal → List FVal → Except Err FVal) (R : ℕ → Prop) (ρ : ℕ → FVal) (τ : ℕ → ℝ) (it : Item Di) : ENNReal :=
  dens (termAt kernel (readAt R (Graph.asg τ) ρ) it (.fin (τ it.v)))

theorem ancestral {kernel : Di → FVal → List FVal → Except Err FVal} {law : Di → List FVal → Measure ℝ} {ref : Di → Measure ℝ} {supp : Di → List FVal → Set ℝ} {isInt : Di → Bool}
    (hvol : ∀ dist, isInt dist = false → ref dist = volume) {defs : ℕ → Option (Expr Di)} (hwf : WellFormed defs) {R : ℕ → Prop} {ρ : ℕ → FVal} {ids : List ℕ} (hnd : ids.Nodup)
    (τ₀ : ℕ → ℝ) (ψ : (ℕ → ℝ) → ENNReal) (l p : List (Item Di)) (σ τ : ℕ → ℝ) (hids : ids = (p ++ l).map (·.v)) (hsrc : ((p ++ l).map (·.source.id)).Nodup)
    (hlist : Listed defs isInt R l (p.map (·.v)))
    (h1 : ∀ it ∈ p, ∀ e, defs it.v = some e → ∀ σ' : ℕ → ℝ, (∀ it' ∈ p, σ' it'.source.id = σ it'.source.id) → evalAt (Graph.asg σ') ρ e = .fin (τ it.v))
    (h2 : ∀ u, u ∉ p.map (·.v) → τ u = τ₀ u) (hvalid : Valid kernel law ref supp R ρ l τ) (hdef : ∀ it ∈ p, (defs it.v).isSome) :
    refE ref supp R ρ l τ (fun τ' => (l.map (factor kernel R ρ τ')).prod * ψ τ') = sampleE law ρ l σ fun σ' => ψ (values defs ρ ids τ₀ σ') := by
  induction l generalizing p σ τ with
  | nil =>
    simp only [refE, sampleE, List.map_nil, List.prod_nil, one_mul]
    congr 1
    funext u
    rw [List.append_nil] at hids
    rw [values]
    split_ifs with hu
    · rw [hids] at hu
      obtain ⟨it, hit, rfl⟩ := List.mem_map.1 hu
      obtain ⟨e, he⟩ := Option.isSome_iff_exists.1 (hdef it hit)
      simp only [he]
      rw [h1 it hit e he σ fun _ _ => rfl]
      rfl
    · rw [hids] at hu
      exact h2 u hu
  | cons it l ih =>
    obtain ⟨⟨e, he, htow⟩, hfloat, hdsrc, hdlay, hlist'⟩ := hlist
    obtain ⟨hgood, hok, hval'⟩ := hvalid
    have hcl : Closed defs e := (hwf _ _ he).2
    have hE : ∀ σ' : ℕ → ℝ, (∀ it' ∈ p, σ' it'.source.id = σ it'.source.id) → ∀ v e, v ∈ p.map (·.v) → defs v = some e → evalAt (Graph.asg σ') ρ e = Graph.asg τ v := by
      intro σ' hσ' v e hv hve
      obtain ⟨it', hit', rfl⟩ := List.mem_map.1 hv
      exact h1 it' hit' e hve σ' hσ'
    have hclosed : (∀ i, Closed defs (it.source.args i)) ∧ ∀ ly ∈ it.layers, ∀ j, Closed defs (ly.args j) := by
      clear hdsrc hdlay hok hval' hgood hfloat ih he
      generalize it.source = s at htow
      generalize it.layers = ls at htow
      induction htow with
      | rv => exact ⟨hcl.2, by simp⟩
      | app i _ _ _ ih =>
        obtain ⟨a, b⟩ := ih (hcl.2 i)
        refine ⟨a, fun ly hly => ?_⟩
        rcases List.mem_append.1 hly with hly | hly
        · exact b ly hly
        · rw [List.mem_singleton.1 hly]; exact hcl.2
    set val := readAt (Di := Di) R (Graph.asg τ) ρ with hvaldef
    have hpar : (List.ofFn fun i => evalAt (Graph.asg σ) ρ (it.source.args i)) = it.params R (Graph.asg τ) ρ := by
      rw [Item.params]
      congr 1
      funext i
      exact eval_read (hE σ fun _ _ => rfl) (hclosed.1 i) (hdsrc i)
    obtain ⟨s1, s2, s3⟩ := item_step (kernel := kernel) (law := law) (ref := ref) (supp := supp) (ev := val) htow.supported (fun h => hvol _ (hfloat h)) hgood hok
    have hsid : it.source.id ∉ p.map (·.source.id) := by
      intro hm
      rw [List.map_append, List.map_cons] at hsrc
      exact (List.nodup_append.1 hsrc).2.2 _ hm _ (by simp) rfl
    have hvid : it.v ∉ p.map (·.v) := by
      intro hm
      rw [hids, List.map_append, List.map_cons] at hnd
      exact (List.nodup_append.1 hnd).2.2 _ hm _ (by simp) rfl
    have hvl : ∀ v, v ∈ p.map (·.v) ∨ v = it.v → v ∉ l.map (·.v) := by
      intro v hv hm
      rw [hids, List.map_append, List.map_cons] at hnd
      rcases hv with hv | rfl
      · exact (List.nodup_append.1 hnd).2.2 _ hv _ (by simp only [List.mem_cons]; exact .inr hm) rfl
      · exact (List.nodup_cons.1 (List.nodup_append.1 hnd).2.1).1 hm
    -- the rest, as a function of the value of this variable
    set G : ℝ → ENNReal := fun y => refE ref supp R ρ l (Function.update τ it.v y) fun τ' => (l.map (factor kernel R ρ τ')).prod * ψ τ' with hG
    have hsample : sampleE law ρ (it :: l) σ (fun σ' => ψ (values defs ρ ids τ₀ σ')) = ∫⁻ x, G (towerMap val it.layers x) ∂(law it.source.dist (it.params R (Graph.asg τ) ρ)) := by
      simp only [sampleE, hpar]
      refine lintegral_congr_ae ?_
      have hae : ∀ᵐ x ∂(law it.source.dist (it.params R (Graph.asg τ) ρ)), x ∈ supp it.source.dist (it.params R (Graph.asg τ) ρ) := by rw [ae_iff]; exact s3
      filter_upwards [hae] with x hx
      rw [hG]
      refine (ih (p ++ [it]) (Function.update σ it.source.id x) (Function.update τ it.v (towerMap val it.layers x)) ?_ ?_ ?_ ?_ ?_ ?_ ?_).symm
      · rw [hids]; simp
      · rw [List.append_assoc]; exact hsrc
      · rw [List.map_append]; exact hlist'
      · intro it' hit' e' he' σ' hσ'
        have hagree : ∀ it'' ∈ p, σ' it''.source.id = σ it''.source.id := by
          intro it'' hit''
          rw [hσ' it'' (by simp [hit'']), Function.update_of_ne]
          intro hh
          exact hsid (List.mem_map.2 ⟨it'', hit'', hh⟩)
        rcases List.mem_append.1 hit' with hit' | hit'
        · rw [Function.update_of_ne (fun hh => hvid (List.mem_map.2 ⟨it', hit', hh⟩))]
          exact h1 it' hit' e' he' σ' hagree
        · rw [List.mem_singleton.1 hit'] at he' ⊢
          rw [he] at he'
          cases he'
          rw [Function.update_self]
          refine htow.eval (fun ly hly j hj => eval_read (hE σ' hagree) (hclosed.2 ly hly j) (hdlay ly hly j hj)) hok hx ?_
          show FVal.fin (σ' it.source.id) = _
          rw [hσ' it (by simp), Function.update_self]
      · intro u hu
        simp only [List.map_append, List.map_cons, List.map_nil, List.mem_append, List.mem_singleton, not_or] at hu
        rw [Function.update_of_ne hu.2]
        exact h2 u hu.1
      · exact hval' _ ⟨x, hx, rfl⟩
      · intro it' hit'
        rcases List.mem_append.1 hit' with hit' | hit'
        · exact hdef it' hit'
        · rw [List.mem_singleton.1 hit', he]; rfl
    rw [hsample]
    refine Eq.trans ?_ (s1 G).symm
    simp only [refE]
    show ∫⁻ y in it.range supp R ρ τ, _ ∂(ref it.source.dist) = ∫⁻ y in it.range supp R ρ τ, _ ∂(ref it.source.dist)
    refine lintegral_congr_ae ?_
    filter_upwards [s2] with y hy
    rw [hG, ← refE_const_mul _ _ hy.ne]
    refine refE_congr _ _ fun τ' hτ' => ?_
    rw [List.map_cons, List.prod_cons, mul_assoc]
    congr 1
    have hτv : τ' it.v = y := by rw [hτ' it.v (hvl _ (.inr rfl)), Function.update_self]
    rw [factor, hτv]
    have hag : ∀ v, v ∈ p.map (·.v) → Graph.asg τ' v = Graph.asg τ v := by
      intro v hv
      show FVal.fin (τ' v) = .fin (τ v)
      rw [hτ' v (hvl v (.inl hv)), Function.update_of_ne (by rintro rfl; exact hvid hv)]
    rw [termAt_congr kernel it (fun ly hly j hj => readAt_congr (hdlay ly hly j hj) hag) (fun i => readAt_congr (hdsrc i) hag)]

/-! ## The terms returned -/

variable [Normals Di]

theorem conditional_term {S : ℕ → Bool} {defs : ℕ → Option (Expr Di)} {rvs clones : List ℕ} {realized : Dict ℕ ℕ} {terms : Dict ℕ (Term Di)} {vvs : List ℕ}
    (h : conditional S defs rvs clones realized = .ok (terms, vvs)) {v x : ℕ} (hx : Dict.get? (rvValues rvs clones realized) v = some x) {e : Expr Di} (he : defs v = some e)
    (hm : isMeas S (cloneOf (rvValues rvs clones realized) e) = true) {m : Meas Di} (hmeas : measOf S (cloneOf (rvValues rvs clones realized) e) = some m) :
    Dict.get? terms v = some ⟨x, m⟩ := by
  obtain ⟨hB, hK, hS⟩ := backend_contract S defs (rvValues rvs clones realized)
  have hown := C05_own_value_single_partial hB hS h
  have hc : Converts (backend S defs (rvValues rvs clones realized)) (rvValues rvs clones realized) v v x := by
    obtain ⟨i, hi⟩ := List.mem_iff_getElem?.1 (Dict.mem_of_get? hx)
    refine ⟨_, _, rfl, i, ?_, ?_⟩
    · rw [List.getElem?_map, hi]; rfl
    · rw [List.getElem?_map, hi]; rfl
  have hmo : (backend S defs (rvValues rvs clones realized)).measurableOutputs v = [v] := by simp [backend, he, hm]
  obtain ⟨lps, h1, j, h2, h3⟩ := hown v v x v hc (by simp [backend, he]) [x] (by rw [hmo]; rfl) (by
    intro j o' y h1 h2
    rw [hmo] at h1
    match j with
    | 0 =>
      have e1 : o' = v := (Option.some.inj h1).symm
      have e2 : y = x := (Option.some.inj h2).symm
      subst e1 e2
      exact ⟨_, hc⟩
    | j + 1 => simp at h1)
  rw [hmo] at h2
  match j with
  | 0 =>
    rw [← h3]
    simp only [backend, he, hmeas, Except.ok.injEq] at h1
    rw [← h1]
    rfl
  | j + 1 => simp at h2

theorem dens_sumE (l : List (Except Err FVal)) : dens (sumE l) = (l.map dens).prod := by
  induction l with
  | nil => simp [sumE, dens, FVal.toDens]
  | cons a l ih =>
    cases a with
    | error e => simp [sumE, dens]
    | ok x =>
      rw [List.map_cons, List.prod_cons, ← ih]
      simp only [sumE]
      cases sumE l with
      | error e => simp [dens]
      | ok y => exact Graph.toDens_add x y

theorem dens_evalJoint (kernel : Di → FVal → List FVal → Except Err FVal) {S : ℕ → Bool} {defs : ℕ → Option (Expr Di)} {rvs clones : List ℕ} {realized : Dict ℕ ℕ}
    {terms : Dict ℕ (Term Di)} {vvs : List ℕ} (hne : terms ≠ []) (h : conditional S defs rvs clones realized = .ok (terms, vvs)) :
    ∃ j, joint S defs rvs clones realized = .ok (some (j, vvs)) ∧ ∀ ρ ω, dens (evalJoint kernel ρ ω j) = (terms.map fun p => dens (p.2.eval kernel ρ ω)).prod := by
  have h' : conditionalLogprob (backend S defs (rvValues rvs clones realized)) rvs clones realized = .ok (terms, vvs) := h
  rw [joint, jointLogprob, h']
  match terms, hne with
  | [(v, t)], _ => exact ⟨_, rfl, fun ρ ω => by simp [evalJoint]⟩
  | a :: b :: l, _ =>
    refine ⟨_, rfl, fun ρ ω => ?_⟩
    rw [evalJoint, dens_sumE, List.map_map, Dict.values, List.map_map]
    rfl

theorem Listed.item {defs : ℕ → Option (Expr Di)} {isInt : Di → Bool} {R : ℕ → Prop} {l : List (Item Di)} {seen : List ℕ} (h : Listed defs isInt R l seen) {it : Item Di} (hit : it ∈ l) :
    ∃ E : ℕ → Prop, (∃ e, defs it.v = some e ∧ IsTower R e it.source it.layers) ∧ (it.layers ≠ [] → isInt it.source.dist = false) ∧ (∀ i, DetBy R E (it.source.args i)) ∧
      ∀ ly ∈ it.layers, ∀ j, j ≠ ly.idx → DetBy R E (ly.args j) := by
  induction l generalizing seen with
  | nil => simp at hit
  | cons a l ih =>
    obtain ⟨h1, h2, h3, h4, h5⟩ := h
    rcases List.mem_cons.1 hit with rfl | hit
    · exact ⟨_, h1, h2, h3, h4⟩
    · exact ih h5 hit

theorem IsTower.usesInput {R : ℕ → Prop} {e : Expr Di} {s : Source Di} {ls : List (Layer Di)} (h : IsTower R e s ls) {i : ℕ} :
    (∀ k, UsesInput i (s.args k) → UsesInput i e) ∧ ∀ ly ∈ ls, ∀ j, UsesInput i (ly.args j) → UsesInput i e := by
  induction h with
  | rv => exact ⟨fun k hk => ⟨k, hk⟩, by simp⟩
  | app k _ _ _ ih =>
    refine ⟨fun j hj => ⟨k, ih.1 j hj⟩, fun ly hly j hj => ?_⟩
    rcases List.mem_append.1 hly with hly | hly
    · exact ⟨k, ih.2 ly hly j hj⟩
    · cases List.mem_singleton.1 hly; exact ⟨j, hj⟩

/-- **C94** Let every requested variable be a random variable or an invertible function of one of its own, where everything else that these depend on follows from other requested variables.
Whatever the order of rewriting, `joint_logprob` returns a graph, and its exponential is the joint density of the requested variables: integrating it times `ψ` over the values that the variables can
take gives the expectation of `ψ` of the values computed by forward sampling. -/
theorem C94_joint_density (kernel : Di → FVal → List FVal → Except Err FVal) (law : Di → List FVal → Measure ℝ) (ref : Di → Measure ℝ) (supp : Di → List FVal → Set ℝ) {isInt : Di → Bool}
    (hvol : ∀ dist, isInt dist = false → ref dist = volume) (ρ : ℕ → FVal) (ω : ℕ → Di → List FVal → FVal) {defs : ℕ → Option (Expr Di)} (hwf : WellFormed defs)
    {l : List (Item Di)} (hne : l ≠ []) (hnd : (l.map (·.v)).Nodup) (hsrc : (l.map (·.source.id)).Nodup) (hlist : Listed defs isInt (· ∈ l.map (·.v)) l [])
    {rvs clones : List ℕ} (hc : clones.length = rvs.length) (hperm : rvs.Perm (l.map (·.v))) {S : ℕ → Bool}
    (hrun : Steps isInt (outputs defs (rvValues rvs clones [])) (fun _ => false) S) (hF : Final isInt (outputs defs (rvValues rvs clones [])) S)
    (env : (ℕ → ℝ) → ℕ → FVal) (henv : ∀ τ v x, Dict.get? (rvValues rvs clones []) v = some x → env τ x = .fin (τ v))
    (hinp : ∀ τ v e, v ∈ rvs → defs v = some e → ∀ i, UsesInput i e → env τ i = ρ i) :
    ∃ j vvs, joint S defs rvs clones [] = .ok (some (j, vvs)) ∧
      ∀ σ₀ τ₀ : ℕ → ℝ, Valid kernel law ref supp (· ∈ l.map (·.v)) ρ l τ₀ → ∀ ψ : (ℕ → ℝ) → ENNReal,
        refE ref supp (· ∈ l.map (·.v)) ρ l τ₀ (fun τ => dens (evalJoint kernel (env τ) ω j) * ψ τ) = sampleE law ρ l σ₀ fun σ => ψ (values defs ρ (l.map (·.v)) τ₀ σ) := by
  set d := rvValues rvs clones [] with hd
  have hkey : ∀ v, v ∈ Dict.keys d ↔ v ∈ rvs := by
    intro v
    rw [hd, rvValues, Dict.mem_keys_update, Dict.mem_keys_ofList, List.map_fst_zip hc.ge]
    simp [Dict.keys]
  have hR : (· ∈ l.map (·.v)) = (· ∈ Dict.keys d) := by
    funext v
    rw [eq_iff_iff, hkey]
    exact hperm.symm.mem_iff
  have hR' : (fun w => w ∈ rvs ∨ w ∈ Dict.keys ([] : Dict ℕ ℕ)) = (· ∈ l.map (·.v)) := by
    funext v
    rw [eq_iff_iff, hperm.mem_iff]
    simp [Dict.keys]
  have hitem : ∀ v, v ∈ rvs → ∃ it ∈ l, it.v = v := fun v hv => List.mem_map.1 (hperm.subset hv)
  have hI := Inv.steps hwf inv_start hrun
  -- every requested variable is derived
  have hder : ∀ it ∈ l, ∀ e, defs it.v = some e → ∃ dist, Derived (· ∈ l.map (·.v)) isInt e dist := by
    intro it hit e he
    obtain ⟨E, ⟨e', he', ht⟩, hf, -, hl⟩ := hlist.item hit
    rw [he] at he'
    cases he'
    exact ⟨_, ht.derived hf fun ly hly j hj => (hl ly hly j hj).determined⟩
  obtain ⟨terms, vvs, hcond⟩ := (C93_outcome hwf hc (realized := []) (by
      rintro v (hv | hv)
      · obtain ⟨it, hit, rfl⟩ := hitem v hv
        obtain ⟨E, ⟨e, he, -⟩, -⟩ := hlist.item hit
        rw [he]; rfl
      · simp [Dict.keys] at hv) hrun hF).1 (by
      rintro v e (hv | hv) he
      · obtain ⟨it, hit, rfl⟩ := hitem v hv
        rw [hR']
        exact hder it hit e he
      · simp [Dict.keys] at hv)
  have hcond' : conditionalLogprob (backend S defs d) rvs clones [] = .ok (terms, vvs) := hcond
  obtain ⟨hB, hK, hS⟩ := backend_contract S defs d
  obtain ⟨hkn, hkm⟩ := C02_one_term_each hB hc hcond'
  have hrn : rvs.Nodup := hperm.nodup_iff.2 hnd
  have hkp : (Dict.keys terms).Perm (l.map (·.v)) := by
    refine ((List.perm_ext_iff_of_nodup hkn hrn).2 fun v => ?_).trans hperm
    rw [hkm]; simp [Dict.keys]
  have htne : terms ≠ [] := by
    rintro rfl
    have := hkp.length_eq
    simp only [Dict.keys, List.map_nil, List.length_nil, List.length_map] at this
    exact hne (List.length_eq_zero_iff.1 this.symm)
  obtain ⟨j, hj, hdens⟩ := dens_evalJoint kernel htne hcond
  refine ⟨j, vvs, hj, fun σ₀ τ₀ hvalid ψ => ?_⟩
  rw [← ancestral hvol hwf hnd τ₀ ψ l [] σ₀ τ₀ rfl hsrc hlist (by simp) (fun _ _ => rfl) hvalid (by simp)]
  congr 1
  funext τ
  congr 1
  rw [hdens]
  -- the term of an item
  have hterm : ∀ it ∈ l, ∃ t, Dict.get? terms it.v = some t ∧ dens (t.eval kernel (env τ) ω) = factor kernel (· ∈ l.map (·.v)) ρ τ it := by
    intro it hit
    obtain ⟨E, ⟨e, he, ht⟩, hf, hs, hl⟩ := hlist.item hit
    have hv : it.v ∈ rvs := hperm.symm.subset (List.mem_map.2 ⟨it, hit, rfl⟩)
    obtain ⟨x, hx⟩ := Dict.get?_isSome.2 ((hkey _).2 hv)
    have hcl : Closed defs e := (hwf _ _ he).2
    have hm : isMeas S (cloneOf d e) = true := (C93_converted hwf hrun hF ((hkey _).2 hv) he).2 (by rw [← hR]; exact hder it hit e he)
    have hmo := ht.measOf hR hI hcl (fun ly hly j hj => (hl ly hly j hj).determined) hm
    refine ⟨_, conditional_term hcond hx he hm hmo, ?_⟩
    rw [factor]
    congr 1
    have hev : ∀ a, DetBy (· ∈ l.map (·.v)) E a → (∀ i, UsesInput i a → UsesInput i e) →
        IR.eval (env τ) ω (cleanup (replaceValued d a)) = readAt (· ∈ l.map (·.v)) (Graph.asg τ) ρ a := fun a ha hi =>
      eval_cleanup hR (fun v x hvx => henv τ v x hvx) (fun i hi' => hinp τ _ _ hv he i (hi i hi')) ha
    rw [← termAt_congr kernel it (ev := fun a => IR.eval (env τ) ω (cleanup (replaceValued d a))) (fun ly hly j hj => hev _ (hl ly hly j hj) fun i => ht.usesInput.2 ly hly j)
      (fun i => hev _ (hs i) fun k => ht.usesInput.1 i), ← henv τ _ _ hx]
    simp only [Term.eval, termAt, nodes_conv]
    rfl
  have hall : (terms.map fun p => dens (p.2.eval kernel (env τ) ω)) = (Dict.keys terms).map fun v => match Dict.get? terms v with
      | some t => dens (t.eval kernel (env τ) ω)
      | none => 0 := by
    rw [Dict.keys, List.map_map]
    refine List.map_congr_left fun p hp => ?_
    simp only [Function.comp_apply, Dict.get?_of_mem hkn (show (p.1, p.2) ∈ terms from hp)]
  rw [hall, (hkp.map _).prod_eq, List.map_map]
  congr 1
  refine List.map_congr_left fun it hit => ?_
  obtain ⟨t, h1, h2⟩ := hterm it hit
  simp only [Function.comp_apply, h1, h2]

/-! ## Example: `X ~ N(0, 1)`, `E = exp(X)`, `Y ~ N(E, 1)`, `Z = Y * E`; requested are `Z` and `E` -/

namespace DemoJoint
open ProbabilityTheory

noncomputable def X : Expr Unit := .rv 0 () 2 ![.const (.fin 0), .const (.fin 1)]
noncomputable def E : Expr Unit := .app 1 .exp 1 ![X]
noncomputable def Y : Expr Unit := .rv 2 () 2 ![E, .const (.fin 1)]
noncomputable def Z : Expr Unit := .app 3 .mul 2 ![Y, E]

noncomputable def defs : ℕ → Option (Expr Unit) := Dict.get? [(0, X), (1, E), (2, Y), (3, Z)]

noncomputable def items : List (Item Unit) :=
  [⟨1, ⟨0, (), 2, ![.const (.fin 0), .const (.fin 1)]⟩, [⟨.exp, 1, 0, ![X]⟩]⟩, ⟨3, ⟨2, (), 2, ![E, .const (.fin 1)]⟩, [⟨.mul, 2, 0, ![Y, E]⟩]⟩]

noncomputable def kernel : Unit → FVal → List FVal → Except Err FVal
  | _, x, [m, s] => normalLogprob x m s
  | _, _, _ => .error .notImplemented

noncomputable def law : Unit → List FVal → Measure ℝ
  | _, [.fin m, .fin s] => gaussianReal m (s ^ 2).toNNReal
  | _, _ => 0

def env (τ : ℕ → ℝ) (i : ℕ) : FVal := if i = 11 then .fin (τ 1) else if i = 13 then .fin (τ 3) else .nan

theorem wf : WellFormed defs := by
  have hX : Closed defs X := ⟨rfl, by simp [Fin.forall_fin_two, Closed]⟩
  have hE : Closed defs E := ⟨rfl, fun i => by fin_cases i; exact hX⟩
  have hY : Closed defs Y := ⟨rfl, fun i => by fin_cases i; exacts [hE, trivial]⟩
  have hZ : Closed defs Z := ⟨rfl, fun i => by fin_cases i; exacts [hY, hE]⟩
  intro v e h
  have := Dict.mem_of_get? h
  simp only [List.mem_cons, Prod.mk.injEq, List.not_mem_nil, or_false] at this
  rcases this with ⟨rfl, rfl⟩ | ⟨rfl, rfl⟩ | ⟨rfl, rfl⟩ | ⟨rfl, rfl⟩
  exacts [⟨rfl, hX⟩, ⟨rfl, hE⟩, ⟨rfl, hY⟩, ⟨rfl, hZ⟩]

theorem listed : Listed defs (fun _ => false) (· ∈ items.map (·.v)) items [] := by
  have hm : ∀ v, v ∈ items.map (·.v) ↔ v = 1 ∨ v = 3 := by simp [items]
  refine ⟨⟨E, rfl, .app (ls := []) 0 .exp ?_ (.rv 0 () 2 _)⟩, fun _ => rfl, ?_, ?_, ⟨Z, rfl, .app (ls := []) 0 (.mul (by decide)) ?_ (.rv 2 () 2 _)⟩, fun _ => rfl, ?_, ?_, trivial⟩
  · rintro ⟨id, h, hr⟩; cases h; simp [hm] at hr
  · intro i; fin_cases i <;> trivial
  · intro ly hly j hj
    cases List.mem_singleton.1 hly
    exact absurd (Subsingleton.elim (α := Fin 1) j 0) hj
  · rintro ⟨id, h, hr⟩; cases h; simp [hm] at hr
  · intro i
    fin_cases i
    · exact Or.inl ⟨(hm 1).2 (by simp), by simp⟩
    · trivial
  · intro ly hly j hj
    cases List.mem_singleton.1 hly
    match j with
    | 0 => exact absurd rfl hj
    | 1 => exact Or.inl ⟨(hm 1).2 (by simp), by simp⟩

theorem good (m : ℝ) : GoodOn (kernel ()) (law ()) volume (fun _ => univ) [.fin m, .fin 1] := by
  have h1 : (0 : ℝ) < 1 := one_pos
  have e : (fun y : ℝ => dens (normalLogprob (.fin y) (.fin m) (.fin 1))) = gaussianPDF m ((1 : ℝ) ^ 2).toNNReal := by
    funext y
    rw [normal_eval y m h1, dens_log (gaussianPDFReal_pos _ _ _ (toNNReal_sq_ne h1))]; rfl
  refine ⟨inferInstanceAs (IsProbabilityMeasure (gaussianReal m _)), MeasurableSet.univ, fun x _ => (C09_normal m h1).1.clean x, ?_, ?_⟩
  · simp only [indicator_univ]
    show Measurable fun y : ℝ => dens (normalLogprob (.fin y) (.fin m) (.fin 1))
    rw [e]; exact measurable_gaussianPDF _ _
  · simp only [indicator_univ]
    exact Measure.ext fun s hs => by rw [withDensity_apply _ hs]; exact ((C09_normal m h1).1.law s hs).symm

theorem valid (ρ : ℕ → FVal) (τ : ℕ → ℝ) : Valid kernel law (fun _ => volume) (fun _ _ => univ) (· ∈ items.map (·.v)) ρ items τ := by
  have hm : ∀ v, v ∈ items.map (·.v) ↔ v = 1 ∨ v = 3 := by simp [items]
  have hE : ∀ τ : ℕ → ℝ, readAt (· ∈ items.map (·.v)) (Graph.asg τ) ρ E = .fin (τ 1) := fun τ => if_pos ((hm 1).2 (by simp))
  refine ⟨?_, ⟨trivial, trivial⟩, ?_⟩
  · have : Item.params (· ∈ items.map (·.v)) (Graph.asg τ) ρ ⟨1, ⟨0, (), 2, ![.const (.fin 0), .const (.fin 1)]⟩, [⟨.exp, 1, 0, ![X]⟩]⟩ = [.fin 0, .fin 1] := by
      simp [Item.params, List.ofFn_succ, readAt]
    rw [this]
    exact good 0
  · rintro y ⟨x, -, rfl⟩
    have hy : 0 < towerMap (readAt (· ∈ items.map (·.v)) (Graph.asg τ) ρ) [⟨.exp, 1, 0, ![X]⟩] x := by
      have : towerMap (readAt (· ∈ items.map (·.v)) (Graph.asg τ) ρ) [⟨.exp, 1, 0, ![X]⟩] x = Real.exp x := by
        simp [towerMap, Layer.fn, Layer.out, List.ofFn_succ, Op.eval, realOf]
      rw [this]; exact Real.exp_pos x
    generalize towerMap (readAt (· ∈ items.map (·.v)) (Graph.asg τ) ρ) [⟨.exp, 1, 0, ![X]⟩] x = y at hy
    have hp : Item.params (· ∈ items.map (·.v)) (Graph.asg (Function.update τ 1 y)) ρ ⟨3, ⟨2, (), 2, ![E, .const (.fin 1)]⟩, [⟨.mul, 2, 0, ![Y, E]⟩]⟩ = [.fin y, .fin 1] := by
      have := hE (Function.update τ 1 y)
      rw [Function.update_self] at this
      simp only [Item.params, List.ofFn_succ, List.ofFn_zero]
      exact congrArg (fun a => [a, FVal.fin 1]) this
    refine ⟨?_, ⟨fun j hj => ?_, trivial⟩, fun _ _ => trivial⟩
    · rw [hp]; exact good y
    · match j with
      | 0 => exact absurd rfl hj
      | 1 => exact ⟨y, hy.ne', by simpa using hE (Function.update τ 1 y)⟩

example : ∃ S, Steps (fun _ => false) (outputs defs (rvValues [3, 1] [13, 11] [])) (fun _ => false) S ∧ ∃ j vvs, joint S defs [3, 1] [13, 11] [] = .ok (some (j, vvs)) ∧
    ∀ σ₀ τ₀ : ℕ → ℝ, ∀ ψ : (ℕ → ℝ) → ENNReal,
      refE (fun _ => volume) (fun _ _ => univ) (· ∈ items.map (·.v)) (fun _ => .nan) items τ₀ (fun τ => dens (evalJoint kernel (env τ) (fun _ _ _ => .nan) j) * ψ τ) =
        sampleE law (fun _ => .nan) items σ₀ fun σ => ψ (values defs (fun _ => .nan) (items.map (·.v)) τ₀ σ) := by
  obtain ⟨S, hrun, hF⟩ := exists_run (fun _ => false) (outputs defs (rvValues [3, 1] [13, 11] [])) fun _ => false
  obtain ⟨j, vvs, h1, h2⟩ := C94_joint_density kernel law (fun _ => volume) (fun _ _ => univ) (fun _ _ => rfl) (fun _ => .nan) (fun _ _ _ => .nan) wf (l := items) (by simp [items])
    (by simp [items]) (by simp [items]) listed (rvs := [3, 1]) (clones := [13, 11]) rfl (List.Perm.swap 1 3 []) hrun hF env (by
      intro τ v x h
      have e : rvValues [3, 1] [13, 11] [] = [(3, 13), (1, 11)] := by decide
      rw [e] at h
      simp only [Dict.get?] at h
      split_ifs at h with h1 h2
      · cases h; subst h1; rfl
      · cases h; subst h2; rfl) (by
      intro τ v e hv he i hi
      simp only [List.mem_cons, List.not_mem_nil, or_false] at hv
      rcases hv with rfl | rfl
      · cases he; simp [Z, Y, E, X, UsesInput, Fin.exists_fin_two] at hi
      · cases he; simp [E, X, UsesInput, Fin.exists_fin_two] at hi)
  exact ⟨S, hrun, j, vvs, h1, fun σ₀ τ₀ => h2 σ₀ τ₀ (valid _ _)⟩

end DemoJoint

end Verif.IR
