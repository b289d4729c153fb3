import Verif.Lemmas.IRTransform

/-! # C95: joint density of models with transformed values -/

namespace Verif.IR
open Verif Cond MeasureTheory Set

variable {Di : Type} [Normals Di]

/-- The term of an item at the value `z` on the transformed scale, when the values on the own scale are `X`. -/
noncomputable def termT (kernel : Di → FVal → List FVal → Except Err FVal) (use_jacobian : Bool) (tr : ℕ → Option VTransform) (R : ℕ → Prop) (ρ X : ℕ → FVal) (it : Item Di) (z : FVal) :
    Except Err FVal :=
  match tr it.v with
  | none => termAt kernel (readAt R X ρ) it z
  | some t => transformedLogprob (t.at (it.params R X ρ)) (termAt kernel (readAt R X ρ) it) use_jacobian z

/-- The function from the own to the transformed scale. -/
noncomputable def forwardFn (tr : ℕ → Option VTransform) (R : ℕ → Prop) (ρ X : ℕ → FVal) (it : Item Di) (y : ℝ) : ℝ :=
  match tr it.v with
  | none => y
  | some t => realOf (.ok (t.forward (.fin y) (it.params R X ρ)))

theorem transRange_eq (tr : ℕ → Option VTransform) (supp : Di → List FVal → Set ℝ) (R : ℕ → Prop) (ρ X : ℕ → FVal) (it : Item Di) :
    it.transRange tr supp R ρ X = forwardFn tr R ρ X it '' it.rangeAt supp R ρ X := by
  rw [Item.transRange]
  cases h : tr it.v with
  | none =>
    have : forwardFn tr R ρ X it = id := by funext y; simp [forwardFn, h]
    rw [this, image_id]
  | some t =>
    have : forwardFn tr R ρ X it = fun y => realOf (.ok (t.forward (.fin y) (it.params R X ρ))) := by funext y; simp [forwardFn, h]
    rw [this]

/-- One variable: integrals over its draws are integrals over its values on the transformed scale. -/
theorem item_stepT {kernel : Di → FVal → List FVal → Except Err FVal} {law : Di → List FVal → Measure ℝ} {ref : Di → Measure ℝ} {supp : Di → List FVal → Set ℝ} {isInt : Di → Bool}
    (hvol : ∀ dist, isInt dist = false → ref dist = volume) {tr : ℕ → Option VTransform} {R : ℕ → Prop} {ρ X : ℕ → FVal} {it : Item Di} (hs : ∀ l ∈ it.layers, Supported l.op l.n)
    (hint : it.layers ≠ [] → isInt it.source.dist = false)
    (hgood : GoodOn (kernel it.source.dist) (law it.source.dist) (ref it.source.dist) (supp it.source.dist) (it.params R X ρ))
    (hok : TowerOkOn (readAt R X ρ) it.layers (supp it.source.dist (it.params R X ρ))) (htr : TransOk isInt tr supp R ρ X it) :
    (∀ H : ℝ → ENNReal, ∫⁻ x, H (forwardFn tr R ρ X it (towerMap (readAt R X ρ) it.layers x)) ∂(law it.source.dist (it.params R X ρ)) =
      ∫⁻ z in it.transRange tr supp R ρ X, dens (termT kernel true tr R ρ X it (.fin z)) * H z ∂(ref it.source.dist)) ∧
    (∀ᵐ z ∂((ref it.source.dist).restrict (it.transRange tr supp R ρ X)), dens (termT kernel true tr R ρ X it (.fin z)) < ⊤) ∧
    law it.source.dist (it.params R X ρ) (supp it.source.dist (it.params R X ρ))ᶜ = 0 := by
  obtain ⟨s1, s2, s3⟩ := item_step (ev := readAt R X ρ) hs (fun h => hvol _ (hint h)) hgood hok
  refine ⟨?_, ?_, s3⟩
  · intro H
    cases h : tr it.v with
    | none =>
      simp only [forwardFn, termT, h, Item.transRange]
      exact s1 H
    | some t =>
      obtain ⟨h1, h2, h3, h4⟩ := htr t h
      obtain ⟨m1, m2⟩ := item_meas hs hgood hok
      have hfin : ∫⁻ y in it.rangeAt supp R ρ X, dens (termAt kernel (readAt R X ρ) it (.fin y)) ≠ ⊤ := by
        have := s1 fun _ => 1
        simp only [mul_one, lintegral_const, one_mul] at this
        rw [hvol _ h1] at this
        rw [Item.rangeAt]
        have hp := hgood.prob
        rw [Item.params] at hp
        exact this ▸ measure_ne_top _ _
      obtain ⟨k1, -⟩ := trans_step h3 h4 h2 (lp := termAt kernel (readAt R X ρ) it) m1 hfin
      have e1 : ∀ z, termT kernel true tr R ρ X it (.fin z) = transformedLogprob (t.at (it.params R X ρ)) (termAt kernel (readAt R X ρ) it) true (.fin z) := fun z => by simp [termT, h]
      simp only [e1]
      refine Eq.trans ?_ ((k1 H).trans (by rw [hvol _ h1]))
      refine (s1 fun y => H (forwardFn tr R ρ X it y)).trans ?_
      rw [hvol _ h1]
      simp only [forwardFn, h]
      rfl
  · cases h : tr it.v with
    | none =>
      simp only [termT, h, Item.transRange]
      exact s2
    | some t =>
      obtain ⟨h1, h2, h3, h4⟩ := htr t h
      obtain ⟨m1, m2⟩ := item_meas hs hgood hok
      have hfin : ∫⁻ y in it.rangeAt supp R ρ X, dens (termAt kernel (readAt R X ρ) it (.fin y)) ≠ ⊤ := by
        have := s1 fun _ => 1
        simp only [mul_one, lintegral_const, one_mul] at this
        rw [hvol _ h1] at this
        rw [Item.rangeAt]
        have hp := hgood.prob
        rw [Item.params] at hp
        exact this ▸ measure_ne_top _ _
      have e1 : ∀ z, termT kernel true tr R ρ X it (.fin z) = transformedLogprob (t.at (it.params R X ρ)) (termAt kernel (readAt R X ρ) it) true (.fin z) := fun z => by simp [termT, h]
      simp only [e1]
      rw [hvol _ h1]
      exact (trans_step h3 h4 h2 (lp := termAt kernel (readAt R X ρ) it) m1 hfin).2

theorem refT_congr {tr : ℕ → Option VTransform} {X : (ℕ → ℝ) → ℕ → FVal} {ref : Di → Measure ℝ} {supp : Di → List FVal → Set ℝ} {R : ℕ → Prop} {ρ : ℕ → FVal} (l : List (Item Di))
    (τ : ℕ → ℝ) {φ ψ : (ℕ → ℝ) → ENNReal} (h : ∀ τ', (∀ i, i ∉ l.map (·.v) → τ' i = τ i) → φ τ' = ψ τ') : refT tr X ref supp R ρ l τ φ = refT tr X ref supp R ρ l τ ψ := by
  induction l generalizing τ with
  | nil => exact h τ fun _ _ => rfl
  | cons it l ih =>
    simp only [refT]
    refine lintegral_congr fun y => ih _ fun τ' hτ' => h τ' fun i hi => ?_
    simp only [List.map_cons, List.mem_cons, not_or] at hi
    rw [hτ' i hi.2, Function.update_of_ne hi.1]

theorem refT_const_mul {tr : ℕ → Option VTransform} {X : (ℕ → ℝ) → ℕ → FVal} {ref : Di → Measure ℝ} {supp : Di → List FVal → Set ℝ} {R : ℕ → Prop} {ρ : ℕ → FVal} (l : List (Item Di))
    (τ : ℕ → ℝ) {c : ENNReal} (hc : c ≠ ⊤) (φ : (ℕ → ℝ) → ENNReal) : refT tr X ref supp R ρ l τ (fun τ => c * φ τ) = c * refT tr X ref supp R ρ l τ φ := by
  induction l generalizing τ with
  | nil => rfl
  | cons it l ih =>
    simp only [refT, ih]
    rw [lintegral_const_mul' _ _ hc]

/-- Density factor of an item at the values `τ` on the transformed scale. -/
noncomputable def factorT (kernel : Di → FVal → List FVal → Except Err FVal) (tr : ℕ → Option VTransform) (X : (ℕ → ℝ) → ℕ → FVal) (R : ℕ → Prop) (ρ : ℕ → FVal) (τ : ℕ → ℝ) (it : Item Di) :
    ENNReal := dens (termT kernel true tr R ρ (X τ) it (.fin (τ it.v)))

/-- Parts of the graph of a closed item are closed. -/
theorem IsTower.closed {R : ℕ → Prop} {defs : ℕ → Option (Expr Di)} {e : Expr Di} {s : Source Di} {ls : List (Layer Di)} (h : IsTower R e s ls) (hc : Closed defs e) :
    (∀ i, Closed defs (s.args i)) ∧ ∀ ly ∈ ls, ∀ j, Closed defs (ly.args j) := by
  induction h with
  | rv => exact ⟨hc.2, by simp⟩
  | app i _ _ _ ih =>
    obtain ⟨a, b⟩ := ih (hc.2 i)
    refine ⟨a, fun ly hly => ?_⟩
    rcases List.mem_append.1 hly with hly | hly
    · exact b ly hly
    · rw [List.mem_singleton.1 hly]; exact hc.2

/-- The value of an item on the transformed scale. -/
theorem transValue_item {R : ℕ → Prop} {tr : ℕ → Option VTransform} {ρ X : ℕ → FVal} {it : Item Di} {e : Expr Di} (ht : IsTower R e it.source it.layers) {σ : ℕ → ℝ} {y : ℝ}
    (he : evalAt (Graph.asg σ) ρ e = .fin y) (hp : (List.ofFn fun i => evalAt (Graph.asg σ) ρ (it.source.args i)) = it.params R X ρ)
    (hplain : ∀ t, tr it.v = some t → it.layers ≠ [] → t.Plain) : transValue tr ρ σ it.v e = forwardFn tr R ρ X it y := by
  rw [transValue, forwardFn]
  cases h : tr it.v with
  | none => simp only [he]; rfl
  | some t =>
    simp only [he]
    by_cases hl : it.layers = []
    · have : (inputsOf e).map (evalAt (Graph.asg σ) ρ) = it.params R X ρ := by
        rw [← hp]
        clear hp hplain
        generalize it.source = s at ht
        rw [hl] at ht
        generalize hnil : ([] : List (Layer Di)) = ls at ht
        cases ht with
        | rv => simp only [inputsOf, List.map_ofFn]; rfl
        | app => simp at hnil
      rw [this]
    · rw [(hplain t h hl).forward _ _ (it.params R X ρ)]

theorem ancestralT {kernel : Di → FVal → List FVal → Except Err FVal} {law : Di → List FVal → Measure ℝ} {ref : Di → Measure ℝ} {supp : Di → List FVal → Set ℝ} {isInt : Di → Bool}
    (hvol : ∀ dist, isInt dist = false → ref dist = volume) {defs : ℕ → Option (Expr Di)} (hwf : WellFormed defs) {tr : ℕ → Option VTransform} {R : ℕ → Prop} {ρ : ℕ → FVal}
    {all : List (Item Di)} (hall : Listed defs isInt R all []) (hnd : (all.map (·.v)).Nodup) (hsrc : (all.map (·.source.id)).Nodup) {X : (ℕ → ℝ) → ℕ → FVal}
    (hX : X = fun τ => takeBack tr R ρ τ all (Graph.asg τ)) (τ₀ : ℕ → ℝ) (ψ : (ℕ → ℝ) → ENNReal) (l p : List (Item Di)) (σ τ : ℕ → ℝ) (hsplit : all = p ++ l)
    (h1 : ∀ it ∈ p, ∀ e, defs it.v = some e → ∀ σ' : ℕ → ℝ, (∀ it' ∈ p, σ' it'.source.id = σ it'.source.id) →
      evalAt (Graph.asg σ') ρ e = X τ it.v ∧ transValue tr ρ σ' it.v e = τ it.v)
    (hplain : ∀ it ∈ all, ∀ t, tr it.v = some t → it.layers ≠ [] → t.Plain) (h2 : ∀ u, u ∉ p.map (·.v) → τ u = τ₀ u) (hvalid : ValidT kernel law ref supp isInt tr X R ρ l τ) :
    refT tr X ref supp R ρ l τ (fun τ' => (l.map (factorT kernel tr X R ρ τ')).prod * ψ τ') = sampleE law ρ l σ fun σ' => ψ (transValues tr defs ρ (all.map (·.v)) τ₀ σ') := by
  induction l generalizing p σ τ with
  | nil =>
    simp only [refT, sampleE, List.map_nil, List.prod_nil, one_mul]
    congr 1
    funext u
    rw [List.append_nil] at hsplit
    rw [transValues]
    split_ifs with hu
    · rw [hsplit] at hu
      obtain ⟨it, hit, rfl⟩ := List.mem_map.1 hu
      obtain ⟨E, ⟨e, he, -⟩, -⟩ := hall.item (hsplit ▸ hit)
      simp only [he]
      exact (h1 it hit e he σ fun _ _ => rfl).2.symm
    · rw [hsplit] at hu
      exact h2 u hu
  | cons it l ih =>
    obtain ⟨hlp, hll⟩ := (hsplit ▸ hall).append
    obtain ⟨⟨e, he, htow⟩, hfloat, hdsrc, hdlay, hlist'⟩ := hll
    rw [List.nil_append] at hdsrc hdlay
    obtain ⟨hgood, hok, htr, hval'⟩ := hvalid
    have hcl : Closed defs e := (hwf _ _ he).2
    have hclosed := htow.closed hcl
    have hids : all.map (·.v) = p.map (·.v) ++ it.v :: l.map (·.v) := by rw [hsplit]; simp
    have hsid : it.source.id ∉ p.map (·.source.id) := by
      intro hm
      rw [hsplit, List.map_append, List.map_cons] at hsrc
      exact (List.nodup_append.1 hsrc).2.2 _ hm _ (by simp) rfl
    have hvid : it.v ∉ p.map (·.v) := by
      intro hm
      rw [hids] at hnd
      exact (List.nodup_append.1 hnd).2.2 _ hm _ (by simp) rfl
    have hvl : ∀ v, v ∈ p.map (·.v) ∨ v = it.v → v ∉ l.map (·.v) := by
      intro v hv hm
      rw [hids] at hnd
      rcases hv with hv | rfl
      · exact (List.nodup_append.1 hnd).2.2 _ hv _ (by simp only [List.mem_cons]; exact .inr hm) rfl
      · exact (List.nodup_cons.1 (List.nodup_append.1 hnd).2.1).1 hm
    -- the values before this item do not depend on those after
    have hloc : ∀ τ' : ℕ → ℝ, (∀ v ∈ p.map (·.v), τ' v = τ v) → ∀ v ∈ p.map (·.v), X τ' v = X τ v := by
      intro τ' hτ' v hv
      have hvr : v ∉ (it :: l).map (·.v) := by
        rw [List.map_cons, List.mem_cons, not_or]
        exact ⟨fun hh => hvid (hh ▸ hv), hvl v (.inl hv)⟩
      rw [hX]
      show takeBack tr R ρ τ' all _ v = takeBack tr R ρ τ all _ v
      rw [hsplit, takeBack_append, takeBack_append, takeBack_notMem hvr, takeBack_notMem hvr]
      exact takeBack_congr hlp (by simp) hτ' v (by simpa using hv)
    have hE : ∀ σ' : ℕ → ℝ, (∀ it' ∈ p, σ' it'.source.id = σ it'.source.id) → ∀ v e, v ∈ p.map (·.v) → defs v = some e → evalAt (Graph.asg σ') ρ e = X τ v := by
      intro σ' hσ' v e hv hve
      obtain ⟨it', hit', rfl⟩ := List.mem_map.1 hv
      exact (h1 it' hit' e hve σ' hσ').1
    set val := readAt (Di := Di) R (X τ) ρ with hvaldef
    have hpar : ∀ σ' : ℕ → ℝ, (∀ it' ∈ p, σ' it'.source.id = σ it'.source.id) → (List.ofFn fun i => evalAt (Graph.asg σ') ρ (it.source.args i)) = it.params R (X τ) ρ := by
      intro σ' hσ'
      rw [Item.params]
      congr 1
      funext i
      exact eval_read (hE σ' hσ') (hclosed.1 i) (hdsrc i)
    obtain ⟨s1, s2, s3⟩ := item_stepT (kernel := kernel) (law := law) (ref := ref) (supp := supp) (tr := tr) hvol htow.supported hfloat hgood hok htr
    -- the rest, as a function of the value of this variable
    set G : ℝ → ENNReal := fun z => refT tr X ref supp R ρ l (Function.update τ it.v z) fun τ' => (l.map (factorT kernel tr X R ρ τ')).prod * ψ τ' with hG
    have hsample : sampleE law ρ (it :: l) σ (fun σ' => ψ (transValues tr defs ρ (all.map (·.v)) τ₀ σ')) =
        ∫⁻ x, G (forwardFn tr R ρ (X τ) it (towerMap val it.layers x)) ∂(law it.source.dist (it.params R (X τ) ρ)) := by
      simp only [sampleE, hpar σ fun _ _ => rfl]
      refine lintegral_congr_ae ?_
      have hae : ∀ᵐ x ∂(law it.source.dist (it.params R (X τ) ρ)), x ∈ supp it.source.dist (it.params R (X τ) ρ) := by rw [ae_iff]; exact s3
      filter_upwards [hae] with x hx
      rw [hG]
      set y := towerMap val it.layers x with hy
      have hyr : y ∈ it.rangeAt supp R ρ (X τ) := ⟨x, hx, rfl⟩
      set z := forwardFn tr R ρ (X τ) it y with hz
      have hzr : z ∈ it.transRange tr supp R ρ (X τ) := by rw [transRange_eq]; exact ⟨y, hyr, rfl⟩
      have hloc1 : ∀ v ∈ p.map (·.v), X (Function.update τ it.v z) v = X τ v := hloc _ fun v hv => Function.update_of_ne (by rintro rfl; exact hvid hv) _ _
      have hXv : X (Function.update τ it.v z) it.v = .fin y := by
        have := takeBack_item (tr := tr) (R := R) (ρ := ρ) (τ := Function.update τ it.v z) hall (by simpa using hnd) (X := Graph.asg (Function.update τ it.v z)) (it := it) (by rw [hsplit]; simp)
        have hXe : ∀ τ', takeBack tr R ρ τ' all (Graph.asg τ') = X τ' := fun τ' => by rw [hX]
        rw [hXe, Function.update_self, params_congr hdsrc hloc1] at this
        rw [this]
        cases h : tr it.v with
        | none => simp only [hz, forwardFn, h]
        | some t =>
          obtain ⟨-, -, h3, -⟩ := htr t h
          obtain ⟨z', hz', e1, e2⟩ := h3.fwd y hyr
          have ez : z = z' := by
            have e1' : t.forward (.fin y) (it.params R (X τ) ρ) = .fin z' := Except.ok.inj e1
            simp only [hz, forwardFn, h, e1', realOf]
          rw [ez]
          exact Except.ok.inj e2
      refine (ih (p ++ [it]) (Function.update σ it.source.id x) (Function.update τ it.v z) (by rw [hsplit]; simp) ?_ ?_ ?_).symm
      · intro it' hit' e' he' σ' hσ'
        have hagree : ∀ it'' ∈ p, σ' it''.source.id = σ it''.source.id := by
          intro it'' hit''
          rw [hσ' it'' (by simp [hit'']), Function.update_of_ne]
          intro hh
          exact hsid (List.mem_map.2 ⟨it'', hit'', hh⟩)
        rcases List.mem_append.1 hit' with hit' | hit'
        · have hmem : it'.v ∈ p.map (·.v) := List.mem_map.2 ⟨it', hit', rfl⟩
          rw [Function.update_of_ne (fun hh : it'.v = it.v => hvid (hh ▸ hmem)), hloc1 _ hmem]
          exact h1 it' hit' e' he' σ' hagree
        · rw [List.mem_singleton.1 hit'] at he' ⊢
          rw [he] at he'
          cases he'
          rw [Function.update_self, hXv]
          have hev : evalAt (Graph.asg σ') ρ e = .fin y := by
            refine htow.eval (fun ly hly j hj => eval_read (hE σ' hagree) (hclosed.2 ly hly j) (hdlay ly hly j hj)) hok hx ?_
            show FVal.fin (σ' it.source.id) = _
            rw [hσ' it (by simp), Function.update_self]
          exact ⟨hev, transValue_item htow hev (hpar σ' hagree) fun t ht => hplain it (by rw [hsplit]; simp) t ht⟩
      · intro u hu
        simp only [List.map_append, List.map_cons, List.map_nil, List.mem_append, List.mem_singleton, not_or] at hu
        rw [Function.update_of_ne hu.2]
        exact h2 u hu.1
      · exact hval' _ hzr
    rw [hsample]
    refine Eq.trans ?_ (s1 G).symm
    simp only [refT]
    refine lintegral_congr_ae ?_
    filter_upwards [s2] with z hz
    rw [hG, ← refT_const_mul _ _ hz.ne]
    refine refT_congr _ _ fun τ' hτ' => ?_
    rw [List.map_cons, List.prod_cons, mul_assoc]
    congr 1
    have hτv : τ' it.v = z := by rw [hτ' it.v (hvl _ (.inr rfl)), Function.update_self]
    have hag : ∀ v, v ∈ p.map (·.v) → X τ' v = X τ v := hloc τ' fun v hv => by
      rw [hτ' v (hvl v (.inl hv)), Function.update_of_ne (by rintro rfl; exact hvid hv)]
    have hterm : ∀ y, termAt kernel (readAt R (X τ') ρ) it y = termAt kernel val it y := fun y =>
      termAt_congr kernel it (fun ly hly j hj => readAt_congr (hdlay ly hly j hj) hag) (fun i => readAt_congr (hdsrc i) hag) y
    have hterm' : termAt kernel (readAt R (X τ') ρ) it = termAt kernel val it := funext hterm
    rw [factorT, hτv, termT, termT, params_congr hdsrc hag, hterm']

/-! ## The terms returned -/

theorem VTransform.Plain.at_eq {t : VTransform} (h : t.Plain) (a b : List FVal) : t.at a = t.at b := by
  simp only [VTransform.at, RVTransform.mk.injEq]
  exact ⟨funext fun y => by rw [h.forward y a b], funext fun y => by rw [h.backward y a b], funext fun y => by rw [h.logJacDet y a b]⟩

theorem wanted_eq {reqs : Dict ℕ (Option (TransVals.Req VTransform))} {registered : Di → Option VTransform} {defs : ℕ → Option (Expr Di)} {tr : ℕ → Option VTransform}
    (h : Requested reqs registered defs tr) : wanted reqs registered defs = tr := by
  funext v
  refine Option.ext fun t => ?_
  rw [h v t]
  simp only [wanted, TransVals.transformValues, Bool.not_true, Bool.false_eq_true, if_false]
  cases hr : Dict.get? reqs v with
  | none => simp
  | some o =>
    cases o with
    | none => simp
    | some q =>
      cases q with
      | transform t' => simp
      | default =>
        simp only [Option.join_some, Option.some.injEq, reduceCtorEq, false_or, true_and]
        cases hd : defs v with
        | none => simp
        | some e =>
          cases e with
          | rv id dist n args => exact ⟨fun h => ⟨id, dist, n, args, rfl, h⟩, fun ⟨_, _, _, _, h1, h2⟩ => by cases h1; exact h2⟩
          | _ => simp

theorem nodes_replace (rep : Expr Di → Expr Di) (ev : Expr Di → FVal) (ls : List (Layer Di)) :
    nodes ev (ls.map fun l => { l with args := fun i => rep (l.args i) }) = nodes (fun e => ev (rep e)) ls := by
  induction ls with
  | nil => rfl
  | cons l ls ih =>
    have h : List.mapM (Layer.node ev) (ls.map fun l => { l with args := fun i => rep (l.args i) }) = List.mapM (Layer.node fun e => ev (rep e)) ls := ih
    simp only [nodes, List.map_cons, List.mapM_cons, h]
    rfl

theorem Meas.lp_replace (kernel : Di → FVal → List FVal → Except Err FVal) (rep : Expr Di → Expr Di) (ev : Expr Di → FVal) (m : Meas Di) :
    (m.replace rep).lp kernel ev = m.lp kernel fun e => ev (rep e) := by
  funext y
  simp only [Meas.lp, Meas.replace, nodes_replace]

theorem mentions_replace {R E : ℕ → Prop} {d : Dict ℕ ℕ} (hR : R = (· ∈ Dict.keys d)) {y : ℕ} {a : Expr Di} (h : DetBy R E a) (hm : Mentions y (replaceValued d a)) :
    UsesInput y a ∨ ∃ w, E w ∧ Dict.get? d w = some y := by
  subst hR
  induction a with
  | const c => exact hm.elim
  | inp i => exact .inl hm
  | app id op n args ih =>
    rcases h with h | h
    · obtain ⟨v, hv⟩ := Dict.get?_isSome.2 h.1
      simp only [replaceValued, hv] at hm
      have : v = y := hm
      exact .inr ⟨id, h.2, this ▸ hv⟩
    · simp only [replaceValued, Dict.get?_eq_none.2 h.1] at hm
      obtain ⟨j, hj⟩ := hm
      rcases ih j hj (h.2 j) with h | h
      · exact .inl ⟨j, h⟩
      · exact .inr h
  | rv id dist n args ih =>
    obtain ⟨v, hv⟩ := Dict.get?_isSome.2 h.1
    simp only [replaceValued, hv] at hm
    have : v = y := hm
    exact .inr ⟨id, h.2, this ▸ hv⟩
  | valued r v => exact h.elim

theorem IsTower.mentions {R E : ℕ → Prop} {d : Dict ℕ ℕ} (hR : R = (· ∈ Dict.keys d)) {y : ℕ} {e : Expr Di} {s : Source Di} {ls : List (Layer Di)} (h : IsTower R e s ls)
    (hs : ∀ i, DetBy R E (s.args i)) (hl : ∀ ly ∈ ls, ∀ j, j ≠ ly.idx → DetBy R E (ly.args j)) {a : Expr Di} (ha : a ∈ nodeInputs (cloneOf d e)) (hm : Mentions y a) :
    UsesInput y e ∨ ∃ w, E w ∧ Dict.get? d w = some y := by
  induction h generalizing a with
  | rv id dist n args =>
    obtain ⟨i, rfl⟩ := (List.mem_ofFn' _ _).1 ha
    rcases mentions_replace hR (hs i) hm with h | h
    · exact .inl ⟨i, h⟩
    · exact .inr h
  | @app id op n args s ls i _ hv ht ih =>
    obtain ⟨j, rfl⟩ := (List.mem_ofFn' _ _).1 ha
    by_cases hj : j = i
    · subst hj
      have hid : ∃ id, nodeId (args j) = some id := by
        generalize args j = a at ht
        cases ht <;> exact ⟨_, rfl⟩
      obtain ⟨id', hid⟩ := hid
      simp only at hm
      rw [replaceValued_eq_clone hid fun hk => hv ⟨id', hid, by rw [hR]; exact hk⟩] at hm
      have hsub : ∃ b ∈ nodeInputs (cloneOf d (args j)), Mentions y b := by
        generalize args j = a at ht hm
        cases ht with
        | rv => obtain ⟨k, hk⟩ := hm; exact ⟨_, (List.mem_ofFn' _ _).2 ⟨k, rfl⟩, hk⟩
        | app => obtain ⟨k, hk⟩ := hm; exact ⟨_, (List.mem_ofFn' _ _).2 ⟨k, rfl⟩, hk⟩
      obtain ⟨b, hb, hm'⟩ := hsub
      rcases ih hs (fun ly hly => hl ly (List.mem_append_left _ hly)) hb hm' with h | h
      · exact .inl ⟨j, h⟩
      · exact .inr h
    · rcases mentions_replace hR (hl _ (List.mem_append_right _ (List.mem_singleton.2 rfl)) j hj) hm with h | h
      · exact .inl ⟨j, h⟩
      · exact .inr h

theorem Listed.split {defs : ℕ → Option (Expr Di)} {isInt : Di → Bool} {R : ℕ → Prop} {l : List (Item Di)} (h : Listed defs isInt R l []) (hnd : (l.map (·.v)).Nodup) {it : Item Di}
    (hit : it ∈ l) :
    ∃ E : ℕ → Prop, (∀ w, E w → (l.map (·.v)).idxOf w < (l.map (·.v)).idxOf it.v) ∧ (∃ e, defs it.v = some e ∧ IsTower R e it.source it.layers) ∧
      (it.layers ≠ [] → isInt it.source.dist = false) ∧ (∀ i, DetBy R E (it.source.args i)) ∧ ∀ ly ∈ it.layers, ∀ j, j ≠ ly.idx → DetBy R E (ly.args j) := by
  obtain ⟨p, q, rfl⟩ := List.append_of_mem hit
  obtain ⟨-, h1, h2, h3, h4, -⟩ := h.append
  refine ⟨(· ∈ p.map (·.v)), fun w hw => ?_, h1, h2, by simpa using h3, by simpa using h4⟩
  rw [List.map_append, List.map_cons] at hnd ⊢
  have hv : it.v ∉ p.map (·.v) := fun hm => (List.nodup_append.1 hnd).2.2 _ hm _ (by simp) rfl
  rw [List.idxOf_append_of_mem hw, List.idxOf_append_of_notMem hv, List.idxOf_cons_self]
  exact Nat.lt_of_lt_of_le (List.idxOf_lt_length_of_mem hw) (by simp)

/-- The terms: in every evaluation, the term of an item is the one described by `termT`. -/
theorem term_eval {isInt : Di → Bool} {ρ : ℕ → FVal} {ω : ℕ → Di → List FVal → FVal} {defs : ℕ → Option (Expr Di)}
    {l : List (Item Di)} (hnd : (l.map (·.v)).Nodup) (hlist : Listed defs isInt (· ∈ l.map (·.v)) l [])
    {d : Dict ℕ ℕ} (hR : (· ∈ l.map (·.v)) = (· ∈ Dict.keys d)) {tr : ℕ → Option VTransform} (hplain : ∀ it ∈ l, ∀ t, tr it.v = some t → it.layers ≠ [] → t.Plain)
    {tv x : ℕ → ℕ} (hx : ∀ v y, Dict.get? d v = some y → x v = y) {order : List ℕ} (horder : order.Perm (l.map (·.v)))
    (hinj : ∀ v w y, Dict.get? d v = some y → Dict.get? d w = some y → v = w) (htv : ∀ v w y, v ∈ l.map (·.v) → Dict.get? d w = some y → tv v ≠ y)
    {env : ℕ → FVal} {τ : ℕ → ℝ} (henv : ∀ v y, Dict.get? d v = some y → tr v = none → env y = .fin (τ v)) (henvT : ∀ v ∈ l.map (·.v), (tr v).isSome → env (tv v) = .fin (τ v))
    (hinp : ∀ v e, v ∈ l.map (·.v) → defs v = some e → ∀ i, UsesInput i e → env i = ρ i ∧ ∀ w y, Dict.get? d w = some y → i ≠ y)
    (hwf : WellFormed defs) {ins : ℕ → List (Expr Di)} {lost : ℕ → Bool}
    (hins : ∀ v e, defs v = some e → ins v = nodeInputs (cloneOf d e) ∨ ins v = nodeInputs e ∧ ∀ t, tr v = some t → t.Plain) (kernel : Di → FVal → List FVal → Except Err FVal) (uj : Bool)
    {it : Item Di} (hit : it ∈ l) (m : Meas Di) (hm : m = ⟨it.source.id, it.source.dist, it.source.n, fun i => replaceValued d (it.source.args i), it.layers.map (conv d)⟩) :
    TTerm.eval kernel uj env ω ⟨valueVar tr x tv it.v, m.replace (visitAll tr x tv ins order), if lost it.v then none else (tr it.v).map fun t => (t, (ins it.v).map (visitAll tr x tv ins order)),
        if lost it.v then (tr it.v).map fun _ => visitAll tr x tv ins order (.inp (x it.v)) else none⟩ =
      termT kernel (uj && !lost it.v) tr (· ∈ l.map (·.v)) ρ (takeBack tr (· ∈ l.map (·.v)) ρ τ l (Graph.asg τ)) it (.fin (τ it.v)) := by
  classical
  set X := takeBack tr (· ∈ l.map (·.v)) ρ τ l (Graph.asg τ) with hXdef
  have hget : ∀ v ∈ l.map (·.v), Dict.get? d v = some (x v) := by
    intro v hv
    obtain ⟨y, hy⟩ := Dict.get?_isSome.2 ((congrFun hR v).mp hv)
    rw [hx v y hy]; exact hy
  have hxinj : ∀ v ∈ l.map (·.v), ∀ w ∈ l.map (·.v), x v = x w → v = w := fun v hv w hw h => hinj v w (x v) (hget v hv) (h ▸ hget w hw)
  -- the values taken back, in the place of the value variables
  let env' : ℕ → FVal := fun y => if h : ∃ v, v ∈ l.map (·.v) ∧ (tr v).isSome ∧ x v = y then X h.choose else env y
  have henv1 : ∀ v ∈ l.map (·.v), (tr v).isSome → env' (x v) = X v := by
    intro v hv ht
    have h : ∃ w, w ∈ l.map (·.v) ∧ (tr w).isSome ∧ x w = x v := ⟨v, hv, ht, rfl⟩
    simp only [env', h, dif_pos]
    rw [hxinj _ h.choose_spec.1 v hv h.choose_spec.2.2]
  have henv2 : ∀ y, (∀ v ∈ l.map (·.v), (tr v).isSome → y ≠ x v) → env' y = env y := by
    intro y hy
    have h : ¬ ∃ v, v ∈ l.map (·.v) ∧ (tr v).isSome ∧ x v = y := fun ⟨v, h1, h2, h3⟩ => hy v h1 h2 h3.symm
    simp only [env', h, dif_neg, not_false_eq_true]
  have hXitem : ∀ it ∈ l, X it.v = match tr it.v with
      | none => .fin (τ it.v)
      | some t => t.backward (.fin (τ it.v)) (it.params (· ∈ l.map (·.v)) X ρ) := fun it hit => takeBack_item hlist (by simpa using hnd) hit
  have hXd : ∀ v y, Dict.get? d v = some y → env' y = X v := by
    intro v y hy
    have hv : v ∈ l.map (·.v) := (congrFun hR v).mpr (Dict.get?_isSome.1 ⟨y, hy⟩)
    rw [← hx v y hy]
    by_cases ht : (tr v).isSome
    · exact henv1 v hv ht
    · have ht' : tr v = none := by simpa using ht
      rw [henv2 _ fun w hw hwt hh => ht (by rw [hxinj v hv w hw hh]; exact hwt), henv v (x v) (hget v hv) ht']
      obtain ⟨it, hit, rfl⟩ := List.mem_map.1 hv
      rw [hXitem it hit, ht']
  have hev : ∀ it ∈ l, ∀ e, defs it.v = some e → ∀ {E : ℕ → Prop} a, DetBy (· ∈ l.map (·.v)) E a → (∀ i, UsesInput i a → UsesInput i e) →
      IR.eval env' ω (cleanup (replaceValued d a)) = readAt (· ∈ l.map (·.v)) X ρ a := by
    intro it hit e he E a ha hi
    refine eval_cleanup hR hXd (fun i hi' => ?_) ha
    obtain ⟨h1, h2⟩ := hinp it.v e (List.mem_map.2 ⟨it, hit, rfl⟩) he i (hi i hi')
    rw [henv2 i fun v hv _ hh => h2 v (x v) (hget v hv) hh, h1]
  have hparams : ∀ it ∈ l, ∀ t, tr it.v = some t → ((ins it.v).map fun a => IR.eval env' ω (cleanup a)) = it.params (· ∈ l.map (·.v)) X ρ ∨ t.Plain := by
    intro it hit t ht
    by_cases hl : it.layers = []
    · obtain ⟨E, -, ⟨e, he, htow⟩, -, hs, -⟩ := hlist.split hnd hit
      rcases hins _ _ he with hin | ⟨-, hp⟩
      swap
      · exact .inr (hp t ht)
      left
      have : ins it.v = List.ofFn fun i => replaceValued d (it.source.args i) := by
        rw [hin]
        clear hs he
        generalize it.source = s at htow
        rw [hl] at htow
        generalize hnil : ([] : List (Layer Di)) = ls at htow
        cases htow with
        | rv => rfl
        | app => simp at hnil
      rw [this, List.map_ofFn, Item.params]
      congr 1
      funext i
      exact hev it hit e he _ (hs i) fun k hk => htow.usesInput.1 i hk
    · exact .inr (hplain it hit t ht hl)
  have hrep : ∀ e, IR.eval env ω (cleanup (visitAll tr x tv ins order e)) = IR.eval env' ω (cleanup e) := by
    refine eval_visitAll (rank := (l.map (·.v)).idxOf) ?_ ?_ horder ?_ ?_
    · intro v hv a ha w hw _ hm
      obtain ⟨it, hit, rfl⟩ := List.mem_map.1 hv
      obtain ⟨E, hE, ⟨e, he, htow⟩, -, hs, hl⟩ := hlist.split hnd hit
      rcases hins _ _ he with hin | ⟨hin, -⟩
      swap
      · rw [hin] at ha
        have hu : UsesInput (x w) e := by
          have hc := (hwf _ _ he).2
          cases e with
          | app id op n args =>
            obtain ⟨j, rfl⟩ := (List.mem_ofFn' _ _).1 ha
            exact ⟨j, (hc.2 j).usesInput hm⟩
          | rv id dist n args =>
            obtain ⟨j, rfl⟩ := (List.mem_ofFn' _ _).1 ha
            exact ⟨j, (hc.2 j).usesInput hm⟩
          | _ => simp [nodeInputs] at ha
        exact absurd rfl ((hinp _ _ hv he _ hu).2 w (x w) (hget w hw))
      rw [hin] at ha
      rcases htow.mentions hR hs hl ha hm with h | ⟨w', h1, h2⟩
      · exact absurd rfl ((hinp _ _ hv he _ h).2 w (x w) (hget w hw))
      · rw [← hinj w' w (x w) h2 (hget w hw)]
        exact hE w' h1
    · intro v hv w hw
      exact htv v w (x w) hv (hget w hw)
    · intro y hy
      exact (henv2 y hy).symm
    · intro v hv t ht
      obtain ⟨it, hit, rfl⟩ := List.mem_map.1 hv
      have h1 : env' (tv it.v) = .fin (τ it.v) := by
        rw [henv2 _ fun w hw _ => htv it.v w (x w) hv (hget w hw), henvT it.v hv (by simp [ht])]
      rw [henv1 it.v hv (by simp [ht]), hXitem it hit, ht, h1]
      simp only
      rcases hparams it hit t ht with h | h
      · rw [h]
      · exact h.backward _ _ _
  -- the term
  obtain ⟨E, -, ⟨e, he, htow⟩, -, hs, hl⟩ := hlist.split hnd hit
  have hlp : (m.replace (visitAll tr x tv ins order)).lp kernel (fun e => IR.eval env ω (cleanup e)) = termAt kernel (readAt (· ∈ l.map (·.v)) X ρ) it := by
    rw [Meas.lp_replace]
    simp only [hrep]
    funext y
    rw [← termAt_congr kernel it (ev := fun a => IR.eval env' ω (cleanup (replaceValued d a))) (fun ly hly j hj => hev it hit e he _ (hl ly hly j hj) fun i hi => htow.usesInput.2 ly hly j hi)
      (fun i => hev it hit e he _ (hs i) fun k hk => htow.usesInput.1 i hk), hm]
    simp only [Meas.lp, termAt, nodes_conv]
    rfl
  have hv : it.v ∈ l.map (·.v) := List.mem_map.2 ⟨it, hit, rfl⟩
  simp only [TTerm.eval, termT]
  cases ht : tr it.v with
  | none =>
    simp only [Option.map_none, hlp, valueVar, ht, Option.isSome_none, Bool.false_eq_true, if_false, ite_self]
    rw [henv it.v (x it.v) (hget _ hv) ht]
  | some t =>
    cases hlost : lost it.v with
    | true =>
      have e0 : IR.eval env ω (cleanup (visitAll tr x tv ins order (.inp (x it.v)))) = t.backward (.fin (τ it.v)) (it.params (· ∈ l.map (·.v)) X ρ) := by
        rw [hrep]
        show env' (x it.v) = _
        rw [henv1 it.v hv (by simp [ht]), hXitem it hit, ht]
      simp only [Option.map_some, hlp, if_true, e0, Bool.not_true, Bool.and_false]
      simp only [transformedLogprob, VTransform.at, bind, Except.bind, Bool.false_eq_true, if_false]
      generalize termAt kernel _ it _ = r
      cases r <;> rfl
    | false =>
    simp only [Bool.false_eq_true, if_false, Bool.not_false, Bool.and_true]
    simp only [Option.map_some, hlp, valueVar, ht, Option.isSome_some, if_true, List.map_map]
    rw [henvT it.v hv (by simp [ht])]
    have e1 : (ins it.v).map ((fun e => IR.eval env ω (cleanup e)) ∘ visitAll tr x tv ins order) = (ins it.v).map fun a => IR.eval env' ω (cleanup a) :=
      List.map_congr_left fun a _ => hrep a
    rw [e1]
    rcases hparams it hit t ht with h | h
    · rw [h]
    · rw [h.at_eq _ (it.params (· ∈ l.map (·.v)) X ρ)]

/-! ## What `conditional_logprob` and `joint_logprob` return -/

theorem keys_values {rvs clones : List ℕ} (hc : clones.length = rvs.length) (realized : Dict ℕ ℕ) (v : ℕ) :
    v ∈ Dict.keys (rvValues rvs clones realized) ↔ v ∈ rvs ∨ v ∈ Dict.keys realized := by
  rw [rvValues, Dict.mem_keys_update, Dict.mem_keys_ofList, List.map_fst_zip hc.ge]

theorem get?_map_key {α : Type} (d : Dict ℕ ℕ) (f : ℕ → α) {v : ℕ} (hv : v ∈ Dict.keys d) : Dict.get? (d.map fun p => (p.1, f p.1)) v = some (f v) := by
  induction d with
  | nil => simp [Dict.keys] at hv
  | cons p d ih =>
    simp only [List.map_cons, Dict.get?]
    by_cases h : p.1 = v
    · simp [h]
    · rw [if_neg h]
      refine ih ?_
      simp only [Dict.keys, List.map_cons, List.mem_cons] at hv
      rcases hv with hv | hv
      · exact absurd hv.symm h
      · exact hv

/-- The terms and value variables, for a model that can be listed. -/
theorem conditionalT_ok {isInt : Di → Bool} {defs : ℕ → Option (Expr Di)} (hwf : WellFormed defs) {l : List (Item Di)} (hne : l ≠ [])
    (hlist : Listed defs isInt (· ∈ l.map (·.v)) l []) {rvs clones : List ℕ} (hc : clones.length = rvs.length) {realized : Dict ℕ ℕ}
    (hmem : ∀ v, v ∈ l.map (·.v) ↔ v ∈ rvs ∨ v ∈ Dict.keys realized) {S : ℕ → Bool} (hrun : Steps isInt (outputs defs (rvValues rvs clones realized)) (fun _ => false) S)
    (hF : Final isInt (outputs defs (rvValues rvs clones realized)) S) {reqs : Dict ℕ (Option (TransVals.Req VTransform))} {registered : Di → Option VTransform}
    (hkeys : ∀ v ∈ Dict.keys reqs, v ∈ l.map (·.v)) (tv : ℕ → ℕ) (order : List ℕ) :
    ∃ t : ℕ → TTerm Di,
      conditionalT S defs reqs registered tv order rvs clones realized =
        .ok ((rvValues rvs clones realized).map fun p => (p.1, t p.1),
          ((firstOcc rvs).filter (· ∉ Dict.keys realized)).map (valueVar (wanted reqs registered defs) (fun v => (Dict.get? (rvValues rvs clones realized) v).getD 0) tv)) ∧
      ∀ it ∈ l, ∀ rep, rep = visitAll (wanted reqs registered defs) (fun v => (Dict.get? (rvValues rvs clones realized) v).getD 0) tv
          (insAt defs (rvValues rvs clones realized)) order →
        t it.v = ⟨valueVar (wanted reqs registered defs) (fun v => (Dict.get? (rvValues rvs clones realized) v).getD 0) tv it.v,
          Meas.replace rep ⟨it.source.id, it.source.dist, it.source.n, fun i => replaceValued (rvValues rvs clones realized) (it.source.args i),
            it.layers.map (conv (rvValues rvs clones realized))⟩,
          if innerFirst defs (rvValues rvs clones realized) it.v then none
          else (wanted reqs registered defs it.v).map fun t => (t, (insAt defs (rvValues rvs clones realized) it.v).map rep),
          if innerFirst defs (rvValues rvs clones realized) it.v then
            (wanted reqs registered defs it.v).map fun _ => rep (.inp ((Dict.get? (rvValues rvs clones realized) it.v).getD 0))
          else none⟩ := by
  classical
  set d := rvValues rvs clones realized with hd
  have hR : (· ∈ l.map (·.v)) = (· ∈ Dict.keys d) := by
    funext v
    rw [eq_iff_iff, hmem, keys_values hc]
  have hI := Inv.steps hwf inv_start hrun
  have hitem : ∀ v ∈ Dict.keys d, ∃ it ∈ l, it.v = v := fun v hv => List.mem_map.1 ((congrFun hR v).mpr hv)
  -- every variable with a value is measurable
  have hinfo : ∀ it ∈ l, ∃ e, defs it.v = some e ∧ isMeas S (cloneOf d e) = true ∧
      IR.measOf S (cloneOf d e) = some ⟨it.source.id, it.source.dist, it.source.n, fun i => replaceValued d (it.source.args i), it.layers.map (conv d)⟩ := by
    intro it hit
    obtain ⟨E, ⟨e, he, ht⟩, hf, -, hl⟩ := hlist.item hit
    have hder : ∃ dist, Derived (· ∈ l.map (·.v)) isInt e dist := ⟨_, ht.derived hf fun ly hly j hj => (hl ly hly j hj).determined⟩
    have hv : it.v ∈ Dict.keys d := (congrFun hR it.v).mp (List.mem_map.2 ⟨it, hit, rfl⟩)
    have hm : isMeas S (cloneOf d e) = true := (C93_converted hwf hrun hF hv he).2 (by rw [← hR]; exact hder)
    exact ⟨e, he, hm, ht.measOf hR hI (hwf _ _ he).2 (fun ly hly j hj => (hl ly hly j hj).determined) hm⟩
  let want := wanted reqs registered defs
  let x := fun v => (Dict.get? d v).getD 0
  let ins := insAt defs d
  let B := backendT S defs d reqs registered tv order
  have hlp : ∀ it ∈ l, B.logprob it.v [valueVar want x tv it.v] = .ok [⟨valueVar want x tv it.v, Meas.replace (visitAll want x tv ins order)
      ⟨it.source.id, it.source.dist, it.source.n, fun i => replaceValued d (it.source.args i), it.layers.map (conv d)⟩,
      if innerFirst defs d it.v then none else (want it.v).map fun t => (t, (ins it.v).map (visitAll want x tv ins order)),
      if innerFirst defs d it.v then (want it.v).map fun _ => visitAll want x tv ins order (.inp (x it.v)) else none⟩] := by
    intro it hit
    obtain ⟨e, he, -, hmo⟩ := hinfo it hit
    simp only [B, backendT, he, hmo, ins, want, x]
    cases innerFirst defs d it.v <;> rfl
  obtain ⟨it₀, hit₀⟩ := List.exists_mem_of_ne_nil l hne
  have hex : ∀ v, ∃ t, v ∈ Dict.keys d → B.logprob v [valueVar want x tv v] = .ok [t] := by
    intro v
    by_cases hv : v ∈ Dict.keys d
    · obtain ⟨it, hit, rfl⟩ := hitem v hv
      exact ⟨_, fun _ => hlp it hit⟩
    · exact ⟨⟨0, ⟨it₀.source.id, it₀.source.dist, it₀.source.n, it₀.source.args, []⟩, none, none⟩, fun h => absurd h hv⟩
  choose t ht using hex
  refine ⟨t, ?_, ?_⟩
  · have := conditional_simple (B := B) (rvs := rvs) (clones := clones) (realized := realized) (d := d) hd (val := valueVar want x tv) (base := valueVar want x tv) (t := t)
      (by
        intro v hv
        obtain ⟨it, hit, rfl⟩ := hitem v hv
        obtain ⟨e, he, -⟩ := hinfo it hit
        simp [B, backendT, he])
      (fun _ _ => rfl)
      (by
        have : ((Dict.keys reqs).all fun v => v ∈ Dict.keys d) = true := by
          rw [List.all_eq_true]
          intro v hv
          simpa using (congrFun hR v).mp (hkeys v hv)
        simp only [B, backendT, this, if_true, want, x])
      (by
        intro v hv
        obtain ⟨it, hit, rfl⟩ := hitem v hv
        obtain ⟨e, he, hm, -⟩ := hinfo it hit
        simp [B, backendT, he, hm]) ht
    have hk : (Dict.keys d).filter (· ∉ Dict.keys realized) = (firstOcc rvs).filter (· ∉ Dict.keys realized) := by
      rw [hd, rvValues, keys_filter_update _ _ _ (by intro k hk; simpa using hk), keys_ofList, List.map_fst_zip hc.ge]
    rw [hk] at this
    exact this
  · rintro it hit rep rfl
    have hv : it.v ∈ Dict.keys d := (congrFun hR it.v).mp (List.mem_map.2 ⟨it, hit, rfl⟩)
    have := (ht it.v hv).symm.trans (hlp it hit)
    simp only [Except.ok.injEq, List.cons.injEq, and_true] at this
    exact this

/-- The factor of an item at values taken back, with or without Jacobian term. -/
theorem dens_evalJointT (kernel : Di → FVal → List FVal → Except Err FVal) {S : ℕ → Bool} {defs : ℕ → Option (Expr Di)} {reqs : Dict ℕ (Option (TransVals.Req VTransform))}
    {registered : Di → Option VTransform} {tv : ℕ → ℕ} {order rvs clones : List ℕ} {realized : Dict ℕ ℕ} {terms : Dict ℕ (TTerm Di)} {vvs : List ℕ} (hne : terms ≠ [])
    (h : conditionalT S defs reqs registered tv order rvs clones realized = .ok (terms, vvs)) :
    ∃ j, jointT S defs reqs registered tv order rvs clones realized = .ok (some (j, vvs)) ∧
      ∀ uj ρ ω, dens (evalJointT kernel uj ρ ω j) = (terms.map fun p => dens (p.2.eval kernel uj ρ ω)).prod := by
  have h' : conditionalLogprob (backendT S defs (rvValues rvs clones realized) reqs registered tv order) rvs clones realized = .ok (terms, vvs) := h
  rw [jointT, jointLogprob, h']
  match terms, hne with
  | [(v, t)], _ => exact ⟨_, rfl, fun uj ρ ω => by simp [evalJointT]⟩
  | a :: b :: l, _ =>
    refine ⟨_, rfl, fun uj ρ ω => ?_⟩
    rw [evalJointT, dens_sumE, List.map_map, Dict.values, List.map_map]
    rfl

/-- The joint term is, in every such environment, the product of the factors of the items. -/
theorem joint_factors {isInt : Di → Bool} {defs : ℕ → Option (Expr Di)} {l : List (Item Di)} {rvs clones : List ℕ} {realized : Dict ℕ ℕ}
    {reqs : Dict ℕ (Option (TransVals.Req VTransform))} {registered : Di → Option VTransform} {tr : ℕ → Option VTransform} {tv : ℕ → ℕ} {order : List ℕ}
    (hs : Setting isInt defs l rvs clones realized reqs registered tr tv order) {S : ℕ → Bool} (hrun : Steps isInt (outputs defs (rvValues rvs clones realized)) (fun _ => false) S)
    (hF : Final isInt (outputs defs (rvValues rvs clones realized)) S) (kernel : Di → FVal → List FVal → Except Err FVal) :
    ∃ j, jointT S defs reqs registered tv order rvs clones realized =
        .ok (some (j, ((firstOcc rvs).filter (· ∉ Dict.keys realized)).map fun v => if (tr v).isSome then tv v else (Dict.get? (rvValues rvs clones realized) v).getD 0)) ∧
      ∀ uj ρ ω τ env, Env defs l (rvValues rvs clones realized) tr tv ρ τ env →
        dens (evalJointT kernel uj env ω j) =
          (l.map fun it => dens (termT kernel (uj && !innerFirst defs (rvValues rvs clones realized) it.v) tr (· ∈ l.map (·.v)) ρ
            (takeBack tr (· ∈ l.map (·.v)) ρ τ l (Graph.asg τ)) it (.fin (τ it.v)))).prod := by
  obtain ⟨t, hcond, ht⟩ := conditionalT_ok hs.wf hs.ne hs.listed hs.length hs.mem hrun hF (registered := registered) hs.keys tv order
  rw [wanted_eq hs.requested] at hcond ht
  set d := rvValues rvs clones realized with hd
  have hR : (· ∈ l.map (·.v)) = (· ∈ Dict.keys d) := by
    funext v
    rw [eq_iff_iff, hs.mem, keys_values hs.length]
  have hkn : (Dict.keys d).Nodup := rvValues_nodup rvs clones realized
  have hkp : (Dict.keys d).Perm (l.map (·.v)) := (List.perm_ext_iff_of_nodup hkn hs.nodup).2 fun v => (iff_of_eq (congrFun hR v)).symm
  have hdne : (d.map fun p => (p.1, t p.1)) ≠ [] := by
    intro h
    have h1 := hkp.length_eq
    rw [List.map_eq_nil_iff] at h
    rw [h] at h1
    simp only [Dict.keys, List.map_nil, List.length_nil, List.length_map] at h1
    exact hs.ne (List.length_eq_zero_iff.1 h1.symm)
  obtain ⟨j, hj, hdens⟩ := dens_evalJointT kernel hdne hcond
  refine ⟨j, hj, fun uj ρ ω τ env henv => ?_⟩
  rw [hdens, List.map_map]
  have e1 : (d.map ((fun p : ℕ × TTerm Di => dens (p.2.eval kernel uj env ω)) ∘ fun p => (p.1, t p.1))) = (Dict.keys d).map fun v => dens ((t v).eval kernel uj env ω) := by
    rw [Dict.keys, List.map_map]; rfl
  rw [e1, (hkp.map _).prod_eq, List.map_map]
  congr 1
  refine List.map_congr_left fun it hit => ?_
  show dens ((t it.v).eval kernel uj env ω) = _
  rw [ht it hit _ rfl]
  congr 1
  exact term_eval hs.nodup hs.listed hR hs.plain (x := fun v => (Dict.get? d v).getD 0) (fun v y h => by simp [h]) hs.order hs.inj hs.fresh henv.kept henv.new henv.inputs
    hs.wf (lost := innerFirst defs d) (fun v e h => by
      cases hi : innerFirst defs d v with
      | false => exact .inl (by simp [insAt, hi, insOf, h])
      | true => exact .inr ⟨by simp [insAt, hi, h], fun t ht => hs.inside v t ht ((innerFirst_iff hkn).1 hi)⟩) kernel uj hit _ rfl

/-- **C95** (partial) For every model built of random variables and invertible functions, every run of the rewriters and every choice of transforms, if a transformed variable that is given through other
variables with values comes before the variables given through it: the joint term of `joint_logprob` with `TransformValuesRewrite` is the density of the transformed draws.  Its integral over the values on the transformed scales, times any function of them, is the mean of the function at
the forward transforms of the drawn values.  The value variables are returned in the order of the arguments; for transformed variables it is the new one. -/
theorem C95_joint_density_partial (kernel : Di → FVal → List FVal → Except Err FVal) (law : Di → List FVal → Measure ℝ) (ref : Di → Measure ℝ) (supp : Di → List FVal → Set ℝ) {isInt : Di → Bool}
    (hvol : ∀ dist, isInt dist = false → ref dist = volume) (ρ : ℕ → FVal) (ω : ℕ → Di → List FVal → FVal) {defs : ℕ → Option (Expr Di)}
    {l : List (Item Di)} (hsrc : (l.map (·.source.id)).Nodup) {rvs clones : List ℕ} {realized : Dict ℕ ℕ}
    {reqs : Dict ℕ (Option (TransVals.Req VTransform))} {registered : Di → Option VTransform} {tr : ℕ → Option VTransform} {tv : ℕ → ℕ} {order : List ℕ}
    (hs : Setting isInt defs l rvs clones realized reqs registered tr tv order) {S : ℕ → Bool} (hrun : Steps isInt (outputs defs (rvValues rvs clones realized)) (fun _ => false) S)
    (hF : Final isInt (outputs defs (rvValues rvs clones realized)) S) (env : (ℕ → ℝ) → ℕ → FVal) (henv : ∀ τ, Env defs l (rvValues rvs clones realized) tr tv ρ τ (env τ))
    (hfirst : ∀ v, (tr v).isSome → ¬ ChildFirst defs (Dict.keys (rvValues rvs clones realized)) v) :
    ∃ j, jointT S defs reqs registered tv order rvs clones realized =
        .ok (some (j, ((firstOcc rvs).filter (· ∉ Dict.keys realized)).map fun v => if (tr v).isSome then tv v else (Dict.get? (rvValues rvs clones realized) v).getD 0)) ∧
      ∀ X : (ℕ → ℝ) → ℕ → FVal, X = (fun τ => takeBack tr (· ∈ l.map (·.v)) ρ τ l (Graph.asg τ)) →
      ∀ σ₀ τ₀ : ℕ → ℝ, ValidT kernel law ref supp isInt tr X (· ∈ l.map (·.v)) ρ l τ₀ → ∀ ψ : (ℕ → ℝ) → ENNReal,
        refT tr X ref supp (· ∈ l.map (·.v)) ρ l τ₀ (fun τ => dens (evalJointT kernel true (env τ) ω j) * ψ τ) =
          sampleE law ρ l σ₀ fun σ => ψ (transValues tr defs ρ (l.map (·.v)) τ₀ σ) := by
  obtain ⟨j, hj, hfac⟩ := joint_factors hs hrun hF kernel
  refine ⟨j, hj, fun X hX σ₀ τ₀ hvalid ψ => ?_⟩
  rw [← ancestralT hvol hs.wf hs.listed hs.nodup hsrc hX τ₀ ψ l [] σ₀ τ₀ rfl (by simp) hs.plain (fun _ _ => rfl) hvalid]
  congr 1
  funext τ
  rw [hfac true ρ ω τ (env τ) (henv τ), hX]
  congr 2
  refine List.map_congr_left fun it _ => ?_
  simp only [factorT, termT]
  cases ht : tr it.v with
  | none => rfl
  | some t =>
    have : innerFirst defs (rvValues rvs clones realized) it.v = false := by
      rw [← Bool.not_eq_true, innerFirst_iff (rvValues_nodup rvs clones realized)]
      exact hfirst it.v (by simp [ht])
    rw [this]
    rfl

/-- **C95** (false in general) If every transformed variable is given through other variables with values, and comes after a variable given through it, then there are no Jacobian terms at all. -/
theorem C95_child_first {isInt : Di → Bool} {defs : ℕ → Option (Expr Di)} {l : List (Item Di)} {rvs clones : List ℕ} {realized : Dict ℕ ℕ}
    {reqs : Dict ℕ (Option (TransVals.Req VTransform))} {registered : Di → Option VTransform} {tr : ℕ → Option VTransform} {tv : ℕ → ℕ} {order : List ℕ}
    (hs : Setting isInt defs l rvs clones realized reqs registered tr tv order) {S : ℕ → Bool} (hrun : Steps isInt (outputs defs (rvValues rvs clones realized)) (fun _ => false) S)
    (hF : Final isInt (outputs defs (rvValues rvs clones realized)) S) (kernel : Di → FVal → List FVal → Except Err FVal)
    (hfirst : ∀ v, (tr v).isSome → ChildFirst defs (Dict.keys (rvValues rvs clones realized)) v) :
    ∃ j vvs, jointT S defs reqs registered tv order rvs clones realized = .ok (some (j, vvs)) ∧
      ∀ ρ ω τ env, Env defs l (rvValues rvs clones realized) tr tv ρ τ env → dens (evalJointT kernel true env ω j) = dens (evalJointT kernel false env ω j) := by
  obtain ⟨j, hj, hfac⟩ := joint_factors hs hrun hF kernel
  refine ⟨j, _, hj, fun ρ ω τ env henv => ?_⟩
  rw [hfac true ρ ω τ env henv, hfac false ρ ω τ env henv]
  congr 1
  refine List.map_congr_left fun it _ => ?_
  simp only [termT]
  cases ht : tr it.v with
  | none => rfl
  | some t =>
    have : innerFirst defs (rvValues rvs clones realized) it.v = true := (innerFirst_iff (rvValues_nodup rvs clones realized)).2 (hfirst it.v (by simp [ht]))
    rw [this]
    rfl

/-- Terms of an item at values that agree. -/
theorem termAt_values {isInt : Di → Bool} {defs : ℕ → Option (Expr Di)} {l : List (Item Di)} (hnd : (l.map (·.v)).Nodup) (hlist : Listed defs isInt (· ∈ l.map (·.v)) l [])
    (kernel : Di → FVal → List FVal → Except Err FVal) {ρ X X' : ℕ → FVal} (hX : ∀ v ∈ l.map (·.v), X v = X' v) {it : Item Di} (hit : it ∈ l) :
    termAt kernel (readAt (· ∈ l.map (·.v)) X ρ) it = termAt kernel (readAt (· ∈ l.map (·.v)) X' ρ) it := by
  obtain ⟨E, hE, -, -, h1, h2⟩ := hlist.split hnd hit
  have hE' : ∀ v, E v → X v = X' v := fun v hv =>
    hX v (List.idxOf_lt_length_iff.1 ((hE v hv).trans (List.idxOf_lt_length_of_mem (List.mem_map.2 ⟨it, hit, rfl⟩))))
  funext y
  exact termAt_congr kernel it (fun ly hly j hj => readAt_congr (h2 ly hly j hj) hE') (fun i => readAt_congr (h1 i) hE') y

/-- **C95** (`use_jacobian=False`) Without the Jacobian terms, the joint term has the value of the joint term of the same model without transforms, at the values taken back. -/
theorem C95_without_jacobian {isInt : Di → Bool} {defs : ℕ → Option (Expr Di)} {l : List (Item Di)} {rvs clones : List ℕ} {realized : Dict ℕ ℕ}
    {reqs : Dict ℕ (Option (TransVals.Req VTransform))} {registered : Di → Option VTransform} {tr : ℕ → Option VTransform} {tv : ℕ → ℕ} {order : List ℕ}
    (hs : Setting isInt defs l rvs clones realized reqs registered tr tv order) {S : ℕ → Bool} (hrun : Steps isInt (outputs defs (rvValues rvs clones realized)) (fun _ => false) S)
    (hF : Final isInt (outputs defs (rvValues rvs clones realized)) S) (kernel : Di → FVal → List FVal → Except Err FVal) :
    ∃ j vvs j' vvs', jointT S defs reqs registered tv order rvs clones realized = .ok (some (j, vvs)) ∧ jointT S defs [] registered tv order rvs clones realized = .ok (some (j', vvs')) ∧
      ∀ ρ ω τ τ' env env', Env defs l (rvValues rvs clones realized) tr tv ρ τ env → Env defs l (rvValues rvs clones realized) (fun _ => none) tv ρ τ' env' →
        (∀ v ∈ l.map (·.v), takeBack tr (· ∈ l.map (·.v)) ρ τ l (Graph.asg τ) v = .fin (τ' v)) →
        dens (evalJointT kernel false env ω j) = dens (evalJointT kernel true env' ω j') := by
  have hs' : Setting isInt defs l rvs clones realized [] registered (fun _ => none) tv order :=
    { hs with
      requested := fun v t => by simp [Dict.get?]
      keys := by simp [Dict.keys]
      plain := by simp
      inside := by simp }
  obtain ⟨j, hj, h1⟩ := joint_factors hs hrun hF kernel
  obtain ⟨j', hj', h2⟩ := joint_factors hs' hrun hF kernel
  refine ⟨j, _, j', _, hj, hj', fun ρ ω τ τ' env env' he he' hτ => ?_⟩
  rw [h1 _ _ _ _ _ he, h2 _ _ _ _ _ he']
  congr 1
  refine List.map_congr_left fun it hit => ?_
  congr 1
  have hv : it.v ∈ l.map (·.v) := List.mem_map.2 ⟨it, hit, rfl⟩
  have hX : ∀ v ∈ l.map (·.v), takeBack tr (· ∈ l.map (·.v)) ρ τ l (Graph.asg τ) v = takeBack (fun _ => none) (· ∈ l.map (·.v)) ρ τ' l (Graph.asg τ') v := by
    intro v hv
    rw [hτ v hv]
    obtain ⟨it, hit, rfl⟩ := List.mem_map.1 hv
    rw [takeBack_item hs.listed (by simpa using hs.nodup) hit]
  simp only [termT]
  rw [← termAt_values hs.nodup hs.listed kernel hX hit, ← hτ _ hv, takeBack_item hs.listed (by simpa using hs.nodup) hit]
  cases tr it.v with
  | none => rfl
  | some t =>
    simp only [transformedLogprob, VTransform.at, bind, Except.bind, Bool.false_eq_true, if_false]
    generalize termAt kernel _ it _ = r
    cases r <;> rfl

theorem measOf_none {S : ℕ → Bool} {e : Expr Di} (h : isMeas S e = false) : IR.measOf S e = none := by
  cases e with
  | rv => simp [isMeas] at h
  | app id op n args => simp only [isMeas] at h; simp [IR.measOf, h]
  | _ => rfl

/-- **C95** (errors) If a transform is given for a variable that has no value, the result is `KeyError`.  Otherwise the terms exist if every variable with a value is derived; if not, the first one that
is not decides: `DensityNotFound`, but `NotImplementedError` if a transform is applied to the output. -/
theorem C95_outcome {isInt : Di → Bool} {defs : ℕ → Option (Expr Di)} (hwf : WellFormed defs) {rvs clones : List ℕ} (hc : clones.length = rvs.length) {realized : Dict ℕ ℕ}
    (hdef : ∀ v, v ∈ rvs ∨ v ∈ Dict.keys realized → (defs v).isSome) {S : ℕ → Bool}
    (hrun : Steps isInt (outputs defs (rvValues rvs clones realized)) (fun _ => false) S) (hF : Final isInt (outputs defs (rvValues rvs clones realized)) S)
    {reqs : Dict ℕ (Option (TransVals.Req VTransform))} {registered : Di → Option VTransform} {tr : ℕ → Option VTransform} (hreq : Requested reqs registered defs tr) (tv : ℕ → ℕ) (order : List ℕ) :
    ((∃ v ∈ Dict.keys reqs, ¬ (v ∈ rvs ∨ v ∈ Dict.keys realized)) → conditionalT S defs reqs registered tv order rvs clones realized = .error .keyError) ∧
    ((∀ v ∈ Dict.keys reqs, v ∈ rvs ∨ v ∈ Dict.keys realized) →
      ((∀ v e, v ∈ rvs ∨ v ∈ Dict.keys realized → defs v = some e → ∃ dist, Derived (fun w => w ∈ rvs ∨ w ∈ Dict.keys realized) isInt e dist) →
        ∃ terms vvs, conditionalT S defs reqs registered tv order rvs clones realized = .ok (terms, vvs)) ∧
      ∀ p v q, Dict.keys (rvValues rvs clones realized) = p ++ v :: q →
        (∀ w ∈ p, ∀ e, defs w = some e → ∃ dist, Derived (fun w => w ∈ rvs ∨ w ∈ Dict.keys realized) isInt e dist) →
        (∀ e, defs v = some e → ∀ dist, ¬ Derived (fun w => w ∈ rvs ∨ w ∈ Dict.keys realized) isInt e dist) →
        ((tr v).isSome ∧ ¬ ChildFirst defs (Dict.keys (rvValues rvs clones realized)) v → conditionalT S defs reqs registered tv order rvs clones realized = .error .notImplemented) ∧
        (¬ ((tr v).isSome ∧ ¬ ChildFirst defs (Dict.keys (rvValues rvs clones realized)) v) → conditionalT S defs reqs registered tv order rvs clones realized = .error .densityNotFound)) := by
  have hw := wanted_eq hreq
  set d := rvValues rvs clones realized with hd
  have hk : ∀ v, v ∈ Dict.keys d ↔ v ∈ rvs ∨ v ∈ Dict.keys realized := keys_values hc realized
  have hkd : (fun w => w ∈ rvs ∨ w ∈ Dict.keys realized) = (· ∈ Dict.keys d) := by
    funext v; rw [eq_iff_iff, hk]
  rw [hkd]
  have hI := Inv.steps hwf inv_start hrun
  let x := fun v => (Dict.get? d v).getD 0
  let B := backendT S defs d reqs registered tv order
  have howner : ∀ v ∈ Dict.keys d, B.owner v = some v := by
    intro v hv
    have := hdef v ((hk v).1 hv)
    simp [B, backendT, this]
  have hdt : ∀ p ∈ d, B.dtype p.2 = B.dtype p.1 := fun _ _ => rfl
  have hmo : ∀ v e, defs v = some e → (isMeas S (cloneOf d e) = true ∨ (tr v).isSome ∧ ¬ ChildFirst defs (Dict.keys d) v) → B.measurableOutputs v = [v] := by
    intro v e he h
    simp only [B, backendT, hw, he]
    rcases h with h | ⟨h1, h2⟩
    · simp [h]
    · have h3 : innerFirst defs d v = false := by
        rw [← Bool.not_eq_true, innerFirst_iff (rvValues_nodup rvs clones realized)]
        exact h2
      simp [h1, h3]
  have hlp : ∀ v ∈ Dict.keys d, ∀ e, defs v = some e → isMeas S (cloneOf d e) = true → ∃ t, B.logprob v [valueVar tr x tv v] = .ok [t] := by
    intro v hv e he hm
    obtain ⟨dist, hder⟩ := (C93_converted hwf hrun hF hv he).1 hm
    obtain ⟨m, hm', -⟩ := hI.measOf (hwf _ _ he).2 hder hm
    cases hi : innerFirst defs d v
    · exact ⟨_, by simp only [B, backendT, he, hm', x, hi, Bool.false_eq_true, if_false]; rfl⟩
    · exact ⟨_, by simp only [B, backendT, he, hm', x, hi, if_true]; rfl⟩
  refine ⟨?_, fun hkeys => ?_⟩
  · rintro ⟨v, hv, hn⟩
    have hrw : B.rewrite d = .error .keyError := by
      have : ((Dict.keys reqs).all fun v => v ∈ Dict.keys d) = false := by
        rw [List.all_eq_false]
        exact ⟨v, hv, by simpa [hk] using hn⟩
      simp only [B, backendT, this, Bool.false_eq_true, if_false]
    rw [conditionalT, conditionalLogprob, constructIr, ← hd, checkValued_simple howner hdt]
    simp only [B] at hrw
    simp only [hrw]
  · have hrw : B.rewrite d = .ok (d.map fun p => some ⟨p.1, valueVar tr x tv p.1⟩, d.map fun p => valueVar tr x tv p.1) := by
      have : ((Dict.keys reqs).all fun v => v ∈ Dict.keys d) = true := by
        rw [List.all_eq_true]
        intro v hv
        simpa using (hk v).2 (hkeys v hv)
      simp only [B, backendT, this, if_true, hw, x]
    refine ⟨fun h => ?_, ?_⟩
    · classical
      have hmeas : ∀ v ∈ Dict.keys d, ∃ e, defs v = some e ∧ isMeas S (cloneOf d e) = true := by
        intro v hv
        obtain ⟨e, he⟩ := Option.isSome_iff_exists.1 (hdef v ((hk v).1 hv))
        exact ⟨e, he, (C93_converted hwf hrun hF hv he).2 (h v e ((hk v).1 hv) he)⟩
      by_cases hne : d = []
      · refine ⟨[], [], ?_⟩
        rw [conditionalT, conditional_start (val := valueVar tr x tv) (base := valueVar tr x tv) hd howner hdt hrw, hne]
        rfl
      · have : Nonempty (TTerm Di) := by
          obtain ⟨p, hp⟩ := List.exists_mem_of_ne_nil d hne
          obtain ⟨e, he, hm⟩ := hmeas p.1 (List.mem_map.2 ⟨p, hp, rfl⟩)
          obtain ⟨t, -⟩ := hlp p.1 (List.mem_map.2 ⟨p, hp, rfl⟩) e he hm
          exact ⟨t⟩
        have hex : ∀ v, ∃ t, v ∈ Dict.keys d → B.logprob v [valueVar tr x tv v] = .ok [t] := by
          intro v
          by_cases hv : v ∈ Dict.keys d
          · obtain ⟨e, he, hm⟩ := hmeas v hv
            obtain ⟨t, ht⟩ := hlp v hv e he hm
            exact ⟨t, fun _ => ht⟩
          · exact ⟨this.some, fun h => absurd h hv⟩
        choose t ht using hex
        refine ⟨_, _, conditional_simple (B := B) hd howner hdt hrw (fun v hv => ?_) ht⟩
        obtain ⟨e, he, hm⟩ := hmeas v hv
        exact hmo v e he (.inl hm)
    · intro p v q hsplit hp hv
      obtain ⟨p', q', hd', rfl, hq⟩ := List.map_eq_append_iff.1 hsplit
      obtain ⟨a, q'', rfl, rfl, rfl⟩ := List.map_eq_cons_iff.1 hq
      have hsub : ∀ w ∈ Dict.keys p', w ∈ Dict.keys d := fun w hw => by
        rw [hd', Dict.keys, List.map_append]; exact List.mem_append_left _ hw
      have hmeas : ∀ w ∈ Dict.keys p', ∃ e, defs w = some e ∧ isMeas S (cloneOf d e) = true := by
        intro w hw
        obtain ⟨e, he⟩ := Option.isSome_iff_exists.1 (hdef w ((hk w).1 (hsub w hw)))
        exact ⟨e, he, (C93_converted hwf hrun hF (hsub w hw) he).2 (hp w hw e he)⟩
      have hfail := fun err h => conditional_fail (B := B) (err := err) hd howner hdt hrw hd' (fun w hw => by
        obtain ⟨e, he, hm⟩ := hmeas w hw
        exact hmo w e he (.inl hm)) (fun w hw => by
        obtain ⟨e, he, hm⟩ := hmeas w hw
        exact hlp w (hsub w hw) e he hm) h
      have ha : a.1 ∈ Dict.keys d := by rw [hsplit]; simp
      obtain ⟨e, he⟩ := Option.isSome_iff_exists.1 (hdef a.1 ((hk a.1).1 ha))
      have hm : isMeas S (cloneOf d e) = false := by
        by_contra h
        obtain ⟨dist, hder⟩ := (C93_converted hwf hrun hF ha he).1 (by simpa using h)
        exact hv e he dist hder
      refine ⟨fun ht => hfail _ (.inr ⟨hmo _ e he (.inr ht), ?_⟩), fun ht => hfail _ (.inl ⟨?_, rfl⟩)⟩
      · simp only [B, backendT, he, measOf_none hm]
      · simp only [B, backendT, he, hm, hw]
        have hif := innerFirst_iff (defs := defs) (d := d) (rvValues_nodup rvs clones realized) (v := a.1)
        have : ((tr a.1).isSome && !innerFirst defs d a.1) = false := by
          by_contra h
          simp only [Bool.not_eq_false, Bool.and_eq_true, Bool.not_eq_true'] at h
          exact ht ⟨h.1, fun hc => by rw [hif.2 hc] at h; simp at h⟩
        simp [this]

/-! ## C96 -/

/-- **C96** The value given for a realized variable is not used if a transform is applied to the variable: the joint term has the same value whatever it is, and the new variable that takes its
place is not among those returned. -/
theorem C96_realized_ignored {isInt : Di → Bool} {defs : ℕ → Option (Expr Di)} {l : List (Item Di)} {rvs clones : List ℕ} {realized : Dict ℕ ℕ}
    {reqs : Dict ℕ (Option (TransVals.Req VTransform))} {registered : Di → Option VTransform} {tr : ℕ → Option VTransform} {tv : ℕ → ℕ} {order : List ℕ}
    (hs : Setting isInt defs l rvs clones realized reqs registered tr tv order) {S : ℕ → Bool} (hrun : Steps isInt (outputs defs (rvValues rvs clones realized)) (fun _ => false) S)
    (hF : Final isInt (outputs defs (rvValues rvs clones realized)) S) (kernel : Di → FVal → List FVal → Except Err FVal) {v x : ℕ} (hv : v ∈ Dict.keys realized)
    (hx : Dict.get? (rvValues rvs clones realized) v = some x) (ht : (tr v).isSome) (htv : ∀ w ∈ l.map (·.v), tv w = tv v → w = v) :
    ∃ j vvs, jointT S defs reqs registered tv order rvs clones realized = .ok (some (j, vvs)) ∧ tv v ∉ vvs ∧
      ∀ uj ρ ω τ env r, Env defs l (rvValues rvs clones realized) tr tv ρ τ env → dens (evalJointT kernel uj (Function.update env x r) ω j) = dens (evalJointT kernel uj env ω j) := by
  obtain ⟨j, hj, h⟩ := joint_factors hs hrun hF kernel
  have hvl : v ∈ l.map (·.v) := (hs.mem v).2 (.inr hv)
  refine ⟨j, _, hj, ?_, fun uj ρ ω τ env r he => ?_⟩
  · intro hm
    obtain ⟨w, hw, hw'⟩ := List.mem_map.1 hm
    obtain ⟨hw1, hw2⟩ := List.mem_filter.1 hw
    have hwr : w ∈ rvs := (mem_firstOcc _ _).1 hw1
    have hwl : w ∈ l.map (·.v) := (hs.mem w).2 (.inl hwr)
    have hne : w ≠ v := by rintro rfl; simp [hv] at hw2
    split_ifs at hw' with h1
    · exact hne (htv w hwl hw')
    · obtain ⟨y, hy⟩ := Dict.get?_isSome.2 ((keys_values hs.length realized w).2 (.inl hwr))
      rw [hy] at hw'
      exact hs.fresh v w y hvl hy hw'.symm
  · rw [h _ _ _ _ _ he, h uj ρ ω τ]
    refine ⟨fun w y hy hn => ?_, fun w hw hwt => ?_, fun w e hw hwe i hi => ?_⟩
    · rw [Function.update_of_ne, he.kept w y hy hn]
      rintro rfl
      rw [hs.inj w v y hy hx] at hn
      simp [hn] at ht
    · rw [Function.update_of_ne (hs.fresh w v x hw hx), he.new w hw hwt]
    · obtain ⟨h1, h2⟩ := he.inputs w e hw hwe i hi
      exact ⟨by rw [Function.update_of_ne (h2 v x hx), h1], h2⟩

/-- **C96** (partial) As long as no transform is applied to realized variables, and the two calls transform the outputs of the same variables (`ChildFirst`): realizing variables gives the joint term of the call in which they are arguments, at the values given for them. -/
theorem C96_realized_partial {isInt : Di → Bool} {defs : ℕ → Option (Expr Di)} {l : List (Item Di)} {rvs clones rvs' clones' : List ℕ} {realized : Dict ℕ ℕ}
    {reqs : Dict ℕ (Option (TransVals.Req VTransform))} {registered : Di → Option VTransform} {tr : ℕ → Option VTransform} {tv : ℕ → ℕ} {order : List ℕ}
    (hs : Setting isInt defs l rvs clones realized reqs registered tr tv order) (hs' : Setting isInt defs l rvs' clones' [] reqs registered tr tv order)
    (hno : ∀ v ∈ Dict.keys realized, tr v = none)
    (hsame : ∀ v, (tr v).isSome → (ChildFirst defs (Dict.keys (rvValues rvs clones realized)) v ↔ ChildFirst defs (Dict.keys (rvValues rvs' clones' [])) v)) {S S' : ℕ → Bool}
    (hrun : Steps isInt (outputs defs (rvValues rvs clones realized)) (fun _ => false) S) (hF : Final isInt (outputs defs (rvValues rvs clones realized)) S)
    (hrun' : Steps isInt (outputs defs (rvValues rvs' clones' [])) (fun _ => false) S') (hF' : Final isInt (outputs defs (rvValues rvs' clones' [])) S')
    (kernel : Di → FVal → List FVal → Except Err FVal) :
    ∃ j vvs j' vvs', jointT S defs reqs registered tv order rvs clones realized = .ok (some (j, vvs)) ∧ jointT S' defs reqs registered tv order rvs' clones' [] = .ok (some (j', vvs')) ∧
      ∀ uj ρ ω τ env env', Env defs l (rvValues rvs clones realized) tr tv ρ τ env → Env defs l (rvValues rvs' clones' []) tr tv ρ τ env' →
        (∀ v y, v ∈ Dict.keys realized → Dict.get? (rvValues rvs clones realized) v = some y → env y = .fin (τ v)) ∧
        dens (evalJointT kernel uj env ω j) = dens (evalJointT kernel uj env' ω j') := by
  obtain ⟨j, hj, h⟩ := joint_factors hs hrun hF kernel
  obtain ⟨j', hj', h'⟩ := joint_factors hs' hrun' hF' kernel
  exact ⟨j, _, j', _, hj, hj', fun uj ρ ω τ env env' he he' => ⟨fun v y hv hy => he.kept v y hy (hno v hv), by
    rw [h _ _ _ _ _ he, h' _ _ _ _ _ he']
    congr 1
    refine List.map_congr_left fun it _ => ?_
    simp only [termT]
    cases ht : tr it.v with
    | none => rfl
    | some t =>
      have := hsame it.v (by simp [ht])
      rw [← innerFirst_iff (rvValues_nodup _ _ _), ← innerFirst_iff (rvValues_nodup _ _ _)] at this
      rw [Bool.eq_iff_iff.2 this]⟩⟩

/-! ## Examples: `A ~ N(0, 1)` on the scale `exp`, `B ~ N(A, 1)` (the example of transforms.py:275-299); a transform of `B` itself as well; `A` realized -/

namespace DemoTrans
open ProbabilityTheory

noncomputable def A : Expr Unit := .rv 0 () 2 ![.const (.fin 0), .const (.fin 1)]
noncomputable def B : Expr Unit := .rv 1 () 2 ![A, .const (.fin 1)]

noncomputable def defs : ℕ → Option (Expr Unit) := Dict.get? [(0, A), (1, B)]

noncomputable def items : List (Item Unit) := [⟨0, ⟨0, (), 2, ![.const (.fin 0), .const (.fin 1)]⟩, []⟩, ⟨1, ⟨1, (), 2, ![A, .const (.fin 1)]⟩, []⟩]

/-- `ExpTransform`. -/
noncomputable def expT : VTransform where
  forward v _ := FVal.exp v
  backward v _ := FVal.log v
  logJacDet v _ := -FVal.log v

noncomputable def tr (v : ℕ) : Option VTransform := if v = 0 then some expT else none

noncomputable def reqs : Dict ℕ (Option (TransVals.Req VTransform)) := [(0, some (.transform expT)), (1, none)]

def tv (v : ℕ) : ℕ := v + 20

def env (τ : ℕ → ℝ) (i : ℕ) : FVal := if i = 20 then .fin (τ 0) else if i = 11 then .fin (τ 1) else .nan

theorem wf : WellFormed defs := by
  have hA : Closed defs A := ⟨rfl, by simp [Fin.forall_fin_two, Closed]⟩
  have hB : Closed defs B := ⟨rfl, fun i => by fin_cases i; exacts [hA, trivial]⟩
  intro v e h
  have := Dict.mem_of_get? h
  simp only [List.mem_cons, Prod.mk.injEq, List.not_mem_nil, or_false] at this
  rcases this with ⟨rfl, rfl⟩ | ⟨rfl, rfl⟩
  exacts [⟨rfl, hA⟩, ⟨rfl, hB⟩]

theorem mem (v : ℕ) : v ∈ items.map (·.v) ↔ v = 0 ∨ v = 1 := by simp [items]

theorem listed : Listed defs (fun _ => false) (· ∈ items.map (·.v)) items [] := by
  refine ⟨⟨A, rfl, .rv 0 () 2 _⟩, fun h => absurd rfl h, ?_, by simp, ⟨B, rfl, .rv 1 () 2 _⟩, fun h => absurd rfl h, ?_, by simp, trivial⟩
  · intro i; fin_cases i <;> trivial
  · intro i
    fin_cases i
    · exact ⟨(mem 0).2 (by simp), by simp⟩
    · trivial

theorem values_eq : rvValues [1, 0] [11, 10] [] = [(1, 11), (0, 10)] := by decide

theorem setting : Setting (fun _ => false) defs items [1, 0] [11, 10] [] reqs (fun _ => none) tr tv [0, 1] where
  wf := wf
  ne := by simp [items]
  nodup := by simp [items]
  listed := listed
  length := rfl
  mem v := by rw [mem]; simp [Dict.keys, or_comm]
  requested v t := by
    by_cases h : v = 0
    · subst h; simp [tr, reqs, Dict.get?, eq_comm]
    · by_cases h1 : v = 1
      · subst h1; simp [tr, reqs, Dict.get?]
      · simp [tr, reqs, Dict.get?, h, Ne.symm h, Ne.symm h1]
  keys v hv := by rw [mem]; simpa [reqs, Dict.keys] using hv
  plain it hit t _ hl := by
    simp only [items, List.mem_cons, List.not_mem_nil, or_false] at hit
    rcases hit with rfl | rfl <;> exact absurd rfl hl
  inside v t ht _ := by
    have : t = expT := by
      unfold tr at ht
      split_ifs at ht
      exact (Option.some.inj ht).symm
    subst this
    exact ⟨fun _ _ _ => rfl, fun _ _ _ => rfl, fun _ _ _ => rfl⟩
  inj v w y h1 h2 := by
    rw [values_eq] at h1 h2
    simp only [Dict.get?] at h1 h2
    split_ifs at h1 h2 <;> simp only [Option.some.injEq] at h1 h2 <;> omega
  fresh v w y hv h := by
    rw [values_eq] at h
    simp only [Dict.get?] at h
    rw [mem] at hv
    unfold tv
    split_ifs at h <;> (cases h; omega)
  order := by
    show [0, 1].Perm (items.map (·.v))
    simp [items]

/-- `A` is not given through other variables. -/
theorem first_ok (v : ℕ) (hv : (tr v).isSome) : ¬ ChildFirst defs (Dict.keys (rvValues [1, 0] [11, 10] [])) v := by
  have : v = 0 := by
    unfold tr at hv
    split_ifs at hv with h
    exacts [h, absurd hv (by simp)]
  subst this
  rintro ⟨⟨u, e, he, a, ha, hu⟩, -⟩
  cases he
  simp only [A, inputsOf, List.ofFn_succ, List.ofFn_zero, List.mem_cons, List.not_mem_nil, or_false] at ha
  rcases ha with rfl | rfl <;> exact hu

theorem env_ok (τ : ℕ → ℝ) : Env defs items (rvValues [1, 0] [11, 10] []) tr tv (fun _ => .nan) τ (env τ) := by
  refine ⟨fun v y h hn => ?_, fun v hv hn => ?_, fun v e hv he i hi => ?_⟩
  · rw [values_eq] at h
    simp only [Dict.get?] at h
    split_ifs at h with h1 h2
    · cases h; subst h1; rfl
    · subst h2; simp [tr] at hn
  · rw [mem] at hv
    rcases hv with rfl | rfl
    · rfl
    · simp [tr] at hn
  · rw [mem] at hv
    rcases hv with rfl | rfl
    · cases he; simp [A, UsesInput, Fin.exists_fin_two] at hi
    · cases he; simp [B, A, UsesInput, Fin.exists_fin_two] at hi

theorem valid (τ : ℕ → ℝ) : ValidT DemoJoint.kernel DemoJoint.law (fun _ => volume) (fun _ _ => univ) (fun _ => false) tr
    (fun τ => takeBack tr (· ∈ items.map (·.v)) (fun _ => .nan) τ items (Graph.asg τ)) (· ∈ items.map (·.v)) (fun _ => .nan) items τ := by
  set X : (ℕ → ℝ) → ℕ → FVal := fun τ => takeBack tr (· ∈ items.map (·.v)) (fun _ => .nan) τ items (Graph.asg τ) with hX
  have hX0 : ∀ τ, X τ 0 = FVal.log (.fin (τ 0)) := by
    intro τ
    simp only [hX]
    have := takeBack_item (tr := tr) (ρ := fun _ => .nan) (τ := τ) (X := Graph.asg τ) listed (by simp [items]) (it := ⟨0, ⟨0, (), 2, ![.const (.fin 0), .const (.fin 1)]⟩, []⟩) (by simp [items])
    exact this
  have hr : ∀ X : ℕ → FVal, Item.rangeAt (fun _ _ => univ) (· ∈ items.map (·.v)) (fun _ => .nan) X ⟨0, ⟨0, (), 2, ![.const (.fin 0), .const (.fin 1)]⟩, []⟩ = univ := by
    intro X
    simp [Item.rangeAt, towerMap]
  have ht : ∀ X : ℕ → FVal, Item.transRange tr (fun _ _ => univ) (· ∈ items.map (·.v)) (fun _ => .nan) X ⟨0, ⟨0, (), 2, ![.const (.fin 0), .const (.fin 1)]⟩, []⟩ = Ioi 0 := by
    intro X
    have e : Item.transRange tr (fun _ _ => univ) (· ∈ items.map (·.v)) (fun _ => .nan) X ⟨0, ⟨0, (), 2, ![.const (.fin 0), .const (.fin 1)]⟩, []⟩ = Real.exp '' univ := by
      have := congrArg (fun s => Real.exp '' s) (hr X)
      exact this
    rw [e, image_univ, Real.range_exp]
  refine ⟨?_, trivial, ?_, fun z hz => ⟨?_, trivial, ?_, fun _ _ => trivial⟩⟩
  · have : Item.params (· ∈ items.map (·.v)) (X τ) (fun _ => .nan) ⟨0, ⟨0, (), 2, ![.const (.fin 0), .const (.fin 1)]⟩, []⟩ = [.fin 0, .fin 1] := by
      simp [Item.params, List.ofFn_succ, readAt]
    rw [this]
    exact DemoJoint.good 0
  · intro t h
    cases h
    rw [ht, hr]
    refine ⟨rfl, measurableSet_Ioi, ⟨fun x _ => ⟨Real.exp x, Real.exp_pos x, ?_, ?_⟩, fun y hy => ⟨Real.log y, mem_univ _, ?_, ?_⟩⟩, fun y hy => ⟨1 / y, ?_, ?_, ?_⟩⟩
    · rfl
    · show Except.ok (FVal.log (.fin (Real.exp x))) = _
      rw [FVal.log_fin_pos (Real.exp_pos x), Real.log_exp]
    · show Except.ok (FVal.log (.fin y)) = _
      rw [FVal.log_fin_pos hy]
    · show Except.ok (FVal.fin (Real.exp (Real.log y))) = _
      rw [Real.exp_log hy]
    · have : (fun y : ℝ => realOf (Except.ok (FVal.log (.fin y)))) =ᶠ[nhds y] Real.log := by
        filter_upwards [Ioi_mem_nhds hy] with w hw
        rw [FVal.log_fin_pos hw]; rfl
      exact ((Real.hasDerivAt_log (ne_of_gt hy)).congr_of_eventuallyEq this).congr_deriv (one_div y).symm
    · exact one_div_ne_zero (ne_of_gt hy)
    · show Except.ok (-FVal.log (.fin y)) = _
      rw [FVal.log_fin_pos hy, FVal.neg_fin, abs_of_pos (one_div_pos.2 hy), one_div, Real.log_inv]
  · rw [ht] at hz
    have hz' : (0 : ℝ) < z := hz
    have : Item.params (· ∈ items.map (·.v)) (X (Function.update τ 0 z)) (fun _ => .nan) ⟨1, ⟨1, (), 2, ![A, .const (.fin 1)]⟩, []⟩ = [.fin (Real.log z), .fin 1] := by
      have h0 : readAt (· ∈ items.map (·.v)) (X (Function.update τ 0 z)) (fun _ => .nan) A = .fin (Real.log z) := by
        have : readAt (· ∈ items.map (·.v)) (X (Function.update τ 0 z)) (fun _ => .nan) A = X (Function.update τ 0 z) 0 := if_pos ((mem 0).2 (by simp))
        rw [this, hX0, Function.update_self, FVal.log_fin_pos hz']
      simp only [Item.params, List.ofFn_succ, List.ofFn_zero]
      exact congrArg (fun a => [a, FVal.fin 1]) h0
    rw [this]
    exact DemoJoint.good _
  · intro t h
    cases h

example : ∃ S, Steps (fun _ => false) (outputs defs (rvValues [1, 0] [11, 10] [])) (fun _ => false) S ∧
    ∃ j, jointT S defs reqs (fun _ => none) tv [0, 1] [1, 0] [11, 10] [] = .ok (some (j, [11, 20])) ∧
      ∀ σ₀ τ₀ : ℕ → ℝ, ∀ ψ : (ℕ → ℝ) → ENNReal,
        refT tr (fun τ => takeBack tr (· ∈ items.map (·.v)) (fun _ => .nan) τ items (Graph.asg τ)) (fun _ => volume) (fun _ _ => univ) (· ∈ items.map (·.v)) (fun _ => .nan) items τ₀
            (fun τ => dens (evalJointT DemoJoint.kernel true (env τ) (fun _ _ _ => .nan) j) * ψ τ) =
          sampleE DemoJoint.law (fun _ => .nan) items σ₀ fun σ => ψ (transValues tr defs (fun _ => .nan) (items.map (·.v)) τ₀ σ) := by
  obtain ⟨S, hrun, hF⟩ := exists_run (fun _ => false) (outputs defs (rvValues [1, 0] [11, 10] [])) fun _ => false
  obtain ⟨j, h1, h2⟩ := C95_joint_density_partial DemoJoint.kernel DemoJoint.law (fun _ => volume) (fun _ _ => univ) (fun _ _ => rfl) (fun _ => .nan) (fun _ _ _ => .nan) (l := items)
    (by simp [items]) setting hrun hF env env_ok first_ok
  refine ⟨S, hrun, j, ?_, fun σ₀ τ₀ => h2 _ rfl σ₀ τ₀ (valid τ₀)⟩
  rw [h1, values_eq]
  rfl

example := C95_without_jacobian setting (exists_run (fun _ => false) (outputs defs (rvValues [1, 0] [11, 10] [])) fun _ => false).choose_spec.1
  (exists_run (fun _ => false) (outputs defs (rvValues [1, 0] [11, 10] [])) fun _ => false).choose_spec.2 DemoJoint.kernel

/-- The same model with `A` realized at the value of the variable `10`. -/
theorem valuesR_eq : rvValues [1] [11] [(0, 10)] = [(1, 11), (0, 10)] := by decide

theorem settingR : Setting (fun _ => false) defs items [1] [11] [(0, 10)] reqs (fun _ => none) tr tv [0, 1] :=
  { setting with
    length := rfl
    mem := fun v => by rw [mem]; simp [Dict.keys, or_comm]
    inside := fun v t ht h => setting.inside v t ht (by rw [values_eq]; rw [valuesR_eq] at h; exact h)
    inj := by have h := setting.inj; rw [values_eq] at h; rw [valuesR_eq]; exact h
    fresh := by have h := setting.fresh; rw [values_eq] at h; rw [valuesR_eq]; exact h }

theorem envR_ok (τ : ℕ → ℝ) : Env defs items (rvValues [1] [11] [(0, 10)]) tr tv (fun _ => .nan) τ (env τ) := by
  have := env_ok τ
  rw [values_eq] at this
  rw [valuesR_eq]; exact this

example := C96_realized_ignored settingR (exists_run (fun _ => false) (outputs defs (rvValues [1] [11] [(0, 10)])) fun _ => false).choose_spec.1
  (exists_run (fun _ => false) (outputs defs (rvValues [1] [11] [(0, 10)])) fun _ => false).choose_spec.2 DemoJoint.kernel (v := 0) (x := 10) (by simp [Dict.keys])
  (by rw [valuesR_eq]; rfl) rfl (fun w _ h => by unfold tv at h; omega)

/-- Without transforms. -/
theorem setting0 : Setting (fun _ => false) defs items [1, 0] [11, 10] [] [] (fun _ => none) (fun _ => none) tv [0, 1] :=
  { setting with
    requested := fun v t => by simp [Dict.get?]
    keys := by simp [Dict.keys]
    plain := by simp
    inside := by simp }

theorem setting0R : Setting (fun _ => false) defs items [1] [11] [(0, 10)] [] (fun _ => none) (fun _ => none) tv [0, 1] :=
  { settingR with
    requested := fun v t => by simp [Dict.get?]
    keys := by simp [Dict.keys]
    plain := by simp
    inside := by simp }

example := C96_realized_partial setting0R setting0 (fun _ _ => rfl) (fun _ h => by simp at h) (exists_run (fun _ => false) (outputs defs (rvValues [1] [11] [(0, 10)])) fun _ => false).choose_spec.1
  (exists_run (fun _ => false) (outputs defs (rvValues [1] [11] [(0, 10)])) fun _ => false).choose_spec.2
  (exists_run (fun _ => false) (outputs defs (rvValues [1, 0] [11, 10] [])) fun _ => false).choose_spec.1
  (exists_run (fun _ => false) (outputs defs (rvValues [1, 0] [11, 10] [])) fun _ => false).choose_spec.2 DemoJoint.kernel

/-- A request for a variable without a value; and a transform of a variable without a density: `P = A * B` with `A` and `B` unvalued. -/
noncomputable def P : Expr Unit := .app 2 .mul 2 ![A, B]

noncomputable def defsP : ℕ → Option (Expr Unit) := Dict.get? [(0, A), (1, B), (2, P)]

theorem wfP : WellFormed defsP := by
  have hA : Closed defsP A := ⟨rfl, by simp [Fin.forall_fin_two, Closed]⟩
  have hB : Closed defsP B := ⟨rfl, fun i => by fin_cases i; exacts [hA, trivial]⟩
  have hP : Closed defsP P := ⟨rfl, fun i => by fin_cases i; exacts [hA, hB]⟩
  intro v e h
  have := Dict.mem_of_get? h
  simp only [List.mem_cons, Prod.mk.injEq, List.not_mem_nil, or_false] at this
  rcases this with ⟨rfl, rfl⟩ | ⟨rfl, rfl⟩ | ⟨rfl, rfl⟩
  exacts [⟨rfl, hA⟩, ⟨rfl, hB⟩, ⟨rfl, hP⟩]

noncomputable def reqsP (v : ℕ) : Dict ℕ (Option (TransVals.Req VTransform)) := [(v, some (.transform expT))]

theorem requestedP (v : ℕ) : Requested (reqsP v) (fun _ : Unit => none) defsP fun w => if w = v then some expT else none := by
  intro w t
  by_cases h : w = v
  · subst h; simp [reqsP, Dict.get?, eq_comm]
  · simp [reqsP, Dict.get?, h, Ne.symm h]

example : ∃ S, Steps (fun _ => false) (outputs defsP (rvValues [2] [12] [])) (fun _ => false) S ∧
    conditionalT S defsP (reqsP 2) (fun _ => none) tv [2] [2] [12] [] = .error .notImplemented ∧ conditionalT S defsP [] (fun _ => none) tv [2] [2] [12] [] = .error .densityNotFound ∧
    conditionalT S defsP (reqsP 0) (fun _ => none) tv [2] [2] [12] [] = .error .keyError := by
  obtain ⟨S, hrun, hF⟩ := exists_run (fun _ => false) (outputs defsP (rvValues [2] [12] [])) fun _ => false
  have hdef : ∀ v, v ∈ [2] ∨ v ∈ Dict.keys ([] : Dict ℕ ℕ) → (defsP v).isSome := by
    intro v hv
    have : v = 2 := by simpa [Dict.keys] using hv
    subst this; rfl
  have hno : ∀ e, defsP 2 = some e → ∀ dist, ¬ Derived (fun w => w ∈ [2] ∨ w ∈ Dict.keys ([] : Dict ℕ ℕ)) (fun _ : Unit => false) e dist := by
    intro e he dist h
    cases he
    have hn : ∀ i : Fin 2, ¬ Determined (fun w => w ∈ [2] ∨ w ∈ Dict.keys ([] : Dict ℕ ℕ)) ((![A, B] : Fin 2 → Expr Unit) i) := by
      intro i hd
      match i with
      | 0 => simpa [A, Determined, Dict.keys] using hd
      | 1 => simpa [B, A, Determined, Dict.keys] using hd
    cases h with
    | app i _ _ _ _ ho =>
      match i with
      | 0 => exact hn 1 (ho 1 (by decide))
      | 1 => exact hn 0 (ho 0 (by decide))
    | normals _ hs => cases hs
  have hk : Dict.keys (rvValues [2] [12] []) = [] ++ 2 :: [] := by decide
  have first2 : ¬ ChildFirst defsP (Dict.keys (rvValues [2] [12] [])) 2 := by
    rintro ⟨-, p, q, w, hs, hw, -⟩
    have h1 : p.length + (q.length + 1) = 1 := by
      have := congrArg List.length hs
      simpa [hk] using this.symm
    have : p = [] := List.length_eq_zero_iff.1 (by omega)
    simp [this] at hw
  refine ⟨S, hrun, ?_, ?_, ?_⟩
  · exact ((C95_outcome wfP (rvs := [2]) (clones := [12]) rfl hdef hrun hF (requestedP 2) tv [2]).2 (by simp [reqsP, Dict.keys])).2 [] 2 [] hk (by simp) hno |>.1 ⟨rfl, first2⟩
  · exact ((C95_outcome wfP (rvs := [2]) (clones := [12]) rfl hdef hrun hF (reqs := []) (registered := fun _ => none) (tr := fun _ => none) (fun v t => by simp [Dict.get?]) tv [2]).2
      (by simp [Dict.keys])).2 [] 2 [] hk (by simp) hno |>.2 (by simp)
  · exact (C95_outcome wfP (rvs := [2]) (clones := [12]) rfl hdef hrun hF (requestedP 0) tv [2]).1 ⟨0, by simp [reqsP, Dict.keys], by simp [Dict.keys]⟩

/-- **C96** (false in general) `A ~ N(0, 1)` is realized at `5`, and `B ~ N(A, 1)` has the value `0`.  With a transform of `A`, the result is not the density at these values. -/
theorem C96_realized_counterexample : ∃ S, Steps (fun _ => false) (outputs defs (rvValues [1] [11] [(0, 10)])) (fun _ => false) S ∧
    ∃ j vvs, jointT S defs reqs (fun _ => none) tv [0, 1] [1] [11] [(0, 10)] = .ok (some (j, vvs)) ∧
      ∃ env : ℕ → FVal, env 10 = .fin 5 ∧ env 11 = .fin 0 ∧
        dens (evalJointT DemoJoint.kernel false env (fun _ _ _ => .nan) j) ≠ dens (normalLogprob (.fin 5) (.fin 0) (.fin 1)) * dens (normalLogprob (.fin 0) (.fin 5) (.fin 1)) := by
  obtain ⟨S, hrun, hF⟩ := exists_run (fun _ => false) (outputs defs (rvValues [1] [11] [(0, 10)])) fun _ => false
  obtain ⟨j, hj, h⟩ := joint_factors settingR hrun hF DemoJoint.kernel
  refine ⟨S, hrun, j, _, hj, fun i => if i = 20 then .fin 1 else if i = 11 then .fin 0 else if i = 10 then .fin 5 else .nan, rfl, rfl, ?_⟩
  rw [h false (fun _ => .nan) _ (fun v => if v = 0 then 1 else 0)]
  · have h1 : (0 : ℝ) < 1 := one_pos
    set X := takeBack tr (· ∈ items.map (·.v)) (fun _ => FVal.nan) (fun v => if v = 0 then 1 else 0) items (Graph.asg fun v => if v = 0 then 1 else 0) with hX
    have hX0 : X 0 = .fin 0 := by
      have := takeBack_item (tr := tr) (ρ := fun _ => FVal.nan) (τ := fun v => if v = 0 then 1 else 0) (X := Graph.asg fun v => if v = 0 then 1 else 0) listed (by simp [items])
        (it := ⟨0, ⟨0, (), 2, ![.const (.fin 0), .const (.fin 1)]⟩, []⟩) (by simp [items])
      refine (hX ▸ this).trans ?_
      show FVal.log (.fin (if (0 : ℕ) = 0 then 1 else 0)) = _
      simp [FVal.log_fin_pos]
    have hA : readAt (· ∈ items.map (·.v)) X (fun _ => FVal.nan) A = .fin 0 := (if_pos ((mem 0).2 (by simp))).trans hX0
    have f0 : termT DemoJoint.kernel false tr (· ∈ items.map (·.v)) (fun _ => FVal.nan) X ⟨0, ⟨0, (), 2, ![.const (.fin 0), .const (.fin 1)]⟩, []⟩ (.fin 1) =
        normalLogprob (.fin 0) (.fin 0) (.fin 1) := by
      have e : FVal.log (.fin 1) = .fin 0 := by simp [FVal.log_fin_pos]
      have : termT DemoJoint.kernel false tr (· ∈ items.map (·.v)) (fun _ => FVal.nan) X ⟨0, ⟨0, (), 2, ![.const (.fin 0), .const (.fin 1)]⟩, []⟩ (.fin 1) =
          (normalLogprob (FVal.log (.fin 1)) (.fin 0) (.fin 1) >>= fun x => pure x) := rfl
      rw [this, e]
      cases normalLogprob (.fin 0) (.fin 0) (.fin 1) <;> rfl
    have f1 : termT DemoJoint.kernel false tr (· ∈ items.map (·.v)) (fun _ => FVal.nan) X ⟨1, ⟨1, (), 2, ![A, .const (.fin 1)]⟩, []⟩ (.fin 0) =
        normalLogprob (.fin 0) (.fin 0) (.fin 1) := by
      have : termT DemoJoint.kernel false tr (· ∈ items.map (·.v)) (fun _ => FVal.nan) X ⟨1, ⟨1, (), 2, ![A, .const (.fin 1)]⟩, []⟩ (.fin 0) =
          normalLogprob (.fin 0) (readAt (· ∈ items.map (·.v)) X (fun _ => FVal.nan) A) (.fin 1) := rfl
      rw [this, hA]
    have e : (items.map fun it => dens (termT DemoJoint.kernel false tr (· ∈ items.map (·.v)) (fun _ => FVal.nan) X it (.fin (if it.v = 0 then 1 else 0)))).prod =
        dens (normalLogprob (.fin 0) (.fin 0) (.fin 1)) * dens (normalLogprob (.fin 0) (.fin 0) (.fin 1)) := by
      have g0 : (FVal.fin (if (0 : ℕ) = 0 then 1 else 0)) = .fin 1 := by simp
      have g1 : (FVal.fin (if (1 : ℕ) = 0 then 1 else 0)) = .fin 0 := by simp
      show dens _ * (dens _ * 1) = _
      rw [mul_one]
      congr 2
    simp only [Bool.false_and]
    rw [e]
    simp only [normal_eval _ _ h1, dens_log (gaussianPDFReal_pos _ _ _ (toNNReal_sq_ne h1))]
    refine ne_of_gt (ENNReal.mul_lt_mul ?_ ?_) <;>
    · rw [ENNReal.ofReal_lt_ofReal_iff (gaussianPDFReal_pos _ _ _ (toNNReal_sq_ne h1)), gaussianPDFReal, gaussianPDFReal]
      refine mul_lt_mul_of_pos_left (Real.exp_lt_exp.2 ?_) (by positivity)
      norm_num
  · refine ⟨fun v y hy hn => ?_, fun v hv hn => ?_, fun v e hv he i hi => ?_⟩
    · rw [valuesR_eq] at hy
      simp only [Dict.get?] at hy
      split_ifs at hy with h1 h2
      · cases hy; subst h1; rfl
      · subst h2; simp [tr] at hn
    · rw [mem] at hv
      rcases hv with rfl | rfl
      · rfl
      · simp [tr] at hn
    · exact (envR_ok 0).inputs v e hv he i hi |>.imp (fun _ => by
        rw [mem] at hv
        rcases hv with rfl | rfl
        · cases he; simp [A, UsesInput, Fin.exists_fin_two] at hi
        · cases he; simp [B, A, UsesInput, Fin.exists_fin_two] at hi) id

end DemoTrans

end Verif.IR
