import Verif.Spec.Elemwise
import Verif.Props.TransDensity

/-! # C56, C57: elementwise functions of a random variable -/

namespace Verif
open FVal Set MeasureTheory

/-- The layers `ts` turn a log-density on `D` into the log-density of `f` of the variable. -/
def Good (ts : List RVTransform) (f : ℝ → ℝ) (D : Set ℝ) : Prop :=
  ∀ (lp : FVal → Except Err FVal) (μ : Measure ℝ), MeasurableSet D → IsLogDensityOn (fun x => lp (.fin x)) D μ →
    IsLogDensityOn (fun y => layersLogprob ts lp (.fin y)) (f '' D) (μ.map f) ∧ MeasurableSet (f '' D) ∧ AEMeasurable f μ ∧
      ((∀ x ∈ D, lp (.fin x) ≠ .ok .pinf) → ∀ y ∈ f '' D, layersLogprob ts lp (.fin y) ≠ .ok .pinf)

theorem Good.comp {ts us : List RVTransform} {f g : ℝ → ℝ} {D : Set ℝ} (h1 : Good ts f D) (h2 : Good us g (f '' D)) :
    Good (ts ++ us) (fun x => g (f x)) D := by
  intro lp μ hD hlp
  obtain ⟨a1, a2, a3, a4⟩ := h1 lp μ hD hlp
  obtain ⟨b1, b2, b3, b4⟩ := h2 _ _ a2 a1
  have e1 : layersLogprob (ts ++ us) lp = layersLogprob us (layersLogprob ts lp) := by simp [layersLogprob]
  have e2 : (fun x => g (f x)) '' D = g '' (f '' D) := by rw [image_image]
  have e3 : μ.map (fun x => g (f x)) = (μ.map f).map g := (AEMeasurable.map_map_of_aemeasurable b3 a3).symm
  rw [e1, e2, e3]
  exact ⟨b1, b2, b3.comp_aemeasurable a3, fun h => b4 (a4 h)⟩

theorem Good.layer {t : RVTransform} {D₀ R₀ D : Set ℝ} (hinv : Inverts t D₀ R₀) (hjac : LogJac t R₀) (hsub : D ⊆ D₀) {f : ℝ → ℝ}
    (hf : ∀ x ∈ D, t.forward (.fin x) = .ok (.fin (f x))) (hcont : ContinuousOn f D) : Good [t] f D := by
  intro lp μ hD hlp
  have hback : ∀ x ∈ D, f x ∈ R₀ ∧ t.backward (.fin (f x)) = .ok (.fin x) := by
    intro x hx
    obtain ⟨y, hy, e1, e2⟩ := hinv.fwd x (hsub hx)
    rw [hf x hx] at e1
    cases e1
    exact ⟨hy, e2⟩
  have hinv' : Inverts t D (f '' D) := by
    refine ⟨fun x hx => ⟨f x, ⟨x, hx, rfl⟩, hf x hx, (hback x hx).2⟩, ?_⟩
    rintro _ ⟨x, hx, rfl⟩
    exact ⟨x, hx, (hback x hx).2, hf x hx⟩
  have hjac' : LogJac t (f '' D) := by
    rintro _ ⟨x, hx, rfl⟩
    exact hjac _ (hback x hx).1
  have hinj : InjOn f D := by
    intro a ha b hb hab
    have h1 := (hback a ha).2
    rw [hab, (hback b hb).2] at h1
    cases h1; rfl
  have hm : MeasurableSet (f '' D) := hD.image_of_continuousOn_injOn hcont hinj
  obtain ⟨h1, h2, -⟩ := pushforward_density hinv' hjac' hm hlp (g := fun y => layersLogprob [t] lp (.fin y)) fun y _ x j l h1 h2 h3 => by
    simp only [layersLogprob, List.foldl_cons, List.foldl_nil, measurableElemwiseLogprob, h1, h2, h3, bind, Except.bind]; rfl
  have hae : (fun x => realOf (t.forward (.fin x))) =ᵐ[μ] f := by
    have : ∀ᵐ x ∂μ, x ∈ D := by rw [ae_iff]; exact hlp.null
    filter_upwards [this] with x hx
    rw [hf x hx]; rfl
  rw [Measure.map_congr hae] at h1
  refine ⟨h1, hm, h2.congr hae, ?_⟩
  rintro hp _ ⟨x, hx, rfl⟩
  obtain ⟨d, -, -, hj⟩ := hjac' (f x) ⟨x, hx, rfl⟩
  have hpx := hp x hx
  simp only [layersLogprob, List.foldl_cons, List.foldl_nil, measurableElemwiseLogprob, hj, (hback x hx).2, bind, Except.bind]
  rcases hv : lp (.fin x) with e | v
  · simp
  · cases v <;> simp_all [pure, Except.pure]

theorem Good.congr {ts : List RVTransform} {f g : ℝ → ℝ} {D : Set ℝ} (h : Good ts f D) (hfg : ∀ x, f x = g x) : Good ts g D := by
  have : f = g := funext hfg
  rwa [← this]

theorem good_loc (a : ℝ) (D : Set ℝ) : Good [.loc (.fin a)] (fun x => x + a) D :=
  Good.layer (C49_loc a) (C50_loc a) (subset_univ D) (fun x _ => by simp [RVTransform.loc]) (by fun_prop)

theorem good_scale {a : ℝ} (ha : a ≠ 0) (D : Set ℝ) : Good [.scale (.fin a)] (fun x => x * a) D :=
  Good.layer (C49_scale ha) (C50_scale ha) (subset_univ D) (fun x _ => by simp [RVTransform.scale]) (by fun_prop)

theorem inverts_reciprocal_pos : Inverts .reciprocal (Ioi 0) (Ioi 0) := by
  have key : ∀ x ∈ Ioi (0 : ℝ), ∃ y ∈ Ioi (0 : ℝ), FVal.reciprocal (.fin x) = .fin y ∧ FVal.reciprocal (.fin y) = .fin x := fun x hx => by
    have hx0 : (0 : ℝ) < 1 / x := one_div_pos.2 hx
    exact ⟨1 / x, hx0, reciprocal_fin (ne_of_gt hx), by rw [reciprocal_fin hx0.ne', one_div_one_div]⟩
  refine ⟨fun x hx => ?_, fun x hx => ?_⟩ <;>
  · obtain ⟨y, hy, e1, e2⟩ := key x hx
    exact ⟨y, hy, by simp [RVTransform.reciprocal, e1], by simp [RVTransform.reciprocal, e2]⟩

theorem good_reciprocal {D : Set ℝ} (hD : D ⊆ Ioi 0) : Good [.reciprocal] (fun x => 1 / x) D :=
  Good.layer inverts_reciprocal_pos C50_reciprocal_partial hD (fun x hx => by
    show Except.ok (FVal.reciprocal (.fin x)) = _
    rw [reciprocal_fin (ne_of_gt (hD hx))]) (continuousOn_const.div continuousOn_id fun x hx => ne_of_gt (hD hx))

theorem OneOf.spec {P : ℝ → Prop} {l : List Arg} (h : OneOf P l) : Arg.measCount l = 1 ∧ ∃ cs : List ℝ, Arg.others l = cs.map .fin ∧
    (∀ c ∈ cs, P c) ∧ cs.length + 1 = l.length ∧ ∀ x, (l.map (Arg.real x)).sum = x + cs.sum ∧ (l.map (Arg.real x)).prod = x * cs.prod := by
  induction h with
  | @here l hl =>
    have h0 : ∀ l : List ℝ, Arg.measCount (l.map fun a => .other (.fin a)) = 0 ∧ Arg.others (l.map fun a => .other (.fin a)) = l.map .fin := by
      intro l
      induction l with
      | nil => exact ⟨rfl, rfl⟩
      | cons a l ih => exact ⟨ih.1, by simp only [List.map_cons, Arg.others, ih.2]⟩
    refine ⟨by simp only [Arg.measCount, (h0 l).1], l, (h0 l).2, hl, by simp, fun x => ?_⟩
    have : (l.map fun a => Arg.other (.fin a)).map (Arg.real x) = l := by
      rw [List.map_map]; exact (List.map_congr_left fun a _ => rfl).trans (List.map_id l)
    simp only [List.map_cons, this, List.sum_cons, List.prod_cons, Arg.real, and_self]
  | @there a l ha _ ih =>
    obtain ⟨h1, cs, h2, h3, h4, h5⟩ := ih
    refine ⟨h1, a :: cs, by simp only [Arg.others, h2, List.map_cons], ?_, by simp [← h4], fun x => ?_⟩
    · intro c hc
      rcases List.mem_cons.1 hc with rfl | hc
      · exact ha
      · exact h3 c hc
    · simp only [List.map_cons, List.sum_cons, List.prod_cons, (h5 x).1, (h5 x).2, Arg.real]
      exact ⟨by ring, by ring⟩

theorem foldArgs_add {cs : List ℝ} (h : cs ≠ []) : foldArgs (· + ·) (cs.map .fin) = some (.fin cs.sum) := by
  cases cs with
  | nil => exact absurd rfl h
  | cons a l =>
    simp only [List.map_cons, foldArgs, Option.some.injEq, List.sum_cons]
    have : ∀ (l : List ℝ) (a : ℝ), (l.map FVal.fin).foldl (· + ·) (.fin a) = .fin (a + l.sum) := by
      intro l
      induction l with
      | nil => simp
      | cons b l ih => intro a; simp only [List.map_cons, List.foldl_cons, add_fin, ih, List.sum_cons, add_assoc]
    exact this l a

theorem foldArgs_mul {cs : List ℝ} (h : cs ≠ []) : foldArgs (· * ·) (cs.map .fin) = some (.fin cs.prod) := by
  cases cs with
  | nil => exact absurd rfl h
  | cons a l =>
    simp only [List.map_cons, foldArgs, Option.some.injEq, List.prod_cons]
    have : ∀ (l : List ℝ) (a : ℝ), (l.map FVal.fin).foldl (· * ·) (.fin a) = .fin (a * l.prod) := by
      intro l
      induction l with
      | nil => simp
      | cons b l ih => intro a; simp only [List.map_cons, List.foldl_cons, mul_fin, ih, List.prod_cons, mul_assoc]
    exact this l a

/-- Every admissible node is rewritten, to layers that give the density of the function it computes. -/
theorem node_good {n : ElemNode} {D : Set ℝ} (h : n.Ok D) : ∃ ts, rewriteNode n = some ts ∧ Good ts n.fn D := by
  cases h with
  | @add l _ h hlen =>
    obtain ⟨h1, cs, h2, _, h4, h5⟩ := h.spec
    have hne : cs ≠ [] := by rintro rfl; simp at h4; omega
    refine ⟨[.loc (.fin cs.sum)], ?_, (good_loc cs.sum D).congr fun x => ((h5 x).1).symm⟩
    simp [rewriteNode, measurableAdd, constructElemwise, h1, h2, foldArgs_add hne]
  | @mul l _ h hlen =>
    obtain ⟨h1, cs, h2, h3, h4, h5⟩ := h.spec
    have hne : cs ≠ [] := by rintro rfl; simp at h4; omega
    have hp : cs.prod ≠ 0 := List.prod_ne_zero fun h0 => h3 0 h0 rfl
    refine ⟨[.scale (.fin cs.prod)], ?_, (good_scale hp D).congr fun x => ((h5 x).2).symm⟩
    simp [rewriteNode, measurableMul, constructElemwise, h1, h2, foldArgs_mul hne]
  | sub a =>
    refine ⟨[.loc (.fin (-a))], ?_, (good_loc (-a) D).congr fun x => by simp [ElemNode.fn, Arg.real, sub_eq_add_neg]⟩
    simp [rewriteNode, measurableSub, measurableMul, measurableAdd, constructElemwise, Arg.measCount, Arg.others, liftArg, foldArgs, Arg.value]
  | rsub a =>
    refine ⟨[.scale (.fin (-1))] ++ [.loc (.fin a)], ?_, ((good_scale (by norm_num : (-1 : ℝ) ≠ 0) D).comp (good_loc a _)).congr fun x => by
      simp [ElemNode.fn, Arg.real]; ring⟩
    simp [rewriteNode, measurableSub, measurableMul, measurableAdd, constructElemwise, Arg.measCount, Arg.others, liftArg, foldArgs]
  | @div a _ ha =>
    have h1 : (1 / a) ≠ 0 := by simpa using ha
    refine ⟨[.scale (.fin (1 / a))], ?_, (good_scale h1 D).congr fun x => by simp [ElemNode.fn, Arg.real, div_eq_mul_inv]⟩
    simp [rewriteNode, measurableTrueDivide, measurableMul, measurableReciprocal, constructElemwise, Arg.measCount, Arg.others, liftArg, foldArgs,
      Arg.value, reciprocal_fin ha]
  | @rdiv a _ ha hD =>
    refine ⟨[.reciprocal] ++ [.scale (.fin a)], ?_, ((good_reciprocal hD).comp (good_scale ha _)).congr fun x => by
      simp [ElemNode.fn, Arg.real]; ring⟩
    simp [rewriteNode, measurableTrueDivide, measurableMul, measurableReciprocal, constructElemwise, Arg.measCount, Arg.others, liftArg, foldArgs]
  | exp =>
    refine ⟨[.exp], by simp [rewriteNode, measurableExp, constructElemwise, Arg.measCount], Good.layer C49_exp C50_exp (subset_univ D)
      (fun x _ => by simp [RVTransform.exp, ElemNode.fn, Arg.real]) Real.continuous_exp.continuousOn⟩
  | log hD =>
    refine ⟨[.log], by simp [rewriteNode, measurableLog, constructElemwise, Arg.measCount], Good.layer C49_log C50_log hD
      (fun x hx => by simp [RVTransform.log, ElemNode.fn, Arg.real, log_fin_pos (hD hx)])
      (Real.continuousOn_log.mono fun x hx => ne_of_gt (hD hx))⟩
  | reciprocal hD =>
    exact ⟨[.reciprocal], by simp [rewriteNode, measurableReciprocal, constructElemwise, Arg.measCount], good_reciprocal hD⟩

/-- **C56** Towers of `+`, `-`, `*`, `/`, `exp`, `log` and `1/x` of any height over a variable with log-density `lp`: the rewrites apply to
every node, and the derived log-probability is the log-density of the function of the variable computed by the tower, on the set of
values it can take.  Missing: reciprocals of variables that take negative values, where the result is NaN (`C56_reciprocal_negative`). -/
theorem C56_elementwise_density_partial {ns : List ElemNode} {D : Set ℝ} (hok : TowerOk ns D) (hD : MeasurableSet D)
    {lp : FVal → Except Err FVal} {μ : Measure ℝ} (hlp : IsLogDensityOn (fun x => lp (.fin x)) D μ) :
    ∃ lp', derivedLogprob ns lp = some lp' ∧ IsLogDensityOn (fun y => lp' (.fin y)) (towerFn ns '' D) (μ.map (towerFn ns)) := by
  suffices H : ∃ lp', derivedLogprob ns lp = some lp' ∧ IsLogDensityOn (fun y => lp' (.fin y)) (towerFn ns '' D) (μ.map (towerFn ns)) ∧
      AEMeasurable (towerFn ns) μ by
    obtain ⟨lp', h1, h2, -⟩ := H
    exact ⟨lp', h1, h2⟩
  induction ns generalizing D lp μ with
  | nil =>
    have e : (towerFn [] : ℝ → ℝ) = id := rfl
    exact ⟨lp, rfl, by rw [e, image_id, Measure.map_id]; exact hlp, aemeasurable_id⟩
  | cons n ns ih =>
    obtain ⟨ts, hts, hgood⟩ := node_good hok.1
    obtain ⟨h1, h2, h3, -⟩ := hgood lp μ hD hlp
    obtain ⟨lp', e1, e2, e3⟩ := ih hok.2 h2 h1
    have ef : (towerFn (n :: ns)) = towerFn ns ∘ n.fn := rfl
    refine ⟨lp', by simp [derivedLogprob, hts, e1], ?_, e3.comp_aemeasurable h3⟩
    rw [ef, ← AEMeasurable.map_map_of_aemeasurable e3 h3, image_comp]
    exact e2

/-- `3 - 2 * exp(X + 1)` for a standard normal `X`. -/
example : let ns : List ElemNode := [.add [.meas, .other (.fin 1)], .exp .meas, .mul [.other (.fin 2), .meas], .sub (.other (.fin 3)) .meas]
    ∃ lp', derivedLogprob ns (fun v => normalLogprob v (.fin 0) (.fin 1)) = some lp' ∧
    IsLogDensityOn (fun y => lp' (.fin y)) (towerFn ns '' univ) ((ProbabilityTheory.gaussianReal 0 (1 ^ 2 : ℝ).toNNReal).map (towerFn ns)) :=
  C56_elementwise_density_partial (D := univ)
    (ns := [.add [.meas, .other (.fin 1)], .exp .meas, .mul [.other (.fin 2), .meas], .sub (.other (.fin 3)) .meas])
    ⟨.add (.here (l := [1]) (by simp)) (by simp), .exp _, .mul (.there (by norm_num) (.here (l := []) (by simp))) (by simp), .rsub _ _, trivial⟩
    MeasurableSet.univ ((C09_normal 0 one_pos).1.on (by simp))

/-- **C56** is false for the reciprocal of a variable with negative values: whatever the base log-probability is, at every negative value
the derived log-probability is NaN or an exception, never a density. -/
theorem C56_reciprocal_negative (lp : FVal → Except Err FVal) {y : ℝ} (hy : y < 0) {lp' : FVal → Except Err FVal}
    (h : derivedLogprob [.reciprocal .meas] lp = some lp') : ∀ l, lp' (.fin y) = .ok l → l = .nan := by
  intro l hl
  have e : lp' = measurableElemwiseLogprob .reciprocal lp := by
    simpa [derivedLogprob, rewriteNode, measurableReciprocal, constructElemwise, Arg.measCount, layersLogprob] using h.symm
  rw [e] at hl
  simp only [measurableElemwiseLogprob, RVTransform.reciprocal, log_fin_neg hy, bind, Except.bind] at hl
  cases hlp : lp (FVal.reciprocal (.fin y)) with
  | error e => rw [hlp] at hl; cases hl
  | ok v =>
    rw [hlp] at hl
    simp only [mul_nan, pure, Except.pure, add_nan, Except.ok.injEq] at hl
    exact hl.symm

/-- At `-1`, for `1/X` with `X` standard normal (which has a positive density there). -/
example : ∃ lp', derivedLogprob [.reciprocal .meas] (fun v => normalLogprob v (.fin 0) (.fin 1)) = some lp' ∧ lp' (.fin (-1)) = .ok .nan := by
  have h : derivedLogprob [.reciprocal .meas] (fun v => normalLogprob v (.fin 0) (.fin 1)) =
      some (measurableElemwiseLogprob .reciprocal fun v => normalLogprob v (.fin 0) (.fin 1)) := by
    simp [derivedLogprob, rewriteNode, measurableReciprocal, constructElemwise, Arg.measCount, layersLogprob]
  refine ⟨_, h, ?_⟩
  simp only [measurableElemwiseLogprob, RVTransform.reciprocal, reciprocal_fin (show (-1 : ℝ) ≠ 0 by norm_num), normal_eval _ 0 one_pos,
    log_fin_neg (show (-1 : ℝ) < 0 by norm_num), bind, Except.bind, mul_nan, add_nan]; rfl

/-- **C56**, converse: a node whose measurable variable occurs twice, or not at all, is not given a density by these rewrites. -/
theorem C56_not_one_measurable (inputs : List Arg) (h : Arg.measCount inputs ≠ 1) : rewriteNode (.add inputs) = none ∧ rewriteNode (.mul inputs) = none := by
  simp [rewriteNode, measurableAdd, measurableMul, constructElemwise, h]

example : rewriteNode (.mul [.meas, .meas]) = none := (C56_not_one_measurable _ (by simp [Arg.measCount])).2

/-! ## C57: values that cannot occur -/

/-- **C57** is false for `exp(X)`: at a negative value the derived log-probability is never `-inf`; it is NaN (or the base
log-probability raises), for every base distribution. -/
theorem C57_exp_negative (lp : FVal → Except Err FVal) {y : ℝ} (hy : y < 0) :
    ¬ IsNegInf (measurableElemwiseLogprob .exp lp (.fin y)) ∧ ∀ l, measurableElemwiseLogprob .exp lp (.fin y) = .ok l → l = .nan := by
  have h : ∀ l, measurableElemwiseLogprob .exp lp (.fin y) = .ok l → l = .nan := by
    intro l hl
    simp only [measurableElemwiseLogprob, RVTransform.exp, log_fin_neg hy, bind, Except.bind] at hl
    cases hlp : lp .nan with
    | error e => rw [hlp] at hl; cases hl
    | ok v =>
      rw [hlp] at hl
      simp only [neg_nan, pure, Except.pure, add_nan, Except.ok.injEq] at hl
      exact hl.symm
  exact ⟨fun hn => by have := h _ hn; simp at this, h⟩

/-- `exp(X)` at `-1`, for `X` standard normal: NaN. -/
example : measurableElemwiseLogprob .exp (fun v => normalLogprob v (.fin 0) (.fin 1)) (.fin (-1)) = .ok .nan := by
  have h1 : normalLogprob .nan (.fin 0) (.fin 1) = .ok .nan := by
    simp [normalLogprob, checkParam, FVal.sq]
  simp only [measurableElemwiseLogprob, RVTransform.exp, log_fin_neg (show (-1 : ℝ) < 0 by norm_num), h1, bind, Except.bind, neg_nan, add_nan]; rfl

/-- **C57**, where `backward` gives a finite number with a finite Jacobian term (every value, for `X + a`, `a X`, `log X`): the derived
log-probability is `-inf` exactly where the base log-probability of the back-transformed value is.  Missing: `exp` at non-positive
values and `1/X` at non-positive values. -/
theorem C57_neg_inf_partial (t : RVTransform) (lp : FVal → Except Err FVal) {y x j : ℝ} (hb : t.backward (.fin y) = .ok (.fin x))
    (hj : t.logJacDet (.fin y) = .ok (.fin j)) : IsNegInf (measurableElemwiseLogprob t lp (.fin y)) ↔ IsNegInf (lp (.fin x)) := by
  simp only [measurableElemwiseLogprob, hb, hj, bind, Except.bind, IsNegInf]
  cases lp (.fin x) with
  | error e => simp
  | ok v => cases v <;> simp [pure, Except.pure]

/-- `2 U + 1` with `U` uniform on `[0, 1]`, at `4`. -/
example : IsNegInf (measurableElemwiseLogprob (.scale (.fin 2)) (fun v => uniformLogprob v (.fin 0) (.fin 1)) (.fin 4)) :=
  (C57_neg_inf_partial _ _ (x := 2) (j := -Real.log |2|) (by simp [RVTransform.scale, div_fin]; norm_num)
    (by simp [RVTransform.scale, log_fin_pos])).2 (uniform_eval_out (by norm_num))

/-- **C57** for the transforms whose `backward` is defined everywhere. -/
theorem C57_loc_scale_log (lp : FVal → Except Err FVal) (y : ℝ) :
    (∀ a, IsNegInf (measurableElemwiseLogprob (.loc (.fin a)) lp (.fin y)) ↔ IsNegInf (lp (.fin (y - a)))) ∧
    (∀ a, a ≠ 0 → (IsNegInf (measurableElemwiseLogprob (.scale (.fin a)) lp (.fin y)) ↔ IsNegInf (lp (.fin (y / a))))) ∧
    (IsNegInf (measurableElemwiseLogprob .log lp (.fin y)) ↔ IsNegInf (lp (.fin (Real.exp y)))) :=
  ⟨fun a => C57_neg_inf_partial _ _ (j := 0) (by simp [RVTransform.loc]) (by simp [RVTransform.loc]),
    fun a ha => C57_neg_inf_partial _ _ (j := -Real.log |a|) (by simp [RVTransform.scale, div_fin _ ha])
      (by simp [RVTransform.scale, log_fin_pos (abs_pos.2 ha)]),
    C57_neg_inf_partial _ _ (j := y) (by simp [RVTransform.log]) (by simp [RVTransform.log])⟩

end Verif
