import Verif.Model.LibraryDefaults
import Verif.Spec.LibraryDefaults
import Verif.Lemmas.Library
import Verif.Props.IRTransform
import Verif.Props.Defaults

/-! # C136: default transforms put the variables of a model on the whole line -/

namespace Verif.Library
open Verif Cond FVal MeasureTheory ProbabilityTheory Set

theorem realOf_okOr (r : Except Err FVal) : realOf (.ok (okOr r)) = realOf r := by
  cases r <;> rfl

theorem default_at {d : Lib} {c : TransDist} {p : List FVal} {t : IR.VTransform} {r : RVTransform} (hc : d.transDist = some c) (ht : d.default = some t)
    (hr : defaultTransform c (.nan :: .nan :: .nan :: p) = .ok r) :
    t.at p = ⟨fun v => .ok (okOr (r.forward v)), fun v => .ok (okOr (r.backward v)), fun v => .ok (okOr (r.logJacDet v))⟩ := by
  rw [Lib.default, hc] at ht
  cases ht
  simp only [IR.VTransform.at, atParams, hr]
  rfl

theorem default_ok {d : Lib} {c : TransDist} {p : List FVal} {t : IR.VTransform} {r : RVTransform} {D S : Set ℝ} (hc : d.transDist = some c) (ht : d.default = some t)
    (hr : defaultTransform c (.nan :: .nan :: .nan :: p) = .ok r) (hi : Inverts r D S) (hj : LogJac r S) : Inverts (t.at p) D S ∧ LogJac (t.at p) S := by
  rw [default_at hc ht hr]
  refine ⟨⟨fun x hx => ?_, fun y hy => ?_⟩, fun y hy => ?_⟩
  · obtain ⟨y, hy, h1, h2⟩ := hi.fwd x hx
    exact ⟨y, hy, by simp only [h1, okOr], by simp only [h2, okOr]⟩
  · obtain ⟨x, hx, h1, h2⟩ := hi.bwd y hy
    exact ⟨x, hx, by simp only [h1, okOr], by simp only [h2, okOr]⟩
  · obtain ⟨s, h1, h2, h3⟩ := hj y hy
    refine ⟨s, ?_, h2, by simp only [h3, okOr]⟩
    simpa only [realOf_okOr] using h1

/-- **C136** (one variable) For every distribution of the library with a default transform, and parameters that fit: the transform maps the support onto the whole line and back, and its Jacobian term is the logarithm of the
absolute derivative. -/
theorem C136_transforms_partial {d : Lib} {p : List FVal} (h : d.Domain p) (hf : d.Fits p) {t : IR.VTransform} (ht : d.default = some t) :
    d.kind = .float ∧ Inverts (t.at p) (d.supp p) univ ∧ LogJac (t.at p) univ := by
  cases h with
  | @uniform a b hab => exact ⟨rfl, default_ok rfl ht rfl (C49_interval hab) (C50_interval hab)⟩
  | @halfnormal l s hs => exact ⟨rfl, default_ok rfl ht rfl (C49_interval_lower l) (C50_interval_lower l)⟩
  | @beta a b ha hb => exact ⟨rfl, default_ok rfl ht rfl C49_logodds C50_logodds⟩
  | @exponential m hm => exact ⟨rfl, default_ok rfl ht rfl C49_log C50_log⟩
  | @lognormal m s hs => exact ⟨rfl, default_ok rfl ht rfl C49_log C50_log⟩
  | @pareto a m ha hm =>
    have : a = m := hf
    subst this
    exact ⟨rfl, default_ok rfl ht rfl (C49_interval_lower a) (C50_interval_lower a)⟩
  | @halfcauchy l b hb =>
    have : l = 0 := hf
    subst this
    exact ⟨rfl, default_ok rfl ht rfl C49_log C50_log⟩
  | @gamma a s ha hs => exact ⟨rfl, default_ok rfl ht rfl C49_log C50_log⟩
  | @invgamma a b ha hb => exact ⟨rfl, default_ok rfl ht rfl C49_log C50_log⟩
  | @chisquare n hn => exact ⟨rfl, default_ok rfl ht rfl C49_log C50_log⟩
  | @wald m l hm hl => exact ⟨rfl, default_ok rfl ht rfl C49_log C50_log⟩
  | @weibull c hc => exact ⟨rfl, default_ok rfl ht rfl C49_log C50_log⟩
  | @vonmises m k hk => exact absurd hf id
  | @triangular a c b h1 h2 h3 => exact ⟨rfl, default_ok rfl ht rfl (C49_interval h3) (C50_interval h3)⟩
  | _ => cases ht

example := C136_transforms_partial (Lib.Domain.triangular (a := 0) (c := 1) (b := 3) (by norm_num) (by norm_num) (by norm_num)) trivial rfl
example := C136_transforms_partial (Lib.Domain.pareto (a := 2) (m := 2) two_pos two_pos) rfl rfl

/-- **C136** (no transform) The continuous distributions without default transform already have all real numbers as values. -/
theorem C136_no_transform {d : Lib} {p : List FVal} (h : d.default = none) (hk : d.kind = .float) : d.supp p = univ := by
  have h' : d.transDist = none := by
    rw [Lib.default] at h
    exact Option.map_eq_none_iff.1 h
  cases d <;> first | (exfalso; cases h'; done) | (exfalso; cases hk; done) | rfl

example := C136_no_transform (d := .gumbel) (p := [.fin 0, .fin 1]) rfl rfl

theorem float_of {d : Lib} (h : (d.kind == Full.Kind.int) = false) : d.kind = .float := by
  cases d <;> first | (exfalso; cases h; done) | rfl

section
variable {defs : ℕ → Option (IR.Expr Lib)} {reqs : Dict ℕ (Option (TransVals.Req IR.VTransform))} {tr : ℕ → Option IR.VTransform} {R : ℕ → Prop}

theorem range_line {it : IR.Item Lib} (hr : IR.Requested reqs Lib.default defs tr) (hdef : ∀ v r, Dict.get? reqs v = some (some r) → r = .default)
    (hit : ∃ e, defs it.v = some e ∧ IR.IsTower R e it.source it.layers) {ρ Y : ℕ → FVal} (hdom : it.source.dist.Domain (it.params R Y ρ))
    (hfit : Dict.get? reqs it.v = some (some .default) → it.layers = [] → it.source.dist.Fits (it.params R Y ρ)) :
    it.transRange tr Lib.supp R ρ Y = lineOr (fun v => Dict.get? reqs v = some (some .default)) R ρ Y it ∧ IR.TransOk (fun d : Lib => d.kind == .int) tr Lib.supp R ρ Y it := by
  obtain ⟨e, he, htw⟩ := hit
  have hrange : it.layers = [] → it.rangeAt Lib.supp R ρ Y = it.source.dist.supp (it.params R Y ρ) := by
    intro h
    rw [IR.Item.rangeAt, h]
    exact image_id' _
  cases ht : tr it.v with
  | none =>
    refine ⟨?_, fun t h => by rw [ht] at h; cases h⟩
    rw [IR.Item.transRange, ht, lineOr]
    simp only
    split_ifs with h
    · rw [hrange h.2.1]
      refine C136_no_transform ?_ h.2.2
      cases hd : it.source.dist.default with
      | none => rfl
      | some t =>
        have hl := h.2.1
        generalize it.layers = ls at htw hl
        generalize hs : it.source = s at htw hd
        cases htw with
        | rv id dist n args =>
          have := (hr it.v t).2 (.inr ⟨h.1, id, dist, n, args, he, hd⟩)
          rw [ht] at this; cases this
        | app i h1 h2 h3 => simp at hl
    · rfl
  | some t =>
    have hreq := (hr it.v t).1 ht
    rcases hreq with h | ⟨h, id, dist, n, args, hd, hreg⟩
    · exact absurd (hdef _ _ h) (by simp)
    rw [he] at hd
    cases hd
    have hls : it.layers = [] ∧ it.source.dist = dist := by
      generalize it.layers = ls at htw
      generalize it.source = s at htw
      cases htw with
      | rv => exact ⟨rfl, rfl⟩
    have hreg' : it.source.dist.default = some t := by rw [hls.2]; exact hreg
    obtain ⟨hk, hi, hj⟩ := C136_transforms_partial hdom (hfit h hls.1) hreg'
    have himg : it.transRange tr Lib.supp R ρ Y = univ := by
      rw [IR.Item.transRange, ht]
      simp only
      rw [hrange hls.1]
      refine eq_univ_of_forall fun y => ?_
      obtain ⟨x, hx, -, h2⟩ := hi.bwd y trivial
      refine ⟨x, hx, ?_⟩
      have h2' : Except.ok (t.forward (.fin x) (it.params R Y ρ)) = (Except.ok (.fin y) : Except Err FVal) := h2
      simp only [h2', realOf]
    refine ⟨?_, fun t' h' => ?_⟩
    · rw [himg, lineOr, if_pos ⟨h, hls.1, hk⟩]
    · rw [ht] at h'
      cases h'
      rw [himg, hrange hls.1]
      exact ⟨by simp only [hk]; rfl, MeasurableSet.univ, hi, hj⟩

theorem listed_items {isInt : Lib → Bool} : ∀ {l : List (IR.Item Lib)} {seen : List ℕ}, IR.Listed defs isInt R l seen → ∀ it ∈ l, ∃ e, defs it.v = some e ∧ IR.IsTower R e it.source it.layers
  | [], _, _, it, h => by cases h
  | jt :: l, seen, h, it, hit => by
    rcases List.mem_cons.1 hit with rfl | hit
    · exact h.1
    · exact listed_items h.2.2.2.2 it hit

theorem valid_lines (hr : IR.Requested reqs Lib.default defs tr) (hdef : ∀ v r, Dict.get? reqs v = some (some r) → r = .default) {X : (ℕ → ℝ) → ℕ → FVal} {ρ : ℕ → FVal} :
    ∀ {l : List (IR.Item Lib)} {τ : ℕ → ℝ}, (∀ it ∈ l, ∃ e, defs it.v = some e ∧ IR.IsTower R e it.source it.layers) →
      ValidDefaults (fun v => Dict.get? reqs v = some (some .default)) X R ρ l τ →
      IR.ValidT Lib.logprob Lib.law Lib.ref Lib.supp (fun d : Lib => d.kind == .int) tr X R ρ l τ ∧
      ∀ φ, IR.refT tr X Lib.ref Lib.supp R ρ l τ φ = lineE (fun v => Dict.get? reqs v = some (some .default)) X R ρ l τ φ
  | [], _, _, _ => ⟨trivial, fun _ => rfl⟩
  | it :: l, τ, hl, h => by
    obtain ⟨h1, h2, h3, h4⟩ := h
    obtain ⟨e1, e2⟩ := range_line hr hdef (hl it (by simp)) h1 h3
    have ih := fun z hz => valid_lines hr hdef (l := l) (fun jt hjt => hl jt (List.mem_cons_of_mem _ hjt)) (h4 z hz)
    refine ⟨⟨(all_described h1).1.good, h2, e2, fun z hz => (ih z (e1 ▸ hz)).1⟩, fun φ => ?_⟩
    rw [IR.refT, lineE, e1]
    have hm : MeasurableSet (lineOr (fun v => Dict.get? reqs v = some (some .default)) R ρ (X τ) it) := by
      rw [lineOr]
      split_ifs
      · exact MeasurableSet.univ
      · obtain ⟨e, -, htw⟩ := hl it (by simp)
        exact (IR.item_meas (kernel := Lib.logprob) (law := Lib.law) (ref := Lib.ref) (supp := Lib.supp) htw.supported (all_described h1).1.good h2).2
    exact setLIntegral_congr_fun hm fun z hz => (ih z hz).2 φ

/-- **C136** (joint density) Ask for the default transform of any of the variables of a model made of the library's distributions and of invertible functions.  As long as parameters are in range and default transforms fit,
the exponential of `joint_logprob` is the joint density of the transformed draws; every continuous random variable for which the default was asked ranges over all real numbers.  Missing: von Mises variables,
Pareto variables whose shape is larger than their scale and half-Cauchy variables at negative locations, for which the claim is false (`C136_vonmises_infinite`, `C136_pareto_mass`, `C136_halfcauchy_mass`).  With a smaller shape or a
positive location the draws do not reach the whole line; C95 covers them with the smaller range.  Also missing: transformed variables that come after a variable given through them (`C95_child_first`). -/
theorem C136_joint_density_partial (ρ : ℕ → FVal) (ω : ℕ → Lib → List FVal → FVal) {l : List (IR.Item Lib)} (hsrc : (l.map (·.source.id)).Nodup) {rvs clones : List ℕ} {realized : Dict ℕ ℕ}
    {tv : ℕ → ℕ} {order : List ℕ} (hs : IR.Setting (fun d : Lib => d.kind == .int) defs l rvs clones realized reqs Lib.default tr tv order)
    (hdef : ∀ v r, Dict.get? reqs v = some (some r) → r = .default) {S : ℕ → Bool} (hrun : IR.Steps (fun d : Lib => d.kind == .int) (IR.outputs defs (rvValues rvs clones realized)) (fun _ => false) S)
    (hF : IR.Final (fun d : Lib => d.kind == .int) (IR.outputs defs (rvValues rvs clones realized)) S) (env : (ℕ → ℝ) → ℕ → FVal)
    (henv : ∀ τ, IR.Env defs l (rvValues rvs clones realized) tr tv ρ τ (env τ))
    (hfirst : ∀ v, (tr v).isSome → ¬ IR.ChildFirst defs (Dict.keys (Cond.rvValues rvs clones realized)) v) :
    ∃ j, IR.jointT S defs reqs Lib.default tv order rvs clones realized =
        .ok (some (j, ((firstOcc rvs).filter (· ∉ Dict.keys realized)).map fun v => if (tr v).isSome then tv v else (Dict.get? (rvValues rvs clones realized) v).getD 0)) ∧
      ∀ X : (ℕ → ℝ) → ℕ → FVal, X = (fun τ => IR.takeBack tr (· ∈ l.map (·.v)) ρ τ l (Graph.asg τ)) →
      ∀ σ₀ τ₀ : ℕ → ℝ, ValidDefaults (fun v => Dict.get? reqs v = some (some .default)) X (· ∈ l.map (·.v)) ρ l τ₀ → ∀ ψ : (ℕ → ℝ) → ENNReal,
        lineE (fun v => Dict.get? reqs v = some (some .default)) X (· ∈ l.map (·.v)) ρ l τ₀ (fun τ => dens (IR.evalJointT Lib.logprob true (env τ) ω j) * ψ τ) =
          IR.sampleE Lib.law ρ l σ₀ fun σ => ψ (IR.transValues tr defs ρ (l.map (·.v)) τ₀ σ) := by
  obtain ⟨j, h1, h2⟩ := IR.C95_joint_density_partial Lib.logprob Lib.law Lib.ref Lib.supp (isInt := fun d : Lib => d.kind == .int) (fun d h => ref_float (float_of h)) ρ ω hsrc hs hrun hF env henv hfirst
  refine ⟨j, h1, fun X hX σ₀ τ₀ hv ψ => ?_⟩
  obtain ⟨e1, e2⟩ := valid_lines hs.requested hdef (listed_items hs.listed) hv
  rw [← e2]
  exact h2 X hX σ₀ τ₀ e1 ψ

end

/-! ## One variable: which part of the law reaches the line -/

/-- **C136** (mass) If the transform maps `D` onto the line, the transformed density has the mass that the law gives to `D`. -/
theorem C136_mass {lp : FVal → Except Err FVal} {μ : Measure ℝ} (hlp : IsLogDensity (fun x => lp (.fin x)) μ) {t : RVTransform} {D : Set ℝ} (hD : MeasurableSet D) (hi : Inverts t D univ) (hj : LogJac t univ) :
    ∫⁻ y, dens (transformedLogprob t lp true (.fin y)) = μ D := by
  have h : IsLogDensityOn (fun x => lp (.fin x)) D (μ.restrict D) :=
    ⟨fun y _ => hlp.clean y, fun s hs hm => by rw [Measure.restrict_apply hm, inter_eq_left.2 hs]; exact hlp.law s hm, by rw [Measure.restrict_apply hD.compl]; simp⟩
  have h2 := (C51_transformed_density hi hj MeasurableSet.univ h).law univ (subset_univ _) MeasurableSet.univ
  obtain ⟨-, hm, -⟩ := pushforward_density hi hj MeasurableSet.univ h (g := fun y => transformedLogprob t lp true (.fin y)) fun y _ x j l h1 h2 h3 => by
    simp only [transformedLogprob, h1, h2, h3, bind, Except.bind, if_true]; rfl
  rw [Measure.restrict_univ] at h2
  rw [h2, Measure.map_apply_of_aemeasurable hm MeasurableSet.univ, preimage_univ, Measure.restrict_apply_univ]

theorem law_above {d : Lib} {p : List FVal} (h : d.Domain p) (hk : d.kind = .float) {m : ℝ} (hs : d.supp p = Ioi m) (hpos : ∀ x, m < x → dens (d.logprob (fin x) p) ≠ 0) (a : ℝ) :
    d.law p (Ioi a) = 1 ↔ a ≤ m := by
  have hg : IR.GoodOn d.logprob d.law d.ref d.supp p := (all_described h).1.good
  rw [ref_float hk] at hg
  have := hg.prob
  have hc : d.law p (Ioi a) = 1 ↔ d.law p (Iic a) = 0 := by rw [← compl_Iic, prob_compl_eq_one_iff measurableSet_Iic]
  rw [hc, hg.dens, withDensity_apply_eq_zero hg.meas, hs]
  constructor
  · intro h0
    by_contra hlt
    rw [not_le] at hlt
    have hsub : Ioo m a ⊆ {x | ((Ioi m).indicator fun x : ℝ => dens (d.logprob (fin x) p)) x ≠ 0} ∩ Iic a := fun x hx =>
      ⟨by rw [mem_setOf_eq, indicator_of_mem (show x ∈ Ioi m from hx.1)]; exact hpos x hx.1, hx.2.le⟩
    have := measure_mono_null hsub h0
    rw [Real.volume_Ioo, ENNReal.ofReal_eq_zero] at this
    linarith
  · intro hle
    refine measure_mono_null (t := ∅) (fun x hx => ?_) measure_empty
    have : ¬ x ∈ Ioi m := not_lt.2 (le_trans hx.2 hle)
    exact absurd (indicator_of_notMem this _) hx.1

theorem dens_fin_ne (x : ℝ) : dens (.ok (.fin x)) ≠ 0 := by
  simp only [dens, FVal.toDens, ne_eq, ENNReal.ofReal_eq_zero, not_le]
  positivity

/-- The density of a Pareto variable on the scale of its default transform has mass one exactly if the shape is at most the scale: the transform starts at the shape, the law at the scale. -/
theorem C136_pareto_mass {a m : ℝ} (ha : 0 < a) (hm : 0 < m) : ∃ t, Lib.default .pareto = some t ∧
    (∫⁻ y, dens (transformedLogprob (t.at [fin a, fin m]) (fun v => Lib.logprob .pareto v [fin a, fin m]) true (.fin y)) = 1 ↔ a ≤ m) := by
  refine ⟨_, rfl, ?_⟩
  obtain ⟨h1, h2⟩ := default_ok (d := .pareto) (p := [fin a, fin m]) rfl rfl rfl (C49_interval_lower a) (C50_interval_lower a)
  rw [C136_mass (lp := fun v => Lib.logprob .pareto v [fin a, fin m]) (C16_pareto ha hm).1 measurableSet_Ioi h1 h2]
  refine law_above (.pareto ha hm) rfl rfl (fun x hx => ?_) a
  rw [show Lib.logprob .pareto (fin x) [fin a, fin m] = paretoLogprob (fin x) (fin a) (fin m) from rfl, pareto_eval_ge ha hm hx.le]
  exact dens_fin_ne _

/-- The same for half-Cauchy variables: mass one exactly if the location is not negative. -/
theorem C136_halfcauchy_mass (l : ℝ) {b : ℝ} (hb : 0 < b) : ∃ t, Lib.default .halfcauchy = some t ∧
    (∫⁻ y, dens (transformedLogprob (t.at [fin l, fin b]) (fun v => Lib.logprob .halfcauchy v [fin l, fin b]) true (.fin y)) = 1 ↔ 0 ≤ l) := by
  refine ⟨_, rfl, ?_⟩
  obtain ⟨h1, h2⟩ := default_ok (d := .halfcauchy) (p := [fin l, fin b]) rfl rfl rfl C49_log C50_log
  rw [C136_mass (lp := fun v => Lib.logprob .halfcauchy v [fin l, fin b]) (C18_halfcauchy l hb).1 measurableSet_Ioi h1 h2]
  refine law_above (.halfcauchy l hb) rfl rfl (fun x hx => ?_) 0
  rw [show Lib.logprob .halfcauchy (fin x) [fin l, fin b] = halfcauchyLogprob (fin x) (fin l) (fin b) from rfl, halfcauchy_eval_ge hb hx.le]
  exact dens_fin_ne _

/-- A von Mises variable on the scale of its default transform has infinite mass. -/
theorem C136_vonmises_infinite (m : ℝ) {k : ℝ} (hk : 0 < k) : ∃ t, Lib.default .vonmises = some t ∧
    ∫⁻ y, dens (transformedLogprob (t.at [fin m, fin k]) (fun v => Lib.logprob .vonmises v [fin m, fin k]) true (.fin y)) = ⊤ := by
  refine ⟨_, rfl, ?_⟩
  rw [default_at (d := .vonmises) (p := [fin m, fin k]) rfl rfl rfl]
  have := C51_circular_infinite_mass (lp := fun v => Lib.logprob .vonmises v [fin m, fin k]) (C24_vonmises m hk).1 ?_
  · rw [← this]
    rfl
  · have hg : IR.GoodOn (Lib.logprob .vonmises) (Lib.law .vonmises) _ (Lib.supp .vonmises) [fin m, fin k] := (all_described (.vonmises m hk)).1.good
    have hp := hg.prob
    intro h0
    have hc : Lib.law .vonmises [fin m, fin k] (Ioo (-Real.pi) Real.pi)ᶜ = 0 := by
      rw [hg.dens, withDensity_apply_eq_zero hg.meas]
      refine measure_mono_null (t := ∅) (fun x hx => ?_) measure_empty
      exact absurd (indicator_of_notMem hx.2 _) hx.1
    have h1 : Lib.law .vonmises [fin m, fin k] univ ≤ 0 := by
      rw [← union_compl_self (Ioo (-Real.pi) Real.pi)]
      exact (measure_union_le _ _).trans (by rw [hc, add_zero]; exact h0.le)
    rw [measure_univ] at h1
    exact absurd h1 (by norm_num)

/-- A Pareto variable with shape `3` and scale `2` loses mass; a half-Cauchy variable at `-1` as well. -/
example : ∃ t, Lib.default .pareto = some t ∧ ∫⁻ y, dens (transformedLogprob (t.at [fin 3, fin 2]) (fun v => Lib.logprob .pareto v [fin 3, fin 2]) true (.fin y)) ≠ 1 := by
  obtain ⟨t, h1, h2⟩ := C136_pareto_mass (a := 3) (m := 2) three_pos two_pos
  exact ⟨t, h1, fun h => absurd (h2.1 h) (by norm_num)⟩
example : ∃ t, Lib.default .halfcauchy = some t ∧ ∫⁻ y, dens (transformedLogprob (t.at [fin (-1), fin 2]) (fun v => Lib.logprob .halfcauchy v [fin (-1), fin 2]) true (.fin y)) ≠ 1 := by
  obtain ⟨t, h1, h2⟩ := C136_halfcauchy_mass (-1) (b := 2) two_pos
  exact ⟨t, h1, fun h => absurd (h2.1 h) (by norm_num)⟩

end Verif.Library
