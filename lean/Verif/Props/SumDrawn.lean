import Verif.Spec.SumDrawn
import Verif.Props.DrawnTerm
import Verif.Props.SumTree

/-! # The term of one variable made from sums of normal variables, given the draws that are left in it -/

namespace Verif.Full
open Verif Cond MeasureTheory ProbabilityTheory Set

variable {Di : Type}

/-! ## Sums -/

/-- The signed sum of numbers given for the variables of a sum. -/
noncomputable def linP (f : NPart Di → ℝ) (ps : List (NPart Di)) : ℝ := (ps.map fun p => p.sign * f p).sum

/-- The sum of the squares of numbers given for the variables of a sum. -/
noncomputable def varP (f : NPart Di → ℝ) (ps : List (NPart Di)) : ℝ := (ps.map fun p => f p ^ 2).sum

theorem linP_neg (f : NPart Di → ℝ) (hf : ∀ p, f p.neg = f p) (ps : List (NPart Di)) : linP f (ps.map NPart.neg) = -linP f ps := by
  induction ps with
  | nil => simp [linP]
  | cons p ps ih =>
    simp only [linP, List.map_cons, List.sum_cons] at ih ⊢
    rw [ih, hf]
    simp [NPart.neg]
    ring

theorem varP_neg (f : NPart Di → ℝ) (hf : ∀ p, f p.neg = f p) (ps : List (NPart Di)) : varP f (ps.map NPart.neg) = varP f ps := by simp [varP, hf, Function.comp_def]

theorem linP_append (f : NPart Di → ℝ) (ps qs : List (NPart Di)) : linP f (ps ++ qs) = linP f ps + linP f qs := by simp [linP]

theorem varP_append (f : NPart Di → ℝ) (ps qs : List (NPart Di)) : varP f (ps ++ qs) = varP f ps + varP f qs := by simp [varP]

theorem linP_flatten (f : NPart Di → ℝ) {n : ℕ} (ps : Fin n → List (NPart Di)) : linP f (List.ofFn ps).flatten = (List.ofFn fun i => linP f (ps i)).sum := by
  simp only [linP, List.map_flatten, List.sum_flatten, List.map_map, List.map_ofFn]
  rfl

theorem varP_flatten (f : NPart Di → ℝ) {n : ℕ} (ps : Fin n → List (NPart Di)) : varP f (List.ofFn ps).flatten = (List.ofFn fun i => varP f (ps i)).sum := by
  simp only [varP, List.map_flatten, List.sum_flatten, List.map_map, List.map_ofFn]
  rfl

theorem varP_nonneg (f : NPart Di → ℝ) (ps : List (NPart Di)) : 0 ≤ varP f ps :=
  List.sum_nonneg fun x hx => by obtain ⟨p, -, rfl⟩ := List.mem_map.1 hx; positivity

theorem varP_pos {f : NPart Di → ℝ} {ps : List (NPart Di)} (hne : ps ≠ []) (h : ∀ p ∈ ps, 0 < f p) : 0 < varP f ps := by
  cases ps with
  | nil => exact absurd rfl hne
  | cons p ps =>
    have h1 : varP f (p :: ps) = f p ^ 2 + varP f ps := by simp [varP]
    have := varP_nonneg f ps
    have := pow_pos (h p (by simp)) 2
    linarith

variable [IR.Normals Di]

/-- What is drawn. -/
theorem SumOf.value {R : ℕ → Prop} {e : Expr Di} {dist : Di} {mean sd : Expr Di} {ps : List (NPart Di)} (h : SumOf R e dist mean sd ps) (σ : ℕ → ℝ) (ρ : ℕ → FVal) :
    evalAt (Graph.asg σ) ρ e = .fin (linP (fun p => σ p.id) ps) := by
  induction h with
  | rv _ => simp [evalAt, linP, Graph.asg]
  | add _ _ ih => simp only [evalAt, ih, Op.eval, IR.Op.eval, IR.foldr_ofFn, linP_flatten]
  | sub _ _ ih =>
    simp only [evalAt, ih, List.ofFn_succ, List.ofFn_zero, Op.eval, IR.Op.eval]
    rw [show (Fin.succ (0 : Fin 1)) = (1 : Fin 2) from rfl, FVal.sub_fin, linP_append, linP_neg _ fun _ => rfl, sub_eq_add_neg]

/-- Values of graphs that are computed from the values of the inputs, at the node of `e` and at the nodes that are not in `R`. -/
def Follows (R : ℕ → Prop) (e : Expr Di) (val : Expr Di → FVal) : Prop :=
  ∀ id k op n (args : Fin n → Expr Di), ¬ (R id ∧ nodeId e ≠ some id) → val (.app id k op n args) = op.eval (List.ofFn fun i => val (args i))

omit [IR.Normals Di] in
theorem Follows.sub {R : ℕ → Prop} {e a : Expr Di} {val : Expr Di → FVal} (h : Follows R e val) (hv : ¬ HasValue R a) : Follows R a val :=
  fun id k op n args ho => h id k op n args fun hr => ho ⟨hr.1, fun hn => hv ⟨id, hn, hr.1⟩⟩

omit [IR.Normals Di] in
theorem Follows.app {R : ℕ → Prop} {id : ℕ} {k k' : Kind} {op op' : Op} {n n' : ℕ} {args' : Fin n' → Expr Di} {val : Expr Di → FVal} (h : Follows R (.app id k' op' n' args') val) (args : Fin n → Expr Di) :
    val (.app id k op n args) = op.eval (List.ofFn fun i => val (args i)) := h id k op n args fun hr => hr.2 rfl

omit [IR.Normals Di] in
theorem follows_evalAt (R : ℕ → Prop) (e : Expr Di) (σ ρ : ℕ → FVal) : Follows R e (evalAt σ ρ) := fun _ _ _ _ _ _ => rfl

/-- The mean and the standard deviation. -/
theorem SumOf.moments {R : ℕ → Prop} {e : Expr Di} {dist : Di} {mean sd : Expr Di} {ps : List (NPart Di)} (h : SumOf R e dist mean sd ps) {val : Expr Di → FVal} (hval : Follows R e val) {M S : NPart Di → ℝ}
    (hM : ∀ p, M p.neg = M p) (hS : ∀ p, S p.neg = S p)
    (hp : ∀ p ∈ ps, val (p.args 0) = .fin (M p) ∧ val (p.args 1) = .fin (S p) ∧ 0 ≤ S p) :
    val mean = .fin (linP M ps) ∧ val sd = .fin (Real.sqrt (varP S ps)) := by
  induction h with
  | @rv id dist args _ =>
    obtain ⟨h1, h2, h3⟩ := hp _ (List.mem_singleton.2 rfl)
    exact ⟨by simpa [linP] using h1, by simpa [varP, Real.sqrt_sq h3] using h2⟩
  | @add id k n args dists ms ss ps hv _ ih =>
    have h4 := fun i => ih i (hval.sub (hv i)) fun p hpi => hp p (List.mem_flatten.2 ⟨ps i, (List.mem_ofFn ..).2 ⟨i, rfl⟩, hpi⟩)
    constructor
    · simp only [hval.app, fun i => (h4 i).1, Op.eval, IR.Op.eval, IR.foldr_ofFn, linP_flatten]
    · simp only [hval.app, fun i => (h4 i).2, Op.eval, IR.Op.eval, IR.sqrtSumSq_sqrt fun i => varP_nonneg S (ps i), varP_flatten]
  | @sub id k args dists ms ss ps hv _ ih =>
    have h0 := ih 0 (hval.sub (hv 0)) fun p hp0 => hp p (List.mem_append_left _ hp0)
    have h1 := ih 1 (hval.sub (hv 1)) fun p hp1 => by
      have := hp p.neg (List.mem_append_right _ (List.mem_map.2 ⟨p, hp1, rfl⟩))
      rw [hM, hS] at this
      exact this
    have h4 : ∀ i, val (ms i) = .fin (linP M (ps i)) ∧ val (ss i) = .fin (Real.sqrt (varP S (ps i))) := fun i => by
      match i with
      | 0 => exact h0
      | 1 => exact h1
    constructor
    · simp only [hval.app, fun i => (h4 i).1, List.ofFn_succ, List.ofFn_zero, Op.eval, IR.Op.eval]
      rw [show (Fin.succ (0 : Fin 1)) = (1 : Fin 2) from rfl, FVal.sub_fin, linP_append, linP_neg _ hM, sub_eq_add_neg]
    · simp only [hval.app, fun i => (h4 i).2, Op.eval, IR.Op.eval, IR.sqrtSumSq_sqrt fun i => varP_nonneg S (ps i)]
      simp [List.ofFn_succ, varP_append, varP_neg S hS]

theorem SumOf.ne_nil {R : ℕ → Prop} {e : Expr Di} {dist : Di} {mean sd : Expr Di} {ps : List (NPart Di)} (h : SumOf R e dist mean sd ps) : ps ≠ [] := by
  induction h with
  | rv _ => simp
  | @add id k n args dists ms ss ps _ _ ih =>
    intro hnil
    exact ih 0 (List.flatten_eq_nil_iff.1 hnil (ps 0) ((List.mem_ofFn ..).2 ⟨_, rfl⟩))
  | sub _ _ ih =>
    intro hnil
    exact ih 0 (List.append_eq_nil_iff.1 hnil).1

theorem SumOf.part {R : ℕ → Prop} {e : Expr Di} {dist : Di} {mean sd : Expr Di} {ps : List (NPart Di)} (h : SumOf R e dist mean sd ps) {p : NPart Di} (hp : p ∈ ps) :
    p.sign ^ 2 = 1 ∧ IR.Normals.isNormal p.dist = true := by
  induction h generalizing p with
  | rv h => cases List.mem_singleton.1 hp; exact ⟨by norm_num, h⟩
  | add _ _ ih =>
    obtain ⟨l, hl, hpl⟩ := List.mem_flatten.1 hp
    obtain ⟨k, rfl⟩ := (List.mem_ofFn ..).1 hl
    exact ih k hpl
  | sub _ _ ih =>
    rcases List.mem_append.1 hp with hp | hp
    · exact ih 0 hp
    · obtain ⟨q, hq, rfl⟩ := List.mem_map.1 hp
      rw [show q.neg.sign = -q.sign from rfl, neg_sq]
      exact ih 1 hq

theorem SumOf.dist {R : ℕ → Prop} {e : Expr Di} {dist : Di} {mean sd : Expr Di} {ps : List (NPart Di)} (h : SumOf R e dist mean sd ps) : IR.Normals.isNormal dist = true := by
  induction h with
  | rv h => exact h
  | add _ _ ih => exact ih 0
  | sub _ _ ih => exact ih 0

theorem SumOf.nodeId {R : ℕ → Prop} {e : Expr Di} {dist : Di} {mean sd : Expr Di} {ps : List (NPart Di)} (h : SumOf R e dist mean sd ps) : ∃ id, Full.nodeId e = some id := by
  cases h <;> exact ⟨_, rfl⟩

theorem SumOf.normalVar {R : ℕ → Prop} {e : Expr Di} {dist : Di} {mean sd : Expr Di} {ps : List (NPart Di)} (h : SumOf R e dist mean sd ps) (hv : ¬ HasValue R e) : NormalVar R e := by
  induction h with
  | rv h => exact .rv h fun hr => hv ⟨_, rfl, hr⟩
  | add hva _ ih => exact .sum (.add (by omega)) (fun hr => hv ⟨_, rfl, hr⟩) fun i => ih i (hva i)
  | sub hva _ ih => exact .sum .sub (fun hr => hv ⟨_, rfl, hr⟩) fun i => ih i (hva i)

/-- A sum is made of normal variables without values. -/
theorem SumOf.args {R : ℕ → Prop} {id : ℕ} {k : Kind} {op : Op} {n : ℕ} {args : Fin n → Expr Di} {dist : Di} {mean sd : Expr Di} {ps : List (NPart Di)} (h : SumOf R (.app id k op n args) dist mean sd ps) :
    ∃ op', op = .elem op' ∧ IR.SumOp op' n ∧ ∀ i, NormalVar R (args i) := by
  cases h with
  | add hva h => exact ⟨_, rfl, .add (by omega), fun i => (h i).normalVar (hva i)⟩
  | sub hva h => exact ⟨_, rfl, .sub, fun i => (h i).normalVar (hva i)⟩

/-! ## Sampling sums -/

omit [IR.Normals Di] in
theorem sampleE_mono {law : Di → List FVal → Measure ℝ} {ρ : ℕ → FVal} (l : List (Source Di)) (σ : ℕ → ℝ) {φ ψ : (ℕ → ℝ) → ENNReal} (h : ∀ σ', Agree l σ σ' → φ σ' ≤ ψ σ') :
    sampleE law ρ l σ φ ≤ sampleE law ρ l σ ψ := by
  induction l generalizing σ with
  | nil => exact h σ fun _ _ => rfl
  | cons s l ih =>
    simp only [sampleE]
    refine lintegral_mono fun x => ih _ fun σ' hσ' => h σ' fun i hi => ?_
    simp only [List.map_cons, List.mem_cons, not_or] at hi
    rw [hσ' i hi.2, Function.update_of_ne hi.1]

/-- Drawing independent normal variables, their signed sum is normal. -/
theorem gauss_sample {W : World Di} (hN : NormalLaws W) {ρ : ℕ → FVal} {M S : NPart Di → ℝ} (ps : List (NPart Di)) (hps : ∀ p ∈ ps, p.sign ^ 2 = 1 ∧ IR.Normals.isNormal p.dist = true ∧ 0 < S p)
    (hnd : (ps.map (·.id)).Nodup) (σ : ℕ → ℝ) (hread : ∀ σ', Agree (ps.map NPart.source) σ σ' → ∀ p ∈ ps, p.source.params (evalAt (Graph.asg σ') ρ) = [.fin (M p), .fin (S p)])
    {F : ℝ → ENNReal} (hF : Measurable F) :
    sampleE W.law ρ (ps.map NPart.source) σ (fun σ' => F (linP (fun p => σ' p.id) ps)) = ∫⁻ x, F x ∂(gaussianReal (linP M ps) (varP S ps).toNNReal) := by
  induction ps generalizing σ F with
  | nil =>
    have h0 : linP M ([] : List (NPart Di)) = 0 := rfl
    have h1 : varP S ([] : List (NPart Di)) = 0 := rfl
    rw [h0, h1, Real.toNNReal_zero, gaussianReal_zero_var, lintegral_dirac' _ hF]
    rfl
  | cons p ps ih =>
    rw [List.map_cons, List.nodup_cons] at hnd
    obtain ⟨hp1, hp2, hp3⟩ := hps p (by simp)
    have hag : ∀ x σ', Agree (ps.map NPart.source) (Function.update σ p.id x) σ' → Agree ((p :: ps).map NPart.source) σ σ' := fun x σ' hσ' i hi => by
      simp only [List.map_cons, List.mem_cons, not_or] at hi
      rw [hσ' i hi.2, Function.update_of_ne (show i ≠ p.id from hi.1)]
    have e1 : ∀ x, sampleE W.law ρ (ps.map NPart.source) (Function.update σ p.id x) (fun σ' => F (linP (fun p => σ' p.id) (p :: ps))) =
        ∫⁻ y, F (p.sign * x + y) ∂(gaussianReal (linP M ps) (varP S ps).toNNReal) := by
      intro x
      rw [← ih (fun q hq => hps q (by simp [hq])) hnd.2 (Function.update σ p.id x) (fun σ' hσ' q hq => hread σ' (hag x σ' hσ') q (by simp [hq])) (F := fun y => F (p.sign * x + y))
        (hF.comp (measurable_const_add _))]
      refine sampleE_congr _ _ fun σ' hσ' => ?_
      have : σ' p.id = x := by
        rw [hσ' p.id, Function.update_self]
        rw [List.map_map]
        exact hnd.1
      simp only [linP, List.map_cons, List.sum_cons, this]
    rw [List.map_cons]
    simp only [sampleE]
    show ∫⁻ x, sampleE W.law ρ (ps.map NPart.source) (Function.update σ p.id x) _ ∂(W.law p.dist (p.source.params (evalAt (Graph.asg σ) ρ))) = _
    simp only [e1]
    rw [hread σ (fun _ _ => rfl) p (by simp), hN p.dist hp2 _ _ hp3]
    have e2 : gaussianReal (linP M (p :: ps)) (varP S (p :: ps)).toNNReal = ((gaussianReal (M p) (S p ^ 2).toNNReal).map (p.sign * ·)) ∗ gaussianReal (linP M ps) (varP S ps).toNNReal := by
      rw [gaussianReal_map_const_mul, gaussianReal_conv_gaussianReal]
      congr 1
      · apply NNReal.eq
        rw [NNReal.coe_add, NNReal.coe_mul, Real.coe_toNNReal _ (varP_nonneg _ _), Real.coe_toNNReal _ (by positivity), Real.coe_toNNReal _ (varP_nonneg _ _)]
        show _ = p.sign ^ 2 * S p ^ 2 + _
        rw [hp1]
        simp [varP]
    rw [e2, Measure.lintegral_conv hF, lintegral_map (by fun_prop) (measurable_const_mul _)]

theorem sample_sandwich {μ : Measure ℝ} {D : Set ℝ} (hD : MeasurableSet D) (hnull : μ Dᶜ = 0) {K : ℝ → ENNReal} {E : (ℝ → ENNReal) → ENNReal} (hE : ∀ F, Measurable F → E F = ∫⁻ x, F x ∂μ)
    (hK : Measurable (D.indicator K)) {c : ENNReal} (hlo : E (D.indicator K) ≤ c) (hhi : c ≤ E (fun x => D.indicator K x + Dᶜ.indicator (fun _ => ⊤) x)) : c = ∫⁻ x, K x ∂μ := by
  have hae : ∀ᵐ x ∂μ, x ∈ D := by rw [ae_iff]; exact hnull
  have h1 : E (D.indicator K) = ∫⁻ x, K x ∂μ := by
    rw [hE _ hK]
    refine lintegral_congr_ae ?_
    filter_upwards [hae] with x hx
    exact indicator_of_mem hx _
  have h2 : E (fun x => D.indicator K x + Dᶜ.indicator (fun _ => ⊤) x) = ∫⁻ x, K x ∂μ := by
    have hm : Measurable fun x => D.indicator K x + Dᶜ.indicator (fun _ => (⊤ : ENNReal)) x := hK.add (measurable_const.indicator hD.compl)
    rw [hE _ hm]
    refine lintegral_congr_ae ?_
    filter_upwards [hae] with x hx
    rw [indicator_of_mem hx, indicator_of_notMem (by simpa using hx), add_zero]
  exact le_antisymm (h2 ▸ hhi) (h1 ▸ hlo)

/-- Drawing what a random variable or a sum of normal variables is made of. -/
theorem BaseOf.sample {reg : Registry Di} {W : World Di} (hN : NormalLaws W) {R : ℕ → Prop} {val : Expr Di → FVal} {ρ : ℕ → FVal} {e : Expr Di} {s : Source Di} {l : List (Source Di)} (h : BaseOf R e s l) (hval : Follows R e val)
    (hok : SourceOk reg W s.dist (s.params val)) (hnd : (l.map (·.id)).Nodup) (σ : ℕ → ℝ)
    (hread : ∀ σ', Agree l σ σ' → ∀ s ∈ l, ∀ i, evalAt (Graph.asg σ') ρ (s.args i) = val (s.args i)) (hpar : GoodNormals val l)
    {Φ : (ℕ → ℝ) → ENNReal} {K : ℝ → ENNReal} (hK : Measurable ((W.supp s.dist (s.params val)).indicator K))
    (hΦ : ∀ σ' x, Agree l σ σ' → x ∈ W.supp s.dist (s.params val) → evalAt (Graph.asg σ') ρ e = .fin x → Φ σ' = K x) :
    sampleE W.law ρ l σ Φ = ∫⁻ x, K x ∂(W.law s.dist (s.params val)) := by
  cases h with
  | rv id dist n args =>
    refine single_sample hok (hread σ (fun _ _ => rfl) _ (List.mem_singleton.2 rfl)) fun x hx => hΦ _ x (agree_update _ _ _) hx ?_
    show FVal.fin (Function.update σ id x id) = _
    rw [Function.update_self]
  | @sum id k op n args dist mean sd ps h =>
    have hp : ∀ p ∈ ps, val (p.args 0) = .fin (realOf (.ok (val (p.args 0)))) ∧ val (p.args 1) = .fin (realOf (.ok (val (p.args 1)))) ∧ 0 < realOf (.ok (val (p.args 1))) := by
      intro p hp
      obtain ⟨m, s, hs, e⟩ := hpar p.source (List.mem_map.2 ⟨p, hp, rfl⟩) (h.part hp).2
      have e' : [val (p.args 0), val (p.args 1)] = [.fin m, .fin s] := e
      simp only [List.cons.injEq, and_true] at e'
      rw [e'.1, e'.2]
      exact ⟨rfl, rfl, hs⟩
    obtain ⟨h1, h2⟩ := h.moments hval (M := fun p => realOf (.ok (val (p.args 0)))) (S := fun p => realOf (.ok (val (p.args 1)))) (fun _ => rfl) (fun _ => rfl)
      fun p hp' => ⟨(hp p hp').1, (hp p hp').2.1, (hp p hp').2.2.le⟩
    have hpos := varP_pos h.ne_nil fun p hp' => (hp p hp').2.2
    have e1 : Source.params val ⟨id, dist, 2, ![mean, sd]⟩ = [.fin (linP (fun p => realOf (.ok (val (p.args 0)))) ps), .fin (Real.sqrt (varP (fun p => realOf (.ok (val (p.args 1)))) ps))] := by
      simp only [Source.params, List.ofFn_succ, List.ofFn_zero]
      exact congrArg₂ _ h1 (congrArg₂ _ h2 rfl)
    have hlaw : W.law dist (Source.params val ⟨id, dist, 2, ![mean, sd]⟩) = gaussianReal (linP (fun p => realOf (.ok (val (p.args 0)))) ps) (varP (fun p => realOf (.ok (val (p.args 1)))) ps).toNNReal := by
      rw [e1, hN dist h.dist _ _ (Real.sqrt_pos.2 hpos), Real.sq_sqrt hpos.le]
    have hE : ∀ F, Measurable F → sampleE W.law ρ (ps.map NPart.source) σ (fun σ' => F (linP (fun p => σ' p.id) ps)) = ∫⁻ x, F x ∂(W.law dist (Source.params val ⟨id, dist, 2, ![mean, sd]⟩)) := by
      intro F hF
      rw [hlaw]
      refine gauss_sample hN ps (fun p hp' => ⟨(h.part hp').1, (h.part hp').2, (hp p hp').2.2⟩) (by rw [List.map_map] at hnd; exact hnd) σ (fun σ' hσ' p hp' => ?_) hF
      rw [params_congr (val' := val) (hread σ' hσ' p.source (List.mem_map.2 ⟨p, hp', rfl⟩))]
      simp only [Source.params, List.ofFn_succ, List.ofFn_zero]
      exact congrArg₂ _ (hp p hp').1 (congrArg₂ _ (hp p hp').2.1 rfl)
    refine sample_sandwich hok.good.set (goodOn_null hok.good) hE hK (sampleE_mono _ _ fun σ' hσ' => ?_) (sampleE_mono _ _ fun σ' hσ' => ?_)
    all_goals by_cases hx : linP (fun p => σ' p.id) ps ∈ W.supp dist (Source.params val ⟨id, dist, 2, ![mean, sd]⟩)
    · rw [hΦ σ' _ hσ' hx (h.value σ' ρ)]
      exact (indicator_of_mem hx K).le
    · exact (indicator_of_notMem hx K).le.trans zero_le
    · rw [hΦ σ' _ hσ' hx (h.value σ' ρ)]
      exact (indicator_of_mem hx K).ge.trans le_self_add
    · exact le_top.trans ((indicator_of_mem (s := (W.supp dist (Source.params val ⟨id, dist, 2, ![mean, sd]⟩))ᶜ) hx fun _ => (⊤ : ENNReal)).ge.trans le_add_self)

/-! ## Trees with sums -/

theorem BaseOf.nodeId {R : ℕ → Prop} {e : Expr Di} {s : Source Di} {l : List (Source Di)} (h : BaseOf R e s l) : Full.nodeId e = some s.id := by
  cases h <;> rfl

theorem SumOf.uses {R : ℕ → Prop} {e : Expr Di} {dist : Di} {mean sd : Expr Di} {ps : List (NPart Di)} (h : SumOf R e dist mean sd ps) {p : NPart Di} (hp : p ∈ ps) : Uses p.id e := by
  induction h generalizing p with
  | rv h => cases List.mem_singleton.1 hp; exact .inl rfl
  | add _ _ ih =>
    obtain ⟨l, hl, hpl⟩ := List.mem_flatten.1 hp
    obtain ⟨k, rfl⟩ := (List.mem_ofFn ..).1 hl
    exact .inr ⟨k, ih k hpl⟩
  | sub _ _ ih =>
    rcases List.mem_append.1 hp with hp | hp
    · exact .inr ⟨0, ih 0 hp⟩
    · obtain ⟨q, hq, rfl⟩ := List.mem_map.1 hp
      have := ih 1 (p := q) hq
      exact .inr ⟨1, this⟩

theorem BaseOf.uses {R : ℕ → Prop} {e : Expr Di} {s : Source Di} {l : List (Source Di)} (h : BaseOf R e s l) {s' : Source Di} (hs : s' ∈ l) : Uses s'.id e := by
  cases h with
  | rv id dist n args => cases List.mem_singleton.1 hs; exact .inl rfl
  | sum h =>
    obtain ⟨p, hp, rfl⟩ := List.mem_map.1 hs
    exact h.uses hp

theorem MadeOf.uses {R : ℕ → Prop} {kd : Di → Kind} {hasCdf : Di → Bool} {e : Expr Di} {t : RTree Di} {l : List (Source Di)} (h : MadeOf R kd hasCdf e t l) {s : Source Di} (hs : s ∈ l) : Uses s.id e := by
  induction h with
  | base h => exact h.uses hs
  | elem i _ _ _ _ _ ih => exact .inr ⟨i, ih hs⟩
  | clip h _ _ => exact .inr ⟨0, h.uses hs⟩
  | round h _ _ _ => exact .inr ⟨0, h.uses hs⟩
  | pick _ _ _ ih =>
    obtain ⟨i, -, hi⟩ := List.mem_flatMap.1 hs
    exact .inr ⟨i.succ, ih i hi⟩

theorem BaseOf.exists_source {R : ℕ → Prop} {e : Expr Di} {s : Source Di} {l : List (Source Di)} (h : BaseOf R e s l) : ∃ s', s' ∈ l := by
  cases h with
  | rv id dist n args => exact ⟨_, List.mem_singleton_self _⟩
  | sum h =>
    obtain ⟨p, hp⟩ := List.exists_mem_of_ne_nil _ h.ne_nil
    exact ⟨_, List.mem_map.2 ⟨p, hp, rfl⟩⟩

theorem MadeOf.exists_source {R : ℕ → Prop} {kd : Di → Kind} {hasCdf : Di → Bool} {e : Expr Di} {t : RTree Di} {l : List (Source Di)} (h : MadeOf R kd hasCdf e t l) : ∃ s, s ∈ l := by
  induction h with
  | base h => exact h.exists_source
  | elem i _ _ _ _ _ ih => exact ih
  | clip h _ _ => exact h.exists_source
  | round h _ _ _ => exact h.exists_source
  | pick hm _ _ ih =>
    obtain ⟨s, hs⟩ := ih ⟨0, hm⟩
    exact ⟨s, List.mem_flatMap.2 ⟨_, List.mem_finRange _, hs⟩⟩

theorem SumOf.inputs {R : ℕ → Prop} {e : Expr Di} {dist : Di} {mean sd : Expr Di} {ps : List (NPart Di)} (h : SumOf R e dist mean sd ps) {P : Expr Di → Prop} (he : P e)
    (happ : ∀ id k op n args, P (.app id k op n args) → ∀ i : Fin n, P (args i)) (hrv : ∀ id dist n args, P (.rv id dist n args) → ∀ i : Fin n, P (args i)) {p : NPart Di} (hp : p ∈ ps) (i : Fin 2) :
    P (p.args i) := by
  induction h generalizing p with
  | rv h => cases List.mem_singleton.1 hp; exact hrv _ _ _ _ he i
  | add _ _ ih =>
    obtain ⟨l, hl, hpl⟩ := List.mem_flatten.1 hp
    obtain ⟨k, rfl⟩ := (List.mem_ofFn ..).1 hl
    exact ih k (happ _ _ _ _ _ he k) hpl
  | sub _ _ ih =>
    rcases List.mem_append.1 hp with hp | hp
    · exact ih 0 (happ _ _ _ _ _ he 0) hp
    · obtain ⟨q, hq, rfl⟩ := List.mem_map.1 hp
      have := ih 1 (happ _ _ _ _ _ he 1) (p := q) hq
      exact this

theorem BaseOf.inputs {R : ℕ → Prop} {e : Expr Di} {s : Source Di} {l : List (Source Di)} (h : BaseOf R e s l) {P : Expr Di → Prop} (he : P e)
    (happ : ∀ id k op n args, P (.app id k op n args) → ∀ i : Fin n, P (args i)) (hrv : ∀ id dist n args, P (.rv id dist n args) → ∀ i : Fin n, P (args i)) : ∀ s' ∈ l, ∀ i, P (s'.args i) := by
  intro s' hs i
  cases h with
  | rv id dist n args => cases List.mem_singleton.1 hs; exact hrv _ _ _ _ he i
  | sum h =>
    obtain ⟨p, hp, rfl⟩ := List.mem_map.1 hs
    exact h.inputs he happ hrv hp i

theorem MadeOf.inputs {R : ℕ → Prop} {kd : Di → Kind} {hasCdf : Di → Bool} {e : Expr Di} {t : RTree Di} {l : List (Source Di)} (h : MadeOf R kd hasCdf e t l) {P : Expr Di → Prop} (he : P e)
    (happ : ∀ id k op n args, P (.app id k op n args) → ∀ i : Fin n, P (args i)) (hrv : ∀ id dist n args, P (.rv id dist n args) → ∀ i : Fin n, P (args i)) :
    t.Surround P ∧ ∀ s ∈ l, ∀ i, P (s.args i) := by
  induction h with
  | base h => exact ⟨trivial, h.inputs he happ hrv⟩
  | @elem id k op n args t l i _ _ _ _ _ ih =>
    have ha := happ _ _ _ _ _ he
    exact ⟨⟨fun j _ => ha j, (ih (ha i)).1⟩, (ih (ha i)).2⟩
  | @clip id k args s l h _ _ =>
    have ha := happ _ _ _ _ _ he
    refine ⟨⟨fun b hb => ?_, fun b hb => ?_⟩, h.inputs (ha 0) happ hrv⟩
    · rw [boundOf_mem hb]; exact ha 1
    · rw [boundOf_mem hb]; exact ha 2
  | @round id k r args s l h _ _ _ => exact ⟨trivial, h.inputs (happ _ _ _ _ _ he 0) happ hrv⟩
  | @pick id k m args ts ls _ _ _ ih =>
    have ha := happ _ _ _ _ _ he
    refine ⟨⟨ha 0, fun i => (ih i (ha i.succ)).1⟩, fun s hs => ?_⟩
    obtain ⟨i, -, hi⟩ := List.mem_flatMap.1 hs
    exact (ih i (ha i.succ)).2 s hi

omit [IR.Normals Di] in
theorem RTree.Surround.imp₂ {P Q T : Expr Di → Prop} {t : RTree Di} (h : t.Surround P) (h' : t.Surround Q) (hT : ∀ a, P a → Q a → T a) : t.Surround T := by
  induction t with
  | rv s => trivial
  | elem op n idx args t ih => exact ⟨fun j hj => hT _ (h.1 j hj) (h'.1 j hj), ih h.2 h'.2⟩
  | clip lo hi s => exact ⟨fun e he => hT _ (h.1 e he) (h'.1 e he), fun e he => hT _ (h.2 e he) (h'.2 e he)⟩
  | round r s => trivial
  | mix idx k comps ih => exact ⟨hT _ h.1 h'.1, fun i => ih i (h.2 i) (h'.2 i)⟩

omit [IR.Normals Di] in
theorem RTree.Surround.imp {P T : Expr Di → Prop} {t : RTree Di} (h : t.Surround P) (hT : ∀ a, P a → T a) : t.Surround T := h.imp₂ h fun a h _ => hT a h

theorem MadeOf.supported {R : ℕ → Prop} {kd : Di → Kind} {hasCdf : Di → Bool} {e : Expr Di} {t : RTree Di} {l : List (Source Di)} (h : MadeOf R kd hasCdf e t l) : t.Supported := by
  induction h with
  | base _ => trivial
  | elem i hs _ _ _ _ ih => exact ⟨hs, ih⟩
  | clip _ _ _ => trivial
  | round _ _ _ _ => trivial
  | pick _ _ _ ih => exact ih

theorem BaseOf.eval_congr {R : ℕ → Prop} {e : Expr Di} {s : Source Di} {l : List (Source Di)} (h : BaseOf R e s l) {σ σ' : ℕ → ℝ} {ρ : ℕ → FVal} (hs : ∀ s ∈ l, σ s.id = σ' s.id) :
    evalAt (Graph.asg σ) ρ e = evalAt (Graph.asg σ') ρ e := by
  cases h with
  | rv id dist n args => exact congrArg FVal.fin (hs _ (List.mem_singleton.2 rfl))
  | @sum id k op n args dist mean sd ps h =>
    rw [h.value, h.value, linP, linP]
    congr 2
    exact List.map_congr_left fun p hp => by rw [hs p.source (List.mem_map.2 ⟨p, hp, rfl⟩) |> (show σ p.id = σ' p.id from ·)]

/-- The value depends on the draws and on what else it is made from. -/
theorem MadeOf.eval_congr {R : ℕ → Prop} {kd : Di → Kind} {hasCdf : Di → Bool} {defs : ℕ → Option (Expr Di)} {e : Expr Di} {t : RTree Di} {l : List (Source Di)} (h : MadeOf R kd hasCdf e t l) (hc : Closed defs e)
    {σ σ' : ℕ → ℝ} {ρ : ℕ → FVal} (hin : t.Surround fun a => evalAt (Graph.asg σ) ρ a = evalAt (Graph.asg σ') ρ a) (hs : ∀ s ∈ l, σ s.id = σ' s.id) :
    evalAt (Graph.asg σ) ρ e = evalAt (Graph.asg σ') ρ e := by
  induction h with
  | base h => exact h.eval_congr hs
  | @elem id k op n args t l i _ _ _ _ _ ih =>
    simp only [evalAt]
    congr 2
    funext j
    by_cases hj : j = i
    · subst hj; exact ih (hc.2 j) hin.2 hs
    · exact hin.1 j hj
  | @clip id k args s l h0 _ _ =>
    have e0 := h0.eval_congr (ρ := ρ) hs
    have hb : ∀ j : Fin 3, (∀ b ∈ boundOf s.id (args j), evalAt (Graph.asg σ) ρ b = evalAt (Graph.asg σ') ρ b) → evalAt (Graph.asg σ) ρ (args j) = evalAt (Graph.asg σ') ρ (args j) := by
      intro j hj
      rcases bound_cases h0.nodeId (hc.2 0) (hc.2 j) with ⟨-, h⟩ | h
      · rw [h]; exact e0
      · exact hj _ (by rw [h]; rfl)
    simp only [evalAt]
    congr 2
    funext j
    match j with
    | 0 => exact e0
    | 1 => exact hb 1 hin.1
    | 2 => exact hb 2 hin.2
  | @round id k r args s l h0 _ _ _ =>
    have e0 := h0.eval_congr (ρ := ρ) hs
    simp only [evalAt]
    congr 2
    funext j
    rw [Subsingleton.elim j 0]
    exact e0
  | @pick id k m args ts ls _ _ _ ih =>
    simp only [evalAt]
    congr 2
    funext j
    cases j using Fin.cases with
    | zero => exact hin.1
    | succ j => exact ih j (hc.2 j.succ) (hin.2 j) fun s hs' => hs s (List.mem_flatMap.2 ⟨j, List.mem_finRange j, hs'⟩)

/-- A drawn variable is one of the random variables of the tree, or a normal variable. -/
theorem MadeOf.source_or {R : ℕ → Prop} {kd : Di → Kind} {hasCdf : Di → Bool} {e : Expr Di} {t : RTree Di} {l : List (Source Di)} (h : MadeOf R kd hasCdf e t l) {s : Source Di} (hs : s ∈ l) :
    s ∈ t.sources ∨ IR.Normals.isNormal s.dist = true := by
  have hbase : ∀ {e : Expr Di} {s' : Source Di} {l : List (Source Di)}, BaseOf R e s' l → s ∈ l → s ∈ [s'] ∨ IR.Normals.isNormal s.dist = true := by
    intro e s' l h hs
    cases h with
    | rv id dist n args => exact .inl hs
    | sum h =>
      obtain ⟨p, hp, rfl⟩ := List.mem_map.1 hs
      exact .inr (h.part hp).2
  induction h with
  | base h => exact hbase h hs
  | elem i _ _ _ _ _ ih => exact ih hs
  | clip h _ _ => exact hbase h hs
  | round h _ _ _ => exact hbase h hs
  | pick _ _ _ ih =>
    obtain ⟨i, -, hi⟩ := List.mem_flatMap.1 hs
    exact (ih i hi).imp_left fun h => List.mem_flatMap.2 ⟨i, List.mem_finRange i, h⟩

omit [IR.Normals Di] in
theorem measurable_within {A B : Set ℝ} {K : ℝ → ENNReal} {f g : ℝ → ℝ} (hA : MeasurableSet A) (hg : Measurable g) (hfg : ∀ x ∈ A, f x = g x) (hB : ∀ x ∈ A, f x ∈ B) (hK : Measurable (B.indicator K)) :
    Measurable (A.indicator fun x => K (f x)) := by
  have : A.indicator (fun x => K (f x)) = A.indicator (B.indicator K ∘ g) := by
    funext x
    by_cases hx : x ∈ A
    · rw [indicator_of_mem hx, indicator_of_mem hx, Function.comp_apply, ← hfg x hx, indicator_of_mem (hB x hx)]
    · rw [indicator_of_notMem hx, indicator_of_notMem hx]
  rw [this]
  exact (hK.comp hg).indicator hA

omit [IR.Normals Di] in
theorem measurable_roundTo (r : RoundOp) : Measurable fun x : ℝ => (roundTo r x : ℝ) := by
  have h : Measurable (roundTo r) := by
    refine measurable_to_countable' fun k => ?_
    have : roundTo r ⁻¹' {k} = roundsTo r k := by
      ext x
      simp only [mem_preimage, mem_singleton_iff]
      constructor
      · rintro rfl; exact roundTo_mem r x
      · exact fun h => roundsTo_disjoint r (roundTo_mem r x) h
    rw [this]
    exact roundsTo_measurable r k
  exact measurable_from_top.comp h

open scoped Classical in
/-- Drawing the random variables that a variable is made from, expectations of functions of its value are as described. -/
theorem MadeOf.sample {reg : Registry Di} {W : World Di} (hN : NormalLaws W) {R : ℕ → Prop} {hasCdf : Di → Bool} {defs : ℕ → Option (Expr Di)} {val : Expr Di → FVal} (hconst : ∀ x, val (.const x) = x) {ρ : ℕ → FVal} {e : Expr Di} {t : RTree Di} {l : List (Source Di)}
    (h : MadeOf R W.kd hasCdf e t l) (hval : Follows R e val) (hok : t.Ok reg W val) (hc : Closed defs e) (hnd : (l.map (·.id)).Nodup) (σ : ℕ → ℝ)
    (hread : ∀ σ', Agree l σ σ' → (t.Surround fun a => evalAt (Graph.asg σ') ρ a = val a) ∧ ∀ s ∈ l, ∀ i, evalAt (Graph.asg σ') ρ (s.args i) = val (s.args i))
    (hpar : GoodNormals val l) {Φ : (ℕ → ℝ) → ENNReal} {K : ℝ → ENNReal} (hK : Measurable ((t.range W val).indicator K))
    (hΦ : ∀ σ' y, Agree l σ σ' → y ∈ t.range W val → evalAt (Graph.asg σ') ρ e = .fin y → Φ σ' = K y) : sampleE W.law ρ l σ Φ = treeE W val t K := by
  induction h generalizing σ Φ K with
  | base h => exact h.sample hN hval hok hnd σ (fun σ' hσ' => (hread σ' hσ').2) hpar hK hΦ
  | @elem id k op n args t l i hs hv hk hm ht ih =>
    obtain ⟨h1, h2, -⟩ := hok
    obtain ⟨nd, a1, a2, a3⟩ := IR.Layer.node_ok (l := elemLayer val op n i args) hs h2
    have hd := RTree.described (reg := reg) hconst ht.supported h1
    obtain ⟨us, c1, c2⟩ := node_solid hd.set a2
    have hfn : ∀ x ∈ t.range W val, (elemLayer val op n i args).fn constVal x = nd.fn x := fun x hx => by rw [IR.Layer.fn, a3 x hx]; rfl
    have hmeas : Measurable ((t.range W val).indicator fun y => K ((elemLayer val op n i args).fn constVal y)) := by
      refine measurable_within (g := (t.range W val).piecewise nd.fn fun _ => 0) hd.set (c2.cont.measurable_piecewise continuousOn_const hd.set) (fun x hx => ?_) (fun x hx => mem_image_of_mem _ hx) hK
      rw [hfn x hx, piecewise_eq_of_mem _ _ _ hx]
    refine ih (hval.sub hv) h1 (hc.2 i) hnd σ (fun σ' hσ' => ⟨(hread σ' hσ').1.2, (hread σ' hσ').2⟩) hpar hmeas fun σ' y hσ' hy he => hΦ σ' _ hσ' ⟨y, hy, rfl⟩ ?_
    have e1 : evalAt (Graph.asg σ') ρ (.app id k (.elem op) n args) = IR.Layer.out constVal (elemLayer val op n i args) y := by
      simp only [evalAt, IR.Layer.out, Op.eval, elemLayer]
      congr 2
      funext j
      by_cases hj : j = i
      · subst hj; simp [he]
      · simp only [hj, if_false]
        exact (hread σ' hσ').1.1 j hj
    rw [e1, IR.Layer.fn, a3 y hy]
    rfl
  | @clip id k args s l h0 hR hcdf =>
    obtain ⟨h1, h2, h3, h4, -⟩ := hok
    refine h0.sample hN (hval.sub hR) h1 hnd σ (fun σ' hσ' => (hread σ' hσ').2) hpar (K := fun x => K (clipTo (boundVal val (boundOf s.id (args 1))) (boundVal val (boundOf s.id (args 2))) x))
      (measurable_within h1.good.set (measurable_clipTo _ _) (fun _ _ => rfl) (fun x hx => mem_image_of_mem _ hx) hK) fun σ' x hσ' hx e0 => hΦ σ' _ hσ' ⟨x, hx, rfl⟩ ?_
    obtain ⟨⟨r1, r2⟩, -⟩ := hread _ hσ'
    have hn := h0.nodeId
    have e1 : evalAt (Graph.asg σ') ρ (.app id k .clip 3 args) = clipEval (evalAt (Graph.asg σ') ρ (args 0)) (evalAt (Graph.asg σ') ρ (args 1)) (evalAt (Graph.asg σ') ρ (args 2)) := by
      simp only [evalAt, List.ofFn_succ, List.ofFn_zero]
      rfl
    rw [e1, e0]
    refine clip_value ?_ ?_ h4
    · rcases bound_cases hn (hc.2 0) (hc.2 1) with ⟨hb, hb'⟩ | hb
      · rw [hb, hb', e0]; exact .inr ⟨rfl, .inr rfl⟩
      · rw [hb] at h2 r1 ⊢
        rw [r1 _ rfl]
        rcases h2 _ rfl with ⟨a, ha⟩ | ha
        · exact .inl ⟨a, by rw [boundVal, ha], ha⟩
        · exact .inr ⟨by rw [boundVal, ha], .inl ha⟩
    · rcases bound_cases hn (hc.2 0) (hc.2 2) with ⟨hb, hb'⟩ | hb
      · rw [hb, hb', e0]; exact .inr ⟨rfl, .inr rfl⟩
      · rw [hb] at h3 r2 ⊢
        rw [r2 _ rfl]
        rcases h3 _ rfl with ⟨a, ha⟩ | ha
        · exact .inl ⟨a, by rw [boundVal, ha], ha⟩
        · exact .inr ⟨by rw [boundVal, ha], .inl ha⟩
  | @round id k r args s l h0 hR hcdf hf =>
    refine h0.sample hN (hval.sub hR) hok.1 hnd σ (fun σ' hσ' => (hread σ' hσ').2) hpar (K := fun x => K (roundTo r x))
      (measurable_within (B := {y | ∃ k : ℤ, y = k ∧ ∃ x ∈ W.supp s.dist (s.params val), x ∈ roundsTo r k}) hok.1.good.set (measurable_roundTo r) (fun _ _ => rfl) (fun x hx => ⟨roundTo r x, rfl, x, hx, roundTo_mem r x⟩) hK) fun σ' x hσ' hx e0 => hΦ σ' _ hσ' ⟨roundTo r x, rfl, x, hx, roundTo_mem r x⟩ ?_
    rw [← roundTo_eval, ← e0]
    simp only [evalAt, List.ofFn_succ, List.ofFn_zero]
    rfl
  | @pick id k m args ts ls hm hv ht ih =>
    obtain ⟨⟨i, hi, h1⟩, hprob⟩ := hok
    have hch : chosen (val (args 0)) m = some i := by rw [hi]; exact chosen_eq i
    have e1 : treeE W val (.mix (args 0) m ts) K = treeE W val (ts i) K := by simp only [treeE, hch]
    have e3 : RTree.range W val (.mix (args 0) m ts) = (ts i).range W val := by simp only [RTree.range, hch]
    obtain ⟨l1, l2, hl⟩ := List.append_of_mem (List.mem_finRange i)
    have hsrc : (List.finRange m).flatMap ls = l1.flatMap ls ++ (ls i ++ l2.flatMap ls) := by
      simp only [hl, List.flatMap_append, List.flatMap_cons]
    set A := l1.flatMap ls with hA
    set C := l2.flatMap ls with hC
    set S := (List.finRange m).flatMap ls with hS
    have sA : A ⊆ S := fun x hx => by rw [hsrc]; simp [hx]
    have sB : ls i ⊆ S := fun x hx => by rw [hsrc]; simp [hx]
    have sC : C ⊆ S := fun x hx => by rw [hsrc]; simp [hx]
    have hP : ∀ σ', Agree S σ σ' → ∀ s ∈ S, IsProbabilityMeasure (W.law s.dist (s.params (evalAt (Graph.asg σ') ρ))) := by
      intro σ' hσ' s hs
      rw [params_congr fun j => (hread σ' hσ').2 s hs j]
      obtain ⟨j, -, hj⟩ := List.mem_flatMap.1 hs
      rcases (ht j).source_or hj with h | h
      · exact hprob j s h
      · obtain ⟨a, b, hb, e⟩ := hpar s hs h
        rw [e, hN s.dist h a b hb]
        infer_instance
    have hdisj : ∀ a ∈ ls i, ∀ c ∈ C, a.id ≠ c.id := by
      intro a ha c hc' hid
      rw [hsrc, List.map_append, List.map_append] at hnd
      exact (List.nodup_append.1 (List.nodup_append.1 hnd).2.1).2.2 _ (List.mem_map.2 ⟨a, ha, rfl⟩) _ (List.mem_map.2 ⟨c, hc', rfl⟩) hid
    have hndi : ((ls i).map (·.id)).Nodup := by
      rw [hsrc, List.map_append, List.map_append] at hnd
      exact (List.nodup_append.1 (List.nodup_append.1 hnd).2.1).1
    rw [e1, hsrc, sampleE_append]
    have hin : ∀ σ1, Agree A σ σ1 → sampleE W.law ρ (ls i ++ C) σ1 Φ = treeE W val (ts i) K := by
      intro σ1 hσ1
      rw [sampleE_append]
      refine ih i (hval.sub (hv i)) h1 (hc.2 i.succ) hndi σ1 (fun σ2 hσ2 => ⟨(hread σ2 (hσ1.trans hσ2 sA sB)).1.2 i, fun s hs => (hread σ2 (hσ1.trans hσ2 sA sB)).2 s (sB hs)⟩) (fun s hs => hpar s (sB hs)) (by rw [← e3]; exact hK) fun σ2 y hσ2 hy hev => ?_
      have h12 := hσ1.trans hσ2 sA sB
      have h123 : ∀ σ3, Agree C σ2 σ3 → Agree S σ σ3 := fun σ3 hσ3 => h12.trans hσ3 (fun _ h => h) sC
      rw [sampleE_congr C σ2 (ψ := fun _ => K y)]
      · exact sampleE_const C σ2 (fun σ3 hσ3 s hs => hP σ3 (h123 σ3 hσ3) s (sC hs)) _
      · intro σ3 hσ3
        refine hΦ σ3 y (h123 σ3 hσ3) (by rw [e3]; exact hy) ?_
        have r3 := hread σ3 (h123 σ3 hσ3)
        rw [pick_value i (by rw [r3.1.1, hi]), ← hev]
        refine (ht i).eval_congr (hc.2 i.succ) ((r3.1.2 i).imp₂ ((hread σ2 h12).1.2 i) fun a p q => by rw [p, q]) fun s hs => ?_
        rw [hσ3 s.id]
        intro hmem
        obtain ⟨c, hc', hid⟩ := List.mem_map.1 hmem
        exact hdisj s hs c hc' hid.symm
    rw [sampleE_congr A σ (ψ := fun _ => treeE W val (ts i) K) hin]
    exact sampleE_const A σ (fun σ' hσ' s hs => hP σ' (hσ'.trans (l' := A) (fun _ _ => rfl) sA sA) s (sA hs)) _

/-! ## Sums in the converted graph -/

theorem BaseOf.derived {R : ℕ → Prop} {kd : Di → Kind} {e : Expr Di} {s : Source Di} {l : List (Source Di)} (h : BaseOf R e s l) : Derived R kd false e := by
  cases h with
  | rv id dist n args => exact .rv ..
  | sum h =>
    obtain ⟨op', rfl, h1, h2⟩ := h.args
    exact .normals h1 h2

theorem MadeOf.derived {R : ℕ → Prop} {kd : Di → Kind} {hasCdf : Di → Bool} {e : Expr Di} {t : RTree Di} {l : List (Source Di)} (h : MadeOf R kd hasCdf e t l) (hdet : t.OtherInputs (Determined R)) :
    Derived R kd t.isMix e := by
  induction h with
  | base h => exact h.derived
  | @elem id k op n args t l i hs hv hk hm _ ih =>
    have h1 := ih hdet.2
    rw [hm] at h1
    exact .elem i hs h1 hv hk hdet.1
  | clip h hv _ => exact .clip h.derived hv
  | round h hv _ hf => exact .round h.derived hv hf
  | @pick id k m args ts ls hm hv _ ih => exact .pick (fun i => (ts i).isMix) hm (fun i => ih i (hdet i)) hv

/-- The normal variable that a sum becomes. -/
theorem SumOf.meas {R : ℕ → Prop} {kd : Di → Kind} {defs : ℕ → Option (Expr Di)} {d : Dict ℕ ℕ} (hR : R = (· ∈ Dict.keys d)) {S : ℕ → Bool} (hD : Done kd defs d S) {e o : Expr Di} {dist : Di} {mean sd : Expr Di}
    {ps : List (NPart Di)} (h : SumOf R e dist mean sd ps) (hc : Closed defs e) (ho : o ∈ outputs defs d) (hs : Sub (cloneOf d e) o) :
    ∃ id as, Full.nodeId e = some id ∧ measOf S (cloneOf d e) = some (.rv id dist 2 as) ∧ ∀ (env : ℕ → FVal) (ω : ℕ → Di → List FVal → FVal) (val : Expr Di → FVal), Follows R e val →
      (∀ p ∈ ps, ∀ i, eval env ω (cleanup (replaceValued d (p.args i))) = val (p.args i)) →
      eval env ω (cleanup (as 0)) = val mean ∧ eval env ω (cleanup (as 1)) = val sd := by
  have hsum : ∀ {id : ℕ} {k : Kind} {op : IR.Op} {n : ℕ} {args : Fin n → Expr Di}, Closed defs (.app id k (.elem op) n args) → Sub (cloneOf d (.app id k (.elem op) n args)) o → IR.SumOp op n →
      (∀ i, NormalVar R (args i)) → isMeas S (cloneOf d (.app id k (.elem op) n args)) = true :=
    fun hc hs h1 h2 => hD.complete (b := false) hc ho hs (.normals h1 (by rw [← hR]; exact h2))
  have hnv : ∀ {e : Expr Di}, Closed defs e → Sub (cloneOf d e) o → NormalVar R e → isMeas S (cloneOf d e) = true := by
    intro e hc hs h
    cases h with
    | rv => rfl
    | sum a1 a2 a3 => exact hsum hc hs a1 a3
  induction h with
  | @rv id dist args h => exact ⟨id, _, rfl, rfl, fun env ω val hval hp => ⟨hp _ (List.mem_singleton.2 rfl) 0, hp _ (List.mem_singleton.2 rfl) 1⟩⟩
  | @add id k n args dists ms ss ps hva h ih =>
    have hn := fun i => (h i).normalVar (hva i)
    have hr := fun i => NormalVar.replace_eq (d := d) (by rw [← hR]; exact hn i)
    have hsub := fun i => sub_arg hs i (hr i)
    have hma := fun i => hnv (hc.2 i) (hsub i) (hn i)
    have hop : IR.SumOp .add (n + 2) := .add (by omega)
    choose ids as h1 h2 h3 using fun i => ih i (hc.2 i) (hsub i)
    refine ⟨id, _, rfl, sum_meas hop (hsum hc hs hop hn) (fun i => by rw [hr i]; exact hma i) fun i => by rw [hr i]; exact h2 i, fun env ω val hval hp => ?_⟩
    have h4 := fun i => h3 i env ω val (hval.sub (hva i)) fun p hpi => hp p (List.mem_flatten.2 ⟨ps i, (List.mem_ofFn ..).2 ⟨i, rfl⟩, hpi⟩)
    simp only [Fin.cons_zero, Fin.cons_one, cleanup, eval, hval.app, fun i => (h4 i).1, fun i => (h4 i).2, and_self]
  | @sub id k args dists ms ss ps hva h ih =>
    have hn := fun i => (h i).normalVar (hva i)
    have hr := fun i => NormalVar.replace_eq (d := d) (by rw [← hR]; exact hn i)
    have hsub := fun i => sub_arg hs i (hr i)
    have hma := fun i => hnv (hc.2 i) (hsub i) (hn i)
    have hop : IR.SumOp .sub 2 := .sub
    choose ids as h1 h2 h3 using fun i => ih i (hc.2 i) (hsub i)
    refine ⟨id, _, rfl, sum_meas hop (hsum hc hs hop hn) (fun i => by rw [hr i]; exact hma i) fun i => by rw [hr i]; exact h2 i, fun env ω val hval hp => ?_⟩
    have h4 : ∀ i, eval env ω (cleanup (as i 0)) = val (ms i) ∧ eval env ω (cleanup (as i 1)) = val (ss i) := fun i => by
      match i with
      | 0 => exact h3 0 env ω val (hval.sub (hva 0)) fun p hp0 => hp p (List.mem_append_left _ hp0)
      | 1 => exact h3 1 env ω val (hval.sub (hva 1)) fun p hp1 => hp p.neg (List.mem_append_right _ (List.mem_map.2 ⟨p, hp1, rfl⟩))
    simp only [Fin.cons_zero, Fin.cons_one, cleanup, eval, hval.app, fun i => (h4 i).1, fun i => (h4 i).2, and_self]

/-- The random variable that a random variable or a sum becomes. -/
theorem BaseOf.meas {R : ℕ → Prop} {kd : Di → Kind} {defs : ℕ → Option (Expr Di)} {d : Dict ℕ ℕ} (hR : R = (· ∈ Dict.keys d)) {S : ℕ → Bool} (hD : Done kd defs d S) {e o : Expr Di} {s : Source Di}
    {l : List (Source Di)} (h : BaseOf R e s l) (hc : Closed defs e) (ho : o ∈ outputs defs d) (hs : Sub (cloneOf d e) o) :
    ∃ as, measOf S (cloneOf d e) = some (.rv s.id s.dist s.n as) ∧ ∀ (env : ℕ → FVal) (ω : ℕ → Di → List FVal → FVal) (val : Expr Di → FVal), Follows R e val →
      (∀ s ∈ l, ∀ i, eval env ω (cleanup (replaceValued d (s.args i))) = val (s.args i)) →
      (List.ofFn fun i => eval env ω (cleanup (as i))) = s.params val := by
  cases h with
  | rv id dist n args => exact ⟨_, rfl, fun env ω val hval hp => congrArg List.ofFn (funext fun i => hp _ (List.mem_singleton.2 rfl) i)⟩
  | @sum id k op n args dist mean sd ps h =>
    obtain ⟨id', as, h1, h2, h3⟩ := h.meas hR hD hc ho hs
    cases h1
    refine ⟨as, h2, fun env ω val hval hp => ?_⟩
    obtain ⟨a, b⟩ := h3 env ω val hval fun p hpp => hp p.source (List.mem_map.2 ⟨p, hpp, rfl⟩)
    simp only [Source.params, List.ofFn_succ, List.ofFn_zero]
    exact congrArg₂ _ a (congrArg₂ _ b rfl)

omit [IR.Normals Di] in
theorem boundE_base {d : Dict ℕ ℕ} {x : Expr Di} {id' : ℕ} (hx : nodeId x = some id') (hr : id' ∉ Dict.keys d) (b : Expr Di) :
    boundE (replaceValued d x) (replaceValued d b) = boundM d (boundOf id' b) := by
  have hb : nodeId (replaceValued d b) = some id' ↔ nodeId b = some id' := by
    constructor
    · exact fun h => (nodeId_replace h).1
    · intro h
      rw [replaceValued_eq_clone h hr, nodeId_clone, h]
  have hn : nodeId (replaceValued d x) = some id' := by rw [replaceValued_eq_clone hx hr, nodeId_clone, hx]
  rw [boundE, boundOf, hn]
  by_cases h : nodeId b = some id'
  · rw [if_pos h, if_pos ⟨by rw [hb.2 h]; rfl, hb.2 h⟩]
    rfl
  · rw [if_neg h, if_neg fun h' => h (hb.1 h'.2)]
    rfl

/-- The measurable variable that a variable becomes, and its log-probability. -/
theorem MadeOf.meas {R : ℕ → Prop} {kd : Di → Kind} {hasCdf : Di → Bool} {defs : ℕ → Option (Expr Di)} {d : Dict ℕ ℕ} (hR : R = (· ∈ Dict.keys d)) {S : ℕ → Bool} (hD : Done kd defs d S)
    {e o : Expr Di} {t : RTree Di} {l : List (Source Di)} (h : MadeOf R kd hasCdf e t l) (hc : Closed defs e) (ho : o ∈ outputs defs d) (hs : Sub (cloneOf d e) o) (hdet : t.OtherInputs (Determined R)) :
    ∃ m, measOf S (cloneOf d e) = some m ∧ m.buildable hasCdf = true ∧ ∀ (reg : Registry Di) (env : ℕ → FVal) (ω : ℕ → Di → List FVal → FVal) (val : Expr Di → FVal), Follows R e val →
      (t.Surround fun a => eval env ω (cleanup (replaceValued d a)) = val a) →
      (∀ s ∈ l, ∀ i, eval env ω (cleanup (replaceValued d (s.args i))) = val (s.args i)) →
      m.lp reg kd (fun a => eval env ω (cleanup a)) = t.lp reg kd val := by
  have hS := hD.complete hc ho hs (by rw [← hR]; exact h.derived hdet)
  induction h with
  | base h =>
    obtain ⟨as, h1, h2⟩ := h.meas hR hD hc ho hs
    refine ⟨_, h1, rfl, fun reg env ω val hval _ hp => ?_⟩
    funext v
    exact congrArg (reg.kernel _ v) (h2 env ω val hval hp)
  | @elem id k op n args t l i a1 a2 a3 a4 ht ih =>
    have hdi := ht.derived hdet.2
    have hr := hdi.replace_eq (d := d) (by rw [← hR]; exact a2)
    have hm := hD.complete (hc.2 i) ho (sub_arg hs i hr) (by rw [← hR]; exact hdi)
    obtain ⟨m, h1, h2, h3⟩ := ih (hc.2 i) (sub_arg hs i hr) hdet.2 hm
    have hS' : S id = true := hS
    have hf := hD.inv.filter hc.2 (i := i) (by rw [hr]; exact hm) (by rw [← hR]; exact hdet.1)
    refine ⟨.elem op n i (fun j => replaceValued d (args j)) m, ?_, h2, fun reg env ω val hval hsur hp => ?_⟩
    · simp only [cloneOf, Full.measOf, hS', if_true, hf]
      rw [hr, h1]
      rfl
    · funext v
      have e2 : (fun j => if j = i then Arg.meas else .other (eval env ω (cleanup (replaceValued d (args j))))) = fun j => if j = i then Arg.meas else .other (val (args j)) := by
        funext j
        split_ifs with hj
        · rfl
        · rw [hsur.1 j hj]
      simp only [MVar.lp, RTree.lp, h3 reg env ω val (hval.sub a2) hsur.2 hp, e2]
  | @clip id k args s l h0 hv hcdf =>
    have hS' : S id = true := hS
    have hid : s.id ∉ Dict.keys d := fun h => hv ⟨_, h0.nodeId, by rw [hR]; exact h⟩
    have hr := replaceValued_eq_clone (d := d) h0.nodeId hid
    obtain ⟨as, h1, h2⟩ := h0.meas hR hD (hc.2 0) ho (sub_arg hs 0 hr)
    refine ⟨.clip (boundM d (boundOf s.id (args 1))) (boundM d (boundOf s.id (args 2))) (.rv s.id s.dist s.n as), ?_, hcdf, fun reg env ω val hval hsur hp => ?_⟩
    · simp only [cloneOf, Full.measOf, hS', if_true]
      rw [boundE_base h0.nodeId hid, boundE_base h0.nodeId hid, hr, h1]
      rfl
    · funext v
      have e1 := h2 env ω val (hval.sub hv) hp
      simp only [MVar.lp, RTree.lp, arg_boundM, boundArg_congr hsur.1, boundArg_congr hsur.2]
      simp only [← e1]
  | @round id k r args s l h0 hv hcdf hf =>
    have hS' : S id = true := hS
    have hid : s.id ∉ Dict.keys d := fun h => hv ⟨_, h0.nodeId, by rw [hR]; exact h⟩
    have hr := replaceValued_eq_clone (d := d) h0.nodeId hid
    obtain ⟨as, h1, h2⟩ := h0.meas hR hD (hc.2 0) ho (sub_arg hs 0 hr)
    refine ⟨.round r (.rv s.id s.dist s.n as), ?_, hcdf, fun reg env ω val hval hsur hp => ?_⟩
    · simp only [cloneOf, Full.measOf, hS', if_true]
      rw [hr, h1]
      rfl
    · funext v
      have e1 := h2 env ω val (hval.sub hv) hp
      simp only [MVar.lp, RTree.lp, ← e1]
  | @pick id k n args ts ls hn a2 ht ih =>
    have hdi := fun i => (ht i).derived (hdet i)
    have r := fun i => (hdi i).replace_eq (d := d) (by rw [← hR]; exact a2 i)
    choose ms h1 h2 h3 using fun i => ih i (hc.2 i.succ) (sub_arg hs i.succ (r i)) (hdet i) (hD.complete (hc.2 i.succ) ho (sub_arg hs i.succ (r i)) (by rw [← hR]; exact hdi i))
    have hS' : S id = true := hS
    refine ⟨.mix (replaceValued d (args 0)) n ms, ?_, ?_, fun reg env ω val hval hsur hp => ?_⟩
    · simp only [cloneOf, Full.measOf, hS', if_true]
      refine mixOf_some fun i => ?_
      rw [r, h1 i]
    · simp only [MVar.buildable, List.all_eq_true, List.mem_finRange, true_implies]
      exact h2
    · funext v
      have e1 : (fun i => (ms i).lp reg kd fun a => eval env ω (cleanup a)) = fun i => (ts i).lp reg kd val :=
        funext fun i => h3 i reg env ω val (hval.sub (a2 i)) (hsur.2 i) fun s hs => hp s (List.mem_flatMap.2 ⟨i, List.mem_finRange i, hs⟩)
      simp only [MVar.lp, RTree.lp, e1, hsur.1]

/-- **C124** (holds for sums of normal variables too, if no parameter, bound, index or other input depends on the variable's own draws and no random variable occurs twice): let `v` be a requested variable that is a random
variable or a sum or difference, nested in any way, of normal variables without values, an invertible function of one, one that has been clipped or rounded, or an entry of a stack of such variables.  Given the draws that
parameters, bounds and indices depend on, and values that agree with them, the exponential of the term of `v` is the density of what `v` is when its own random variables are drawn, all those of a sum included. -/
theorem C124_sums_partial (reg : Registry Di) (W : World Di) (hN : NormalLaws W) {hasCdf : Di → Bool} {defs : ℕ → Option (Expr Di)} (hwf : WellFormed defs) {rvs clones : List ℕ} (hc : clones.length = rvs.length)
    {realized : Dict ℕ ℕ} {S : ℕ → Bool} (hrun : Run W.kd (outputs defs (rvValues rvs clones realized)) S) {terms : Dict ℕ (Term Di)} {vvs : List ℕ}
    (h : conditional hasCdf S defs rvs clones realized = .ok (terms, vvs)) {v x : ℕ} (hx : Dict.get? (rvValues rvs clones realized) v = some x) {e : Expr Di} (he : defs v = some e) {t : RTree Di} {l : List (Source Di)}
    (ht : MadeOf (fun w => w ∈ rvs ∨ w ∈ Dict.keys realized) W.kd hasCdf e t l) (hother : t.OtherInputs (Determined fun w => w ∈ rvs ∨ w ∈ Dict.keys realized))
    (hfree : t.Surround fun a => ∀ s ∈ l, ¬ Uses s.id a) (hfree' : ∀ s' ∈ l, ∀ i, ∀ s ∈ l, ¬ Uses s.id (s'.args i)) (hnd : (l.map (·.id)).Nodup) :
    ∃ term, Dict.get? terms v = some term ∧ ∀ (ρ : ℕ → FVal) (σ : ℕ → ℝ) (env : ℝ → ℕ → FVal), (∀ y, env y x = .fin y) →
      (∀ y w x' e', w ≠ v → Uses w e → Dict.get? (rvValues rvs clones realized) w = some x' → defs w = some e' → env y x' = evalAt (Graph.asg σ) ρ e') → (∀ y i, UsesInput i e → env y i = ρ i) →
      t.Ok reg W (evalAt (Graph.asg σ) ρ) → GoodNormals (evalAt (Graph.asg σ) ρ) l → ∀ φ : ℝ → ENNReal, Measurable φ →
        ∫⁻ y in t.range W (evalAt (Graph.asg σ) ρ), dens (term.eval reg W.kd (env y) fun id _ _ => .fin (σ id)) * φ y ∂(t.ref W (evalAt (Graph.asg σ) ρ)) =
          sampleE W.law ρ l σ fun σ' => φ (realOf (.ok (evalAt (Graph.asg σ') ρ e))) := by
  have hR : (fun w => w ∈ rvs ∨ w ∈ Dict.keys realized) = (· ∈ Dict.keys (rvValues rvs clones realized)) := by
    funext v
    rw [rvValues, Dict.mem_keys_update, Dict.mem_keys_ofList, List.map_fst_zip hc.ge]
  have hD := hrun.done hwf
  have hcl : Closed defs e := (hwf _ _ he).2
  have ho : cloneOf (rvValues rvs clones realized) e ∈ outputs defs (rvValues rvs clones realized) := List.mem_filterMap.2 ⟨_, Dict.mem_of_get? hx, by rw [he]; rfl⟩
  have hm : isMeas S (cloneOf (rvValues rvs clones realized) e) = true := hD.complete hcl ho (.refl _) (by rw [← hR]; exact ht.derived hother)
  obtain ⟨m, hmo, hb, hlp⟩ := ht.meas hR hD hcl ho (.refl _) hother
  refine ⟨_, conditional_term h hx he hm hmo hb, fun ρ σ env hy hreq hinp hok hpar φ hφ => ?_⟩
  obtain ⟨hsub, hsub'⟩ := ht.inputs (P := fun a => Closed defs a ∧ (∀ w, Uses w a → Uses w e) ∧ ∀ i, UsesInput i a → UsesInput i e) ⟨hcl, fun _ h => h, fun _ h => h⟩
      (fun _ _ _ _ _ h i => ⟨h.1.2 i, fun w hw => h.2.1 w (.inr ⟨i, hw⟩), fun j hj => h.2.2 j ⟨i, hj⟩⟩)
      fun _ _ _ _ h i => ⟨h.1.2 i, fun w hw => h.2.1 w (.inr ⟨i, hw⟩), fun j hj => h.2.2 j ⟨i, hj⟩⟩
  obtain ⟨s₀, hs₀⟩ := ht.exists_source
  have hev : ∀ y a, (∀ s ∈ l, ¬ Uses s.id a) → (Closed defs a ∧ (∀ w, Uses w a → Uses w e) ∧ ∀ i, UsesInput i a → UsesInput i e) →
      eval (env y) (fun id _ _ => .fin (σ id)) (cleanup (replaceValued (rvValues rvs clones realized) a)) = evalAt (Graph.asg σ) ρ a :=
    fun y a ha ⟨hca, hua, hia⟩ => eval_drawn hca (fun w x' e' hw hx' he' => by
      refine hreq y w x' e' ?_ (hua w hw) hx' he'
      rintro rfl
      exact ha s₀ hs₀ (hw.trans hca he (ht.uses hs₀))) fun i hi => hinp y i (hia i hi)
  have hag : ∀ σ', Agree l σ σ' → ∀ a : Expr Di, (∀ s ∈ l, ¬ Uses s.id a) → evalAt (Graph.asg σ') ρ a = evalAt (Graph.asg σ) ρ a := fun σ' hσ' a ha => evalAt_agree fun i hi => hσ' i fun hmem => by
    obtain ⟨s, hs, rfl⟩ := List.mem_map.1 hmem
    exact ha s hs hi
  have hd := RTree.described (reg := reg) (W := W) (val := evalAt (Graph.asg σ) ρ) (fun _ => rfl) ht.supported hok
  have hs := ht.sample hN (fun _ => rfl) (follows_evalAt _ _ (Graph.asg σ) ρ) hok hcl hnd σ (fun σ' hσ' => ⟨hfree.imp fun a => hag σ' hσ' a, fun s hs i => hag σ' hσ' _ (hfree' s hs i)⟩) hpar
    (Φ := fun σ' => φ (realOf (.ok (evalAt (Graph.asg σ') ρ e)))) (K := φ) (hφ.indicator hd.set) (fun σ' y _ _ hv => by simp only [hv]; rfl)
  rw [hs, hd.eq]
  refine lintegral_congr fun y => ?_
  have h3 := hlp reg (env y) (fun id _ _ => .fin (σ id)) _ (follows_evalAt _ _ (Graph.asg σ) ρ) (hfree.imp₂ hsub fun a ha hb => hev y a ha hb) fun s hs i => hev y _ (hfree' s hs i) (hsub' s hs i)
  rw [← h3, ← hy y]
  rfl

/-! ## Example: `M ~ N(0, 1)`, `X ~ N(0, 1)`, `V ~ N(M, 1)`, `D = clip(X - V, 0, inf)`; `D` is requested -/

namespace DemoSumDrawn
open DemoJoint (reg world normal_ok_sd)
open DemoDrawn (noVal pair env)

noncomputable def M : Expr Bool := .rv 0 true 2 ![.const (.fin 0), .const (.fin 1)]
noncomputable def X : Expr Bool := .rv 1 true 2 ![.const (.fin 0), .const (.fin 1)]
noncomputable def V : Expr Bool := .rv 2 true 2 ![M, .const (.fin 1)]
noncomputable def T : Expr Bool := .app 3 .float (.elem .sub) 2 ![X, V]
noncomputable def D : Expr Bool := .app 4 .float .clip 3 ![T, .const (.fin 0), .const .pinf]

noncomputable def defs : ℕ → Option (Expr Bool) := Dict.get? [(0, M), (1, X), (2, V), (3, T), (4, D)]

noncomputable def srcX : Source Bool := ⟨1, true, 2, ![.const (.fin 0), .const (.fin 1)]⟩
noncomputable def srcV : Source Bool := ⟨2, true, 2, ![M, .const (.fin 1)]⟩
/-- The mean `0 - M`. -/
noncomputable def mean : Expr Bool := .app 3 .float (.elem .sub) 2 ![.const (.fin 0), M]
/-- The standard deviation `sqrt(1 ** 2 + 1 ** 2)`. -/
noncomputable def sd : Expr Bool := .app 3 .float (.elem (.other IR.sqrtSumSq)) 2 ![.const (.fin 1), .const (.fin 1)]
noncomputable def tD : RTree Bool := .clip (some (.const (.fin 0))) (some (.const .pinf)) ⟨3, true, 2, ![mean, sd]⟩

theorem wf : WellFormed defs := by
  have hM : Closed defs M := ⟨rfl, by simp [Fin.forall_fin_two, Closed]⟩
  have hX : Closed defs X := ⟨rfl, by simp [Fin.forall_fin_two, Closed]⟩
  have hV : Closed defs V := ⟨rfl, fun i => by fin_cases i; exacts [hM, trivial]⟩
  have hT : Closed defs T := ⟨rfl, fun i => by fin_cases i; exacts [hX, hV]⟩
  have hD : Closed defs D := ⟨rfl, fun i => by fin_cases i; exacts [hT, trivial, trivial]⟩
  intro v e h
  have := Dict.mem_of_get? h
  simp only [List.mem_cons, Prod.mk.injEq, List.not_mem_nil, or_false] at this
  rcases this with ⟨rfl, rfl⟩ | ⟨rfl, rfl⟩ | ⟨rfl, rfl⟩ | ⟨rfl, rfl⟩ | ⟨rfl, rfl⟩
  exacts [⟨rfl, hM⟩, ⟨rfl, hX⟩, ⟨rfl, hV⟩, ⟨rfl, hT⟩, ⟨rfl, hD⟩]

theorem sumT {R : ℕ → Prop} (h1 : ¬ R 1) (h2 : ¬ R 2) : SumOf R T true mean sd [⟨1, 1, true, ![.const (.fin 0), .const (.fin 1)]⟩, ⟨-1, 2, true, ![M, .const (.fin 1)]⟩] := by
  have h : ∀ i : Fin 2, SumOf R (![X, V] i) true (![.const (.fin 0), M] i) (![.const (.fin 1), .const (.fin 1)] i)
      (![[⟨1, 1, true, ![.const (.fin 0), .const (.fin 1)]⟩], [⟨1, 2, true, ![M, .const (.fin 1)]⟩]] i) := fun i => by
    match i with
    | 0 => exact .rv rfl
    | 1 => exact .rv rfl
  exact .sub (dists := fun _ => true) (fun i => by
    match i with
    | 0 => exact noVal (id := 1) rfl h1
    | 1 => exact noVal (id := 2) rfl h2) h

theorem madeD : MadeOf (fun w => w ∈ [4] ∨ w ∈ Dict.keys ([] : Dict ℕ ℕ)) world.kd (fun _ => true) D tD [srcX, srcV] := by
  have hb := BaseOf.sum (sumT (R := fun w => w ∈ [4] ∨ w ∈ Dict.keys ([] : Dict ℕ ℕ)) (by simp [Dict.keys]) (by simp [Dict.keys]))
  have := MadeOf.clip (R := fun w => w ∈ [4] ∨ w ∈ Dict.keys ([] : Dict ℕ ℕ)) (kd := world.kd) (hasCdf := fun _ => true) (id := 4) (k := .float) (args := ![T, .const (.fin 0), .const .pinf]) hb
    (noVal (id := 3) rfl (by simp [Dict.keys])) rfl
  exact this

theorem normalLaws : NormalLaws world := fun dist h m s _ => by
  have : dist = true := h
  subst this
  rfl

theorem params (σ : ℕ → ℝ) (ρ : ℕ → FVal) : Source.params (evalAt (Graph.asg σ) ρ) ⟨3, true, 2, ![mean, sd]⟩ = [.fin (0 - σ 0), .fin (Real.sqrt 2)] := by
  have e1 : evalAt (Graph.asg σ) ρ mean = .fin (0 - σ 0) := FVal.sub_fin 0 (σ 0)
  have e2 : evalAt (Graph.asg σ) ρ sd = .fin (Real.sqrt 2) := by
    have h := IR.sqrtSumSq_sqrt (n := 2) (f := fun _ => 1) (fun _ => zero_le_one)
    simp only [Real.sqrt_one, List.ofFn_succ, List.ofFn_zero, List.sum_cons, List.sum_nil] at h
    refine Eq.trans ?_ (h.trans (by norm_num))
    simp only [sd, evalAt, List.ofFn_succ, List.ofFn_zero, Op.eval, IR.Op.eval]
    rfl
  simp only [Source.params, List.ofFn_succ, List.ofFn_zero]
  exact congrArg₂ _ e1 (congrArg₂ _ e2 rfl)

example : ∃ S, Run world.kd (outputs defs (rvValues [4] [14] [])) S ∧ ∃ terms vvs term, conditional (fun _ => true) S defs [4] [14] [] = .ok (terms, vvs) ∧ Dict.get? terms 4 = some term ∧
    ∀ (σ : ℕ → ℝ) (φ : ℝ → ENNReal), Measurable φ →
      ∫⁻ y in tD.range world (evalAt (Graph.asg σ) fun _ => .nan), dens (term.eval reg world.kd (env 14 y) fun id _ _ => .fin (σ id)) * φ y ∂(tD.ref world (evalAt (Graph.asg σ) fun _ => .nan)) =
        sampleE world.law (fun _ => .nan) [srcX, srcV] σ fun σ' => φ (realOf (.ok (evalAt (Graph.asg σ') (fun _ => .nan) D))) := by
  obtain ⟨S, hrun⟩ := exists_run world.kd (outputs defs (rvValues [4] [14] []))
  have hcond : ∃ terms vvs, conditional (fun _ => true) S defs [4] [14] [] = .ok (terms, vvs) := by
    refine (C99_outcome (fun _ _ => rfl) wf (rvs := [4]) (clones := [14]) (realized := []) rfl (fun w hw => ?_) hrun).1.2 fun w e' hw he' => ?_
    · simp only [List.mem_singleton, Dict.keys, List.map_nil, List.not_mem_nil, or_false] at hw
      rw [hw]; rfl
    · simp only [List.mem_singleton, Dict.keys, List.map_nil, List.not_mem_nil, or_false] at hw
      rw [hw] at he'
      cases he'
      refine ⟨⟨_, madeD.derived trivial⟩, .clip ?_⟩
      obtain ⟨op, h1, h2, h3⟩ := (sumT (R := fun w => w ∈ [4] ∨ w ∈ Dict.keys ([] : Dict ℕ ℕ)) (by simp [Dict.keys]) (by simp [Dict.keys])).args
      cases h1
      exact .normals h2 h3
  obtain ⟨terms, vvs, hcond⟩ := hcond
  have hids : ∀ s ∈ [srcX, srcV], s.id = 1 ∨ s.id = 2 := by simp [srcX, srcV]
  have hM : ∀ s ∈ [srcX, srcV], ¬ Uses s.id M := fun s hs => by rcases hids s hs with h | h <;> simp [h, M, Uses, Fin.exists_fin_two]
  obtain ⟨term, h1, h2⟩ := C124_sums_partial reg world normalLaws wf (rvs := [4]) (clones := [14]) rfl hrun hcond (v := 4) (x := 14) rfl (e := D) rfl madeD trivial
    ⟨fun a ha s hs => by cases ha; exact fun h => h, fun a ha s hs => by cases ha; exact fun h => h⟩ (fun s' hs' i s hs => by
      simp only [List.mem_cons, List.not_mem_nil, or_false] at hs'
      rcases hs' with rfl | rfl
      · change Fin 2 at i
        match i with
        | 0 => exact fun h => h
        | 1 => exact fun h => h
      · change Fin 2 at i
        match i with
        | 0 => exact hM s hs
        | 1 => exact fun h => h) (by simp [srcX, srcV])
  refine ⟨S, hrun, terms, vvs, term, hcond, h1, fun σ φ hφ => h2 (fun _ => .nan) σ (env 14) (fun _ => rfl) ?_ ?_ ⟨?_, ?_, ?_, trivial, .inl ⟨rfl, ?_⟩⟩ ?_ φ hφ⟩
  · intro y w x' e' hw _ hx'
    have e : rvValues [4] [14] [] = [(4, 14)] := by decide
    rw [e] at hx'
    simp only [Dict.get?] at hx'
    split_ifs at hx' with h
    exact absurd h.symm hw
  · intro y i hi
    exact absurd hi (by simp [D, T, X, V, M, UsesInput, Fin.exists_fin_succ])
  · rw [params]; exact normal_ok_sd _ (by positivity)
  · rintro e h; cases h; exact .inl ⟨_, rfl⟩
  · rintro e h; cases h; exact .inr rfl
  · rw [params]
    exact ⟨(C09_normal _ (by positivity)).1, (C43_normal_logcdf _ (by positivity)).1⟩
  · intro s hs _
    simp only [List.mem_cons, List.not_mem_nil, or_false] at hs
    rcases hs with rfl | rfl
    · exact ⟨0, 1, one_pos, by rw [srcX, pair _ _ _ rfl]; rfl⟩
    · exact ⟨σ 0, 1, one_pos, by rw [srcV, pair _ _ _ rfl]; rfl⟩

end DemoSumDrawn

end Verif.Full
