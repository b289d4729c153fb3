import Verif.Spec.SumTree
import Verif.Props.IRDensity
import Verif.Props.NormalSum
import Verif.Props.Dist1

/-! # The terms of sums of normal variables in models -/

namespace Verif.IR
open Verif Cond MeasureTheory ProbabilityTheory Set

variable {Di : Type} [Normals Di]

/-- A linear function of the variables. -/
noncomputable def lin (x : ℕ → ℝ) (ps : List (Part Di)) : ℝ := (ps.map fun p => p.sign * x p.id).sum

/-- The sum of the variances. -/
noncomputable def sumVar (s : ℕ → ℝ) (ps : List (Part Di)) : ℝ := (ps.map fun p => s p.id ^ 2).sum

omit [Normals Di] in
theorem lin_neg (x : ℕ → ℝ) (ps : List (Part Di)) : lin x (ps.map Part.neg) = -lin x ps := by
  induction ps with
  | nil => simp [lin]
  | cons p ps ih =>
    simp only [lin, List.map_cons, List.sum_cons] at ih ⊢
    rw [ih]
    simp [Part.neg]
    ring

omit [Normals Di] in
theorem lin_append (x : ℕ → ℝ) (ps qs : List (Part Di)) : lin x (ps ++ qs) = lin x ps + lin x qs := by simp [lin]

omit [Normals Di] in
theorem sumVar_append (s : ℕ → ℝ) (ps qs : List (Part Di)) : sumVar s (ps ++ qs) = sumVar s ps + sumVar s qs := by simp [sumVar]

omit [Normals Di] in
theorem sumVar_neg (s : ℕ → ℝ) (ps : List (Part Di)) : sumVar s (ps.map Part.neg) = sumVar s ps := by simp [sumVar, Part.neg, Function.comp_def]

omit [Normals Di] in
theorem lin_flatten (x : ℕ → ℝ) {n : ℕ} (ps : Fin n → List (Part Di)) : lin x (List.ofFn ps).flatten = (List.ofFn fun i => lin x (ps i)).sum := by
  simp only [lin, List.map_flatten, List.sum_flatten, List.map_map, List.map_ofFn]
  rfl

omit [Normals Di] in
theorem sumVar_flatten (s : ℕ → ℝ) {n : ℕ} (ps : Fin n → List (Part Di)) : sumVar s (List.ofFn ps).flatten = (List.ofFn fun i => sumVar s (ps i)).sum := by
  simp only [sumVar, List.map_flatten, List.sum_flatten, List.map_map, List.map_ofFn]
  rfl

theorem foldr_fin (l : List ℝ) : (l.map FVal.fin).foldr (· + ·) 0 = .fin l.sum := by
  induction l with
  | nil => rfl
  | cons a l ih => rw [List.map_cons, List.foldr_cons, ih, List.sum_cons]; rfl

theorem foldr_ofFn {n : ℕ} (f : Fin n → ℝ) : (List.ofFn fun i => FVal.fin (f i)).foldr (· + ·) 0 = .fin (List.ofFn f).sum := by
  rw [← foldr_fin, List.map_ofFn]; rfl

theorem sqrtSumSq_sqrt {n : ℕ} {f : Fin n → ℝ} (h : ∀ i, 0 ≤ f i) : sqrtSumSq (List.ofFn fun i => FVal.fin (Real.sqrt (f i))) = .fin (Real.sqrt (List.ofFn f).sum) := by
  have h1 : ((List.ofFn fun i => FVal.fin (Real.sqrt (f i))).map FVal.sq) = List.ofFn fun i => FVal.fin (f i) := by
    rw [List.map_ofFn]
    congr 1
    funext i
    show FVal.sq (.fin (Real.sqrt (f i))) = _
    rw [FVal.sq_fin, Real.sq_sqrt (h i)]
  rw [sqrtSumSq, h1, foldr_ofFn, FVal.sqrt_fin]
  exact List.sum_nonneg fun x hx => by obtain ⟨i, rfl⟩ := (List.mem_ofFn ..).1 hx; exact h i

/-- What is drawn. -/
theorem SumOf.evalAt {R : ℕ → Prop} {e : Expr Di} {ps : List (Part Di)} (h : SumOf R e ps) (x : ℕ → ℝ) (ρ : ℕ → FVal) : IR.evalAt (Graph.asg x) ρ e = .fin (lin x ps) := by
  induction h with
  | rv _ => simp [IR.evalAt, lin, Graph.asg]
  | add _ _ _ ih => simp only [IR.evalAt, ih, Op.eval, foldr_ofFn, lin_flatten]
  | sub _ _ _ ih0 ih1 =>
    simp only [IR.evalAt, List.ofFn_succ, List.ofFn_zero, Op.eval]
    rw [ih0]
    show FVal.fin _ - IR.evalAt (Graph.asg x) ρ (_ : Expr Di) = _
    rw [show (Fin.succ (0 : Fin 1)) = (1 : Fin 2) from rfl, ih1]
    rw [FVal.sub_fin, lin_append, lin_neg, sub_eq_add_neg]

theorem SumOf.normalVar {R : ℕ → Prop} {e : Expr Di} {ps : List (Part Di)} (h : SumOf R e ps) (hv : ¬ HasValue R e) : ∃ dist, NormalVar R e dist := by
  induction h with
  | @rv id dist args h => exact ⟨dist, .rv h fun hr => hv ⟨id, rfl, hr⟩⟩
  | @add id n args ps hn hva _ ih =>
    choose dists hd using fun i => ih i (hva i)
    exact ⟨_, .sum (by omega) (.add hn) (fun hr => hv ⟨id, rfl, hr⟩) hd⟩
  | @sub id args p q hva _ _ ih0 ih1 =>
    obtain ⟨d0, h0⟩ := ih0 (hva 0)
    obtain ⟨d1, h1⟩ := ih1 (hva 1)
    exact ⟨_, .sum (dists := ![d0, d1]) (by decide) .sub (fun hr => hv ⟨id, rfl, hr⟩) fun i => by match i with | 0 => exact h0 | 1 => exact h1⟩

theorem SumOf.derived {R : ℕ → Prop} {isInt : Di → Bool} {e : Expr Di} {ps : List (Part Di)} (h : SumOf R e ps) : ∃ dist, Derived R isInt e dist := by
  cases h with
  | @rv id dist args h => exact ⟨dist, .rv ..⟩
  | @add id n args ps hn hva h =>
    choose dists hd using fun i => (h i).normalVar (hva i)
    exact ⟨_, .normals (by omega) (.add hn) hd⟩
  | @sub id args p q hva h0 h1 =>
    obtain ⟨d0, h0⟩ := h0.normalVar (hva 0)
    obtain ⟨d1, h1⟩ := h1.normalVar (hva 1)
    exact ⟨_, .normals (dists := ![d0, d1]) (by decide) .sub fun i => by match i with | 0 => exact h0 | 1 => exact h1⟩

theorem SumOf.nodeId {R : ℕ → Prop} {e : Expr Di} {ps : List (Part Di)} (h : SumOf R e ps) : ∃ id, IR.nodeId e = some id := by
  cases h <;> exact ⟨_, rfl⟩

theorem SumOf.replace_eq {d : Dict ℕ ℕ} {e : Expr Di} {ps : List (Part Di)} (h : SumOf (· ∈ Dict.keys d) e ps) (hv : ¬ HasValue (· ∈ Dict.keys d) e) : replaceValued d e = cloneOf d e := by
  obtain ⟨id, hid⟩ := h.nodeId
  exact replaceValued_eq_clone hid fun hk => hv ⟨id, hid, hk⟩

omit [Normals Di] in
theorem sumVar_nonneg (s : ℕ → ℝ) (ps : List (Part Di)) : 0 ≤ sumVar s ps :=
  List.sum_nonneg fun x hx => by obtain ⟨p, -, rfl⟩ := List.mem_map.1 hx; positivity

/-- The normal variable that a sum is replaced by, and its parameters. -/
theorem SumOf.meas {S : ℕ → Bool} {d : Dict ℕ ℕ} {e : Expr Di} {ps : List (Part Di)} (h : SumOf (· ∈ Dict.keys d) e ps) (hS : isNormal S (cloneOf d e) = true) :
    ∃ id dist as, measOf S (cloneOf d e) = some ⟨id, dist, 2, as, []⟩ ∧ Normals.isNormal dist = true ∧ ∀ (env : ℕ → FVal) (ω : ℕ → Di → List FVal → FVal) (m s : ℕ → ℝ),
      (∀ p ∈ ps, eval env ω (cleanup (replaceValued d p.mean)) = .fin (m p.id) ∧ eval env ω (cleanup (replaceValued d p.sd)) = .fin (s p.id) ∧ 0 ≤ s p.id) →
      eval env ω (cleanup (as 0)) = .fin (lin m ps) ∧ eval env ω (cleanup (as 1)) = .fin (Real.sqrt (sumVar s ps)) := by
  induction h with
  | @rv id dist args h =>
    refine ⟨id, dist, fun i => replaceValued d (args i), rfl, h, fun env ω m s hp => ?_⟩
    obtain ⟨h1, h2, h3⟩ := hp _ (List.mem_singleton.2 rfl)
    exact ⟨by simp [h1, lin], by simp [h2, sumVar, Real.sqrt_sq h3]⟩
  | @add id n args ps hn hva hps ih =>
    simp only [cloneOf, isNormal, Bool.and_eq_true, List.all_eq_true, List.mem_finRange, true_implies] at hS
    choose ids dists as h1 h2 h3 using fun i => ih i (by rw [← (hps i).replace_eq (hva i)]; exact hS.2 i)
    refine ⟨_, _, _, sum_meas (by omega) (.add hn) hS.1.1 (fun i => isMeas_of_isNormal (hS.2 i)) (fun i => by rw [(hps i).replace_eq (hva i)]; exact h1 i), h2 _, fun env ω m s hp => ?_⟩
    have h4 := fun i => h3 i env ω m s fun p hpi => hp p (List.mem_flatten.2 ⟨ps i, (List.mem_ofFn ..).2 ⟨i, rfl⟩, hpi⟩)
    constructor
    · simp only [Fin.cons_zero, cleanup, eval, fun i => (h4 i).1, Op.eval, foldr_ofFn, lin_flatten]
    · show eval env ω (cleanup (.app id (.other sqrtSumSq) n fun i => as i 1)) = _
      simp only [cleanup, eval, fun i => (h4 i).2, Op.eval, sqrtSumSq_sqrt fun i => sumVar_nonneg s (ps i), sumVar_flatten]
  | @sub id args p q hva hp0 hq0 ih0 ih1 =>
    simp only [cloneOf, isNormal, Bool.and_eq_true, List.all_eq_true, List.mem_finRange, true_implies] at hS
    obtain ⟨i0, d0, a0, h1, h2, h3⟩ := ih0 (by rw [← hp0.replace_eq (hva 0)]; exact hS.2 0)
    obtain ⟨i1, d1, a1, k1, k2, k3⟩ := ih1 (by rw [← hq0.replace_eq (hva 1)]; exact hS.2 1)
    refine ⟨_, _, _, sum_meas (ids := ![i0, i1]) (dists := ![d0, d1]) (as := ![a0, a1]) Nat.zero_lt_two .sub hS.1.1 (fun i => isMeas_of_isNormal (hS.2 i)) (fun i => ?_), (show Normals.isNormal d0 = true from h2), fun env ω m s hp => ?_⟩
    · match i with
      | 0 => rw [hp0.replace_eq (hva 0)]; exact h1
      | 1 => rw [hq0.replace_eq (hva 1)]; exact k1
    have h4 := h3 env ω m s fun r hr => hp r (List.mem_append_left _ hr)
    have k4 := k3 env ω m s fun r hr => hp r.neg (List.mem_append_right _ (List.mem_map.2 ⟨r, hr, rfl⟩))
    constructor
    · simp only [Fin.cons_zero, cleanup, eval, List.ofFn_succ, List.ofFn_zero, Op.eval]
      show eval env ω (cleanup (a0 0)) - eval env ω (cleanup (a1 0)) = _
      rw [h4.1, k4.1, FVal.sub_fin, lin_append, lin_neg, sub_eq_add_neg]
    · show eval env ω (cleanup (.app id (.other sqrtSumSq) 2 fun i => (![a0, a1] : Fin 2 → Fin 2 → Expr Di) i 1)) = _
      have e1 : (fun i => eval env ω (cleanup ((![a0, a1] : Fin 2 → Fin 2 → Expr Di) i 1))) = fun i => FVal.fin (Real.sqrt ((![sumVar s p, sumVar s q] : Fin 2 → ℝ) i)) := by
        funext i
        match i with
        | 0 => exact h4.2
        | 1 => exact k4.2
      simp only [cleanup, eval, Op.eval]
      rw [e1, sqrtSumSq_sqrt]
      · simp [List.ofFn_succ, sumVar_append, sumVar_neg]
      · intro i
        match i with
        | 0 => exact sumVar_nonneg _ _
        | 1 => exact sumVar_nonneg _ _

/-- A requested sum of normal variables has been replaced. -/
theorem SumOf.isNormal {isInt : Di → Bool} {S : ℕ → Bool} {defs : ℕ → Option (Expr Di)} {d : Dict ℕ ℕ} (hI : Inv isInt defs d S) {e : Expr Di} {ps : List (Part Di)}
    (h : SumOf (· ∈ Dict.keys d) e ps) (hc : Closed defs e) (hm : isMeas S (cloneOf d e) = true) : IR.isNormal S (cloneOf d e) = true := by
  have key : ∀ {id op n args}, e = .app id op n args → SumOp op n → (∀ i, ∃ dist, NormalVar (· ∈ Dict.keys d) (args i) dist) → IR.isNormal S (cloneOf d e) = true := by
    intro id op n args he hop hn
    subst he
    choose dists hd using hn
    have hS : S id = true := hm
    simp [cloneOf, IR.isNormal, hS, sums_iff.2 hop, hI.normal_inputs hc hop hd hS]
  cases h with
  | rv h => simp [cloneOf, IR.isNormal, h]
  | add hn hva h => exact key rfl (.add hn) fun i => (h i).normalVar (hva i)
  | sub hva h0 h1 =>
    refine key rfl .sub fun i => ?_
    match i with
    | 0 => exact h0.normalVar (hva 0)
    | 1 => exact h1.normalVar (hva 1)

/-! ## The law of the sum -/

omit [Normals Di] in
theorem weight_cons (p : Part Di) (ps : List (Part Di)) (i : ℕ) : weight (p :: ps) i = (if p.id = i then p.sign else 0) + weight ps i := by
  by_cases h : p.id = i <;> simp [weight, List.filter_cons, h]

omit [Normals Di] in
theorem lin_weight (x : ℕ → ℝ) {ps : List (Part Di)} {T : Finset ℕ} (h : ∀ p ∈ ps, p.id ∈ T) : lin x ps = ∑ i ∈ T, weight ps i * x i := by
  induction ps with
  | nil => simp [lin, weight]
  | cons p ps ih =>
    have h1 : lin x (p :: ps) = p.sign * x p.id + lin x ps := by simp [lin]
    rw [h1, ih fun q hq => h q (by simp [hq])]
    simp only [weight_cons, add_mul, Finset.sum_add_distrib, ite_mul, zero_mul, Finset.sum_ite_eq, h p (by simp), if_true]

/-- Sums of independent normal variables, with weights. -/
theorem weighted_gaussian {Ω : Type} {mΩ : MeasurableSpace Ω} {P : Measure Ω} [IsProbabilityMeasure P] {T : Finset ℕ} {X : ℕ → Ω → ℝ} (w m s : ℕ → ℝ)
    (hX : ∀ i ∈ T, Measurable (X i)) (hlaw : ∀ i ∈ T, P.map (X i) = gaussianReal (m i) (s i ^ 2).toNNReal) (hind : iIndepFun (fun (i : T) => X i) P) :
    P.map (fun ω => ∑ i ∈ T, w i * X i ω) = gaussianReal (∑ i ∈ T, w i * m i) (∑ i ∈ T, w i ^ 2 * s i ^ 2).toNNReal := by
  have hm : ∀ i : T, Measurable fun ω => w i * X i ω := fun i => (hX i i.2).const_mul _
  have hi : iIndepFun (fun (i : T) ω => w i * X i ω) P := hind.comp (fun i x => w i * x) fun i => measurable_const_mul _
  have hl : ∀ i : T, P.map (fun ω => w i * X i ω) = gaussianReal (w i * m i) ((w i ^ 2 * s i ^ 2).toNNReal) := by
    intro i
    have := gaussianReal_map_const_mul (μ := m i) (v := (s i ^ 2).toNNReal) (w i)
    rw [← hlaw i i.2, Measure.map_map (measurable_const_mul _) (hX i i.2)] at this
    refine this.trans ?_
    congr 1
    apply NNReal.eq
    rw [NNReal.coe_mul, Real.coe_toNNReal _ (by positivity), Real.coe_toNNReal _ (by positivity)]
    rfl
  have key : ∀ U : Finset T, P.map (∑ i ∈ U, fun ω => w i * X i ω) = gaussianReal (∑ i ∈ U, w i * m i) (∑ i ∈ U, (w i ^ 2 * s i ^ 2).toNNReal) := by
    intro U
    induction U using Finset.induction_on with
    | empty =>
      simp only [Finset.sum_empty, gaussianReal_zero_var]
      show P.map (fun _ => (0 : ℝ)) = _
      rw [Measure.map_const]; simp
    | insert i U hiU ih =>
      rw [Finset.sum_insert hiU, Finset.sum_insert hiU, Finset.sum_insert hiU]
      exact gaussianReal_add_gaussianReal_of_indepFun (hi.indepFun_finsetSum_of_notMem hm hiU).symm (hl i) ih
  have h := key Finset.univ
  have e1 : (∑ i : T, fun ω => w i * X i ω) = fun ω => ∑ i ∈ T, w i * X i ω := by
    funext ω
    rw [Finset.sum_apply]
    exact Finset.sum_coe_sort T fun i => w i * X i ω
  have e2 : (∑ i : T, (w i ^ 2 * s i ^ 2).toNNReal) = (∑ i ∈ T, w i ^ 2 * s i ^ 2).toNNReal := by
    rw [Real.toNNReal_sum_of_nonneg fun i _ => by positivity]
    exact Finset.sum_coe_sort T fun i => (w i ^ 2 * s i ^ 2).toNNReal
  rw [e1, e2, Finset.sum_coe_sort T fun i => w i * m i] at h
  exact h

theorem SumOf.ne_nil {R : ℕ → Prop} {e : Expr Di} {ps : List (Part Di)} (h : SumOf R e ps) : ps ≠ [] := by
  induction h with
  | rv _ => simp
  | @add id n args ps hn _ _ ih =>
    intro hnil
    have := List.flatten_eq_nil_iff.1 hnil (ps ⟨0, by omega⟩) ((List.mem_ofFn ..).2 ⟨_, rfl⟩)
    exact ih _ this
  | sub _ _ _ ih _ =>
    intro hnil
    exact ih (List.append_eq_nil_iff.1 hnil).1

omit [Normals Di] in
theorem sumVar_pos {s : ℕ → ℝ} {ps : List (Part Di)} (hne : ps ≠ []) (h : ∀ p ∈ ps, 0 < s p.id) : 0 < sumVar s ps := by
  cases ps with
  | nil => exact absurd rfl hne
  | cons p ps =>
    have h1 : sumVar s (p :: ps) = s p.id ^ 2 + sumVar s ps := by simp [sumVar]
    have := sumVar_nonneg s ps
    have := pow_pos (h p (by simp)) 2
    linarith

theorem SumOf.usesInput {R : ℕ → Prop} {e : Expr Di} {ps : List (Part Di)} (h : SumOf R e ps) {p : Part Di} (hp : p ∈ ps) (i : ℕ) : UsesInput i p.mean ∨ UsesInput i p.sd → UsesInput i e := by
  induction h generalizing p with
  | rv _ =>
    cases List.mem_singleton.1 hp
    rintro (h | h)
    exacts [⟨0, h⟩, ⟨1, h⟩]
  | add _ _ _ ih =>
    intro h
    obtain ⟨l, hl, hpl⟩ := List.mem_flatten.1 hp
    obtain ⟨k, rfl⟩ := (List.mem_ofFn ..).1 hl
    exact ⟨k, ih k hpl h⟩
  | sub _ _ _ ih0 ih1 =>
    intro h
    rcases List.mem_append.1 hp with hp | hp
    · exact ⟨0, ih0 hp h⟩
    · obtain ⟨q, hq, rfl⟩ := List.mem_map.1 hp
      exact ⟨1, ih1 hq h⟩

/-- The term of a sum of normal variables is that of a normal variable. -/
theorem SumOf.term {isInt : Di → Bool} {defs : ℕ → Option (Expr Di)} (hwf : WellFormed defs) {rvs clones : List ℕ} (hc : clones.length = rvs.length) {realized : Dict ℕ ℕ} {S : ℕ → Bool}
    (hrun : Steps isInt (outputs defs (rvValues rvs clones realized)) (fun _ => false) S) (hF : Final isInt (outputs defs (rvValues rvs clones realized)) S)
    {terms : Dict ℕ (Term Di)} {vvs : List ℕ} (hcond : conditional S defs rvs clones realized = .ok (terms, vvs))
    {v : ℕ} {e : Expr Di} (hv : v ∈ rvs ∨ v ∈ Dict.keys realized) (he : defs v = some e) {ps : List (Part Di)} (hp : SumOf (fun w => w ∈ rvs ∨ w ∈ Dict.keys realized) e ps) :
    ∃ x t, Dict.get? (rvValues rvs clones realized) v = some x ∧ Dict.get? terms v = some t ∧
      ∀ (kernel : Di → FVal → List FVal → Except Err FVal) (_ : ∀ dist, Normals.isNormal dist = true → ∀ y a b, kernel dist y [a, b] = normalLogprob y a b)
        (env : ℕ → FVal) (ω : ℕ → Di → List FVal → FVal) (m s : ℕ → ℝ),
        (∀ p ∈ ps, eval env ω (cleanup (replaceValued (rvValues rvs clones realized) p.mean)) = .fin (m p.id) ∧
          eval env ω (cleanup (replaceValued (rvValues rvs clones realized) p.sd)) = .fin (s p.id) ∧ 0 ≤ s p.id) →
        t.eval kernel env ω = normalLogprob (env x) (.fin (lin m ps)) (.fin (Real.sqrt (sumVar s ps))) := by
  set d := rvValues rvs clones realized with hd
  have hkey : ∀ w, w ∈ Dict.keys d ↔ w ∈ rvs ∨ w ∈ Dict.keys realized := by
    intro w
    rw [hd, rvValues, Dict.mem_keys_update, Dict.mem_keys_ofList, List.map_fst_zip hc.ge]
  have hR : (fun w => w ∈ rvs ∨ w ∈ Dict.keys realized) = (· ∈ Dict.keys d) := by
    funext w
    rw [eq_iff_iff, hkey]
  rw [hR] at hp
  have hI := Inv.steps hwf inv_start hrun
  have hm : isMeas S (cloneOf d e) = true := (C93_converted hwf hrun hF ((hkey _).2 hv) he).2 hp.derived
  obtain ⟨x, hx⟩ := Dict.get?_isSome.2 ((hkey _).2 hv)
  obtain ⟨id, dist, as, h1, h2, h3⟩ := hp.meas (hp.isNormal hI (hwf _ _ he).2 hm)
  refine ⟨x, _, hx, conditional_term hcond hx he hm h1, fun kernel hker env ω m s hpar => ?_⟩
  obtain ⟨e1, e2⟩ := h3 env ω m s hpar
  have e4 : (List.ofFn fun i : Fin 2 => eval env ω (cleanup (as i))) = [.fin (lin m ps), .fin (Real.sqrt (sumVar s ps))] := by
    rw [List.ofFn_succ, List.ofFn_succ, List.ofFn_zero]
    exact congrArg₂ _ e1 (congrArg₂ _ e2 rfl)
  show kernel dist (env x) (List.ofFn fun i : Fin 2 => eval env ω (cleanup (as i))) = _
  rw [e4, hker dist h2]

/-- **C123** Let a variable with a value be a sum or difference, nested in any way, of independent normal variables without values, whose parameters follow from the values of the other variables.
The term that `conditional_logprob` returns for it is the log-density of the sum, given those values, exactly when the variance of the sum is the sum of the variances of all that is added.
Missing: this fails when a normal variable occurs more than once (`C123_repeated_wrong`), and when the parameters depend on variables without values (`C123_dependent_wrong`); both are accepted. -/
theorem C123_sum_partial {isInt : Di → Bool} {defs : ℕ → Option (Expr Di)} (hwf : WellFormed defs) {rvs clones : List ℕ} (hc : clones.length = rvs.length) {realized : Dict ℕ ℕ} {S : ℕ → Bool}
    (hrun : Steps isInt (outputs defs (rvValues rvs clones realized)) (fun _ => false) S) (hF : Final isInt (outputs defs (rvValues rvs clones realized)) S)
    {terms : Dict ℕ (Term Di)} {vvs : List ℕ} (hcond : conditional S defs rvs clones realized = .ok (terms, vvs))
    {v : ℕ} {e : Expr Di} (hv : v ∈ rvs ∨ v ∈ Dict.keys realized) (he : defs v = some e) {ps : List (Part Di)} (hp : SumOf (fun w => w ∈ rvs ∨ w ∈ Dict.keys realized) e ps)
    (hdet : ∀ p ∈ ps, DetBy (fun w => w ∈ rvs ∨ w ∈ Dict.keys realized) (· ≠ v) p.mean ∧ DetBy (fun w => w ∈ rvs ∨ w ∈ Dict.keys realized) (· ≠ v) p.sd)
    {kernel : Di → FVal → List FVal → Except Err FVal} (hker : ∀ dist, Normals.isNormal dist = true → ∀ y a b, kernel dist y [a, b] = normalLogprob y a b)
    {τ ρ : ℕ → FVal} {m s : ℕ → ℝ}
    (hpar : ∀ p ∈ ps, readAt (fun w => w ∈ rvs ∨ w ∈ Dict.keys realized) τ ρ p.mean = .fin (m p.id) ∧ readAt (fun w => w ∈ rvs ∨ w ∈ Dict.keys realized) τ ρ p.sd = .fin (s p.id) ∧ 0 < s p.id)
    {env : ℝ → ℕ → FVal} (henv : ∀ y w x, Dict.get? (rvValues rvs clones realized) w = some x → env y x = if w = v then .fin y else τ w)
    (hinp : ∀ y i, UsesInput i e → env y i = ρ i) (ω : ℕ → Di → List FVal → FVal)
    {Ω : Type} {mΩ : MeasurableSpace Ω} {P : Measure Ω} [IsProbabilityMeasure P] {X : ℕ → Ω → ℝ} (hX : ∀ i ∈ partIds ps, Measurable (X i))
    (hlaw : ∀ i ∈ partIds ps, P.map (X i) = gaussianReal (m i) (s i ^ 2).toNNReal) (hind : iIndepFun (fun (i : partIds ps) => X i) P) :
    ∃ t, Dict.get? terms v = some t ∧
      (IsLogDensity (fun y => t.eval kernel (env y) ω) (P.map fun w => realOf (.ok (IR.evalAt (Graph.asg fun i => X i w) ρ e))) ↔ trueVar s ps = (ps.map fun p => s p.id ^ 2).sum) := by
  set d := rvValues rvs clones realized with hd
  have hkey : ∀ w, w ∈ Dict.keys d ↔ w ∈ rvs ∨ w ∈ Dict.keys realized := by
    intro w
    rw [hd, rvValues, Dict.mem_keys_update, Dict.mem_keys_ofList, List.map_fst_zip hc.ge]
  have hR : (fun w => w ∈ rvs ∨ w ∈ Dict.keys realized) = (· ∈ Dict.keys d) := by
    funext w
    rw [eq_iff_iff, hkey]
  obtain ⟨x, t, hx, ht, hlp⟩ := SumOf.term hwf hc hrun hF hcond hv he hp
  refine ⟨t, ht, ?_⟩
  have hids : ∀ p ∈ ps, p.id ∈ partIds ps := fun p hp => List.mem_toFinset.2 (List.mem_map.2 ⟨p, hp, rfl⟩)
  have hpos : 0 < sumVar s ps := sumVar_pos hp.ne_nil fun p h => (hpar p h).2.2
  have hread : ∀ y, ∀ a, DetBy (fun w => w ∈ rvs ∨ w ∈ Dict.keys realized) (· ≠ v) a → (∀ i, UsesInput i a → UsesInput i e) →
      eval (env y) ω (cleanup (replaceValued d a)) = readAt (fun w => w ∈ rvs ∨ w ∈ Dict.keys realized) τ ρ a := by
    intro y a ha hi
    rw [eval_cleanup (τ := fun w => if w = v then .fin y else τ w) hR (henv y) (fun i h => hinp y i (hi i h)) ha]
    exact readAt_congr ha fun w hw => if_neg hw
  have hlp : (fun y : ℝ => t.eval kernel (env y) ω) = fun y => normalLogprob (.fin y) (.fin (lin m ps)) (.fin (Real.sqrt (sumVar s ps))) := by
    funext y
    rw [hlp kernel hker (env y) ω m s fun p h =>
      ⟨by rw [hread y _ (hdet p h).1 fun i hi => hp.usesInput h i (.inl hi)]; exact (hpar p h).1, by rw [hread y _ (hdet p h).2 fun i hi => hp.usesInput h i (.inr hi)]; exact (hpar p h).2.1,
        (hpar p h).2.2.le⟩, henv y v x hx, if_pos rfl]
  have hdraw : (fun w => realOf (.ok (IR.evalAt (Graph.asg fun i => X i w) ρ e))) = fun w => ∑ i ∈ partIds ps, weight ps i * X i w := by
    funext w
    rw [hp.evalAt, ← lin_weight (fun i => X i w) hids]
    rfl
  rw [hlp, hdraw, weighted_gaussian (weight ps) m s hX hlaw hind, ← lin_weight m hids]
  have hnorm := (C09_normal (lin m ps) (Real.sqrt_pos.2 hpos)).1
  rw [Real.sq_sqrt hpos.le] at hnorm
  show _ ↔ trueVar s ps = sumVar s ps
  constructor
  · intro h
    have := (gaussianReal_ext_iff.1 (h.unique hnorm)).2
    exact (Real.toNNReal_eq_toNNReal_iff (Finset.sum_nonneg fun i _ => by positivity) hpos.le).1 this
  · intro h
    show IsLogDensity _ (gaussianReal _ (trueVar s ps).toNNReal)
    rw [h]
    exact hnorm

theorem SumOf.sign_sq {R : ℕ → Prop} {e : Expr Di} {ps : List (Part Di)} (h : SumOf R e ps) {p : Part Di} (hp : p ∈ ps) : p.sign ^ 2 = 1 := by
  induction h generalizing p with
  | rv _ => cases List.mem_singleton.1 hp; norm_num
  | add _ _ _ ih =>
    obtain ⟨l, hl, hpl⟩ := List.mem_flatten.1 hp
    obtain ⟨k, rfl⟩ := (List.mem_ofFn ..).1 hl
    exact ih k hpl
  | sub _ _ _ ih0 ih1 =>
    rcases List.mem_append.1 hp with hp | hp
    · exact ih0 hp
    · obtain ⟨q, hq, rfl⟩ := List.mem_map.1 hp
      rw [show q.neg.sign = -q.sign from rfl, neg_sq]
      exact ih1 hq

omit [Normals Di] in
theorem weight_of_notMem {ps : List (Part Di)} {i : ℕ} (h : i ∉ ps.map Part.id) : weight ps i = 0 := by
  have : (ps.filter fun p => p.id = i) = [] := List.filter_eq_nil_iff.2 fun p hp hpi => h (List.mem_map.2 ⟨p, hp, by simpa using hpi⟩)
  simp [weight, this]

omit [Normals Di] in
/-- When no variable occurs twice, the variances add up. -/
theorem trueVar_of_nodup (s : ℕ → ℝ) {ps : List (Part Di)} (hnd : (ps.map Part.id).Nodup) (hs : ∀ p ∈ ps, p.sign ^ 2 = 1) : trueVar s ps = (ps.map fun p => s p.id ^ 2).sum := by
  induction ps with
  | nil => simp [trueVar, partIds]
  | cons p ps ih =>
    rw [List.map_cons, List.nodup_cons] at hnd
    have hids : partIds (p :: ps) = insert p.id (partIds ps) := by simp [partIds]
    have hni : p.id ∉ partIds ps := by simpa [partIds] using hnd.1
    rw [trueVar, hids, Finset.sum_insert hni, List.map_cons, List.sum_cons, ← ih hnd.2 fun q hq => hs q (by simp [hq])]
    congr 1
    · rw [weight_cons, if_pos rfl, weight_of_notMem hnd.1, add_zero, hs p (by simp), one_mul]
    · refine Finset.sum_congr rfl fun i hi => ?_
      rw [weight_cons, if_neg, zero_add]
      rintro rfl
      exact hni hi

/-- **C123** When no normal variable occurs twice, the term is the log-density of the sum. -/
theorem C123_distinct {isInt : Di → Bool} {defs : ℕ → Option (Expr Di)} (hwf : WellFormed defs) {rvs clones : List ℕ} (hc : clones.length = rvs.length) {realized : Dict ℕ ℕ} {S : ℕ → Bool}
    (hrun : Steps isInt (outputs defs (rvValues rvs clones realized)) (fun _ => false) S) (hF : Final isInt (outputs defs (rvValues rvs clones realized)) S)
    {terms : Dict ℕ (Term Di)} {vvs : List ℕ} (hcond : conditional S defs rvs clones realized = .ok (terms, vvs))
    {v : ℕ} {e : Expr Di} (hv : v ∈ rvs ∨ v ∈ Dict.keys realized) (he : defs v = some e) {ps : List (Part Di)} (hp : SumOf (fun w => w ∈ rvs ∨ w ∈ Dict.keys realized) e ps)
    (hnd : (ps.map Part.id).Nodup)
    (hdet : ∀ p ∈ ps, DetBy (fun w => w ∈ rvs ∨ w ∈ Dict.keys realized) (· ≠ v) p.mean ∧ DetBy (fun w => w ∈ rvs ∨ w ∈ Dict.keys realized) (· ≠ v) p.sd)
    {kernel : Di → FVal → List FVal → Except Err FVal} (hker : ∀ dist, Normals.isNormal dist = true → ∀ y a b, kernel dist y [a, b] = normalLogprob y a b)
    {τ ρ : ℕ → FVal} {m s : ℕ → ℝ}
    (hpar : ∀ p ∈ ps, readAt (fun w => w ∈ rvs ∨ w ∈ Dict.keys realized) τ ρ p.mean = .fin (m p.id) ∧ readAt (fun w => w ∈ rvs ∨ w ∈ Dict.keys realized) τ ρ p.sd = .fin (s p.id) ∧ 0 < s p.id)
    {env : ℝ → ℕ → FVal} (henv : ∀ y w x, Dict.get? (rvValues rvs clones realized) w = some x → env y x = if w = v then .fin y else τ w)
    (hinp : ∀ y i, UsesInput i e → env y i = ρ i) (ω : ℕ → Di → List FVal → FVal)
    {Ω : Type} {mΩ : MeasurableSpace Ω} {P : Measure Ω} [IsProbabilityMeasure P] {X : ℕ → Ω → ℝ} (hX : ∀ i ∈ partIds ps, Measurable (X i))
    (hlaw : ∀ i ∈ partIds ps, P.map (X i) = gaussianReal (m i) (s i ^ 2).toNNReal) (hind : iIndepFun (fun (i : partIds ps) => X i) P) :
    ∃ t, Dict.get? terms v = some t ∧ IsLogDensity (fun y => t.eval kernel (env y) ω) (P.map fun w => realOf (.ok (IR.evalAt (Graph.asg fun i => X i w) ρ e))) := by
  obtain ⟨t, h1, h2⟩ := C123_sum_partial hwf hc hrun hF hcond hv he hp hdet hker hpar henv hinp ω hX hlaw hind
  exact ⟨t, h1, h2.2 (trueVar_of_nodup s hnd fun p h => hp.sign_sq h)⟩

/-! ## Examples: `X ~ N(0, 1)`, `V ~ N(1, 2)`, `D = X - V`, `Q = D + V`, `Y ~ N(X, 1)`, `Z = X + Y` -/

namespace DemoSum

noncomputable def X : Expr Unit := .rv 0 () 2 ![.const (.fin 0), .const (.fin 1)]
noncomputable def V : Expr Unit := .rv 1 () 2 ![.const (.fin 1), .const (.fin 2)]
noncomputable def D : Expr Unit := .app 2 .sub 2 ![X, V]
noncomputable def Q : Expr Unit := .app 3 .add 2 ![D, V]
noncomputable def Y : Expr Unit := .rv 4 () 2 ![X, .const (.fin 1)]
noncomputable def Z : Expr Unit := .app 5 .add 2 ![X, Y]

noncomputable def defs : ℕ → Option (Expr Unit) := Dict.get? [(0, X), (1, V), (2, D), (3, Q), (4, Y), (5, Z)]

theorem wf : WellFormed defs := by
  have hX : Closed defs X := ⟨rfl, by simp [Fin.forall_fin_two, Closed]⟩
  have hV : Closed defs V := ⟨rfl, by simp [Fin.forall_fin_two, Closed]⟩
  have hD : Closed defs D := ⟨rfl, fun i => by fin_cases i; exacts [hX, hV]⟩
  have hQ : Closed defs Q := ⟨rfl, fun i => by fin_cases i; exacts [hD, hV]⟩
  have hY : Closed defs Y := ⟨rfl, fun i => by fin_cases i; exacts [hX, trivial]⟩
  have hZ : Closed defs Z := ⟨rfl, fun i => by fin_cases i; exacts [hX, hY]⟩
  intro v e h
  have := Dict.mem_of_get? h
  simp only [List.mem_cons, Prod.mk.injEq, List.not_mem_nil, or_false] at this
  rcases this with ⟨rfl, rfl⟩ | ⟨rfl, rfl⟩ | ⟨rfl, rfl⟩ | ⟨rfl, rfl⟩ | ⟨rfl, rfl⟩ | ⟨rfl, rfl⟩
  exacts [⟨rfl, hX⟩, ⟨rfl, hV⟩, ⟨rfl, hD⟩, ⟨rfl, hQ⟩, ⟨rfl, hY⟩, ⟨rfl, hZ⟩]

/-- The normal variables themselves. -/
noncomputable def pX : Part Unit := ⟨1, 0, .const (.fin 0), .const (.fin 1)⟩
noncomputable def pV : Part Unit := ⟨1, 1, .const (.fin 1), .const (.fin 2)⟩
noncomputable def pY : Part Unit := ⟨1, 4, X, .const (.fin 1)⟩

theorem noValue {R : ℕ → Prop} {e : Expr Unit} {id : ℕ} (h : nodeId e = some id) (hR : ¬ R id) : ¬ HasValue R e := by
  rintro ⟨id', h', hr⟩
  rw [h] at h'
  cases h'
  exact hR hr

theorem sumX {R : ℕ → Prop} : SumOf R X [pX] := .rv rfl
theorem sumV {R : ℕ → Prop} : SumOf R V [pV] := .rv rfl
theorem sumY {R : ℕ → Prop} : SumOf R Y [pY] := .rv rfl

theorem sumD {R : ℕ → Prop} (h0 : ¬ R 0) (h1 : ¬ R 1) : SumOf R D [pX, pV.neg] :=
  .sub (p := [pX]) (q := [pV]) (fun i => by match i with | 0 => exact noValue rfl h0 | 1 => exact noValue rfl h1) sumX sumV

theorem sumQ {R : ℕ → Prop} (h0 : ¬ R 0) (h1 : ¬ R 1) (h2 : ¬ R 2) : SumOf R Q [pX, pV.neg, pV] :=
  .add (ps := ![[pX, pV.neg], [pV]]) le_rfl (fun i => by match i with | 0 => exact noValue rfl h2 | 1 => exact noValue rfl h1)
    (fun i => by match i with | 0 => exact sumD h0 h1 | 1 => exact sumV)

theorem sumZ {R : ℕ → Prop} (h0 : ¬ R 0) (h4 : ¬ R 4) : SumOf R Z [pX, pY] :=
  .add (ps := ![[pX], [pY]]) le_rfl (fun i => by match i with | 0 => exact noValue rfl h0 | 1 => exact noValue rfl h4)
    (fun i => by match i with | 0 => exact sumX | 1 => exact sumY)

/-- A single requested sum: the term exists. -/
theorem returns {v : ℕ} {e : Expr Unit} (he : defs v = some e) {ps : List (Part Unit)} (hp : SumOf (fun w => w ∈ [v] ∨ w ∈ Dict.keys ([] : Dict ℕ ℕ)) e ps) (x : ℕ) {S : ℕ → Bool}
    (hrun : Steps (fun _ => false) (outputs defs (rvValues [v] [x] [])) (fun _ => false) S) (hF : Final (fun _ => false) (outputs defs (rvValues [v] [x] [])) S) :
    ∃ terms vvs, conditional S defs [v] [x] [] = .ok (terms, vvs) := by
  refine (C93_outcome wf (rvs := [v]) (clones := [x]) (realized := []) rfl (by simp [Dict.keys, he]) hrun hF).1 fun w e' hw he' => ?_
  have : w = v := by simpa [Dict.keys] using hw
  subst this
  rw [he] at he'
  cases he'
  exact hp.derived

theorem env_ok {v x : ℕ} (y : ℝ) (w x' : ℕ) (h : Dict.get? (rvValues [v] [x] []) w = some x') : (if x' = x then FVal.fin y else .nan) = if w = v then .fin y else .nan := by
  have := Dict.mem_of_get? h
  have h2 : (w, x') = (v, x) := by simpa [rvValues, Dict.update, Dict.ofList, Dict.set] using this
  cases h2
  simp

theorem ker_ok : ∀ dist : Unit, Normals.isNormal dist = true → ∀ y a b, DemoJoint.kernel dist y [a, b] = normalLogprob y a b := fun _ _ _ _ _ => rfl

/-- Independent draws exist. -/
theorem exists_draws (T : Finset ℕ) (m s : ℕ → ℝ) : ∃ (Ω : Type) (_ : MeasurableSpace Ω) (P : Measure Ω) (_ : IsProbabilityMeasure P) (X : ℕ → Ω → ℝ), (∀ i ∈ T, Measurable (X i)) ∧
    (∀ i ∈ T, P.map (X i) = gaussianReal (m i) (s i ^ 2).toNNReal) ∧ iIndepFun (fun (i : T) => X i) P := by
  refine ⟨T → ℝ, inferInstance, Measure.pi fun i : T => gaussianReal (m i) (s i ^ 2).toNNReal, inferInstance, fun i w => if h : i ∈ T then w ⟨i, h⟩ else 0, fun i hi => ?_, fun i hi => ?_, ?_⟩
  · simp only [hi, dif_pos]
    exact measurable_pi_apply _
  · simp only [hi, dif_pos]
    exact (measurePreserving_eval (μ := fun k : T => gaussianReal (m k) (s k ^ 2).toNNReal) ⟨i, hi⟩).map_eq
  · have : (fun (i : T) (w : T → ℝ) => if h : (i : ℕ) ∈ T then w ⟨i, h⟩ else 0) = fun i w => w i := by
      funext i w
      simp
    rw [this]
    exact iIndepFun_pi (μ := fun k : T => gaussianReal (m k) (s k ^ 2).toNNReal) (X := fun (_ : T) (x : ℝ) => x) fun k => aemeasurable_id

/-- The difference of `X` and `V`. -/
example {S : ℕ → Bool} (hrun : Steps (fun _ => false) (outputs defs (rvValues [2] [12] [])) (fun _ => false) S) (hF : Final (fun _ => false) (outputs defs (rvValues [2] [12] [])) S) :
    ∃ terms vvs t, conditional S defs [2] [12] [] = .ok (terms, vvs) ∧ Dict.get? terms 2 = some t ∧
      ∃ ν : Measure ℝ, IsLogDensity (fun y => t.eval DemoJoint.kernel (fun i => if i = 12 then .fin y else .nan) fun _ _ _ => .nan) ν := by
  have hp : SumOf (fun w => w ∈ [2] ∨ w ∈ Dict.keys ([] : Dict ℕ ℕ)) D [pX, pV.neg] := sumD (by simp [Dict.keys]) (by simp [Dict.keys])
  obtain ⟨terms, vvs, hcond⟩ := returns rfl hp 12 hrun hF
  obtain ⟨Ω, mΩ, P, _, Xs, h1, h2, h3⟩ := exists_draws (partIds [pX, pV.neg]) (fun i => if i = 0 then 0 else 1) fun i => if i = 0 then 1 else 2
  obtain ⟨t, ht, hd⟩ := C123_distinct (rvs := [2]) (clones := [12]) wf rfl hrun hF hcond (v := 2) (by simp) rfl hp (by simp [pX, pV, Part.neg])
    (by intro p h; simp only [List.mem_cons, List.not_mem_nil, or_false] at h; rcases h with rfl | rfl <;> exact ⟨trivial, trivial⟩) ker_ok (τ := fun _ => .nan) (ρ := fun _ => .nan)
    (by intro p h; simp only [List.mem_cons, List.not_mem_nil, or_false] at h; rcases h with rfl | rfl <;> exact ⟨rfl, rfl, by norm_num [pX, pV, Part.neg]⟩)
    (env := fun y i => if i = 12 then .fin y else .nan) (fun y w x h => env_ok y w x h) (by
      rintro y i ⟨j, hj⟩
      match j with
      | 0 => obtain ⟨k, hk⟩ := hj; match k with | 0 => exact hk.elim | 1 => exact hk.elim
      | 1 => obtain ⟨k, hk⟩ := hj; match k with | 0 => exact hk.elim | 1 => exact hk.elim) (fun _ _ _ => .nan) h1 h2 h3
  exact ⟨terms, vvs, t, hcond, ht, _, hd⟩

/-- **C123** (false in general) `(X - V) + V` is `X`, but the variance of `V` is counted twice. -/
theorem C123_repeated_wrong {S : ℕ → Bool} (hrun : Steps (fun _ => false) (outputs defs (rvValues [3] [13] [])) (fun _ => false) S)
    (hF : Final (fun _ => false) (outputs defs (rvValues [3] [13] [])) S) (ω : ℕ → Unit → List FVal → FVal) :
    ∃ terms vvs t, conditional S defs [3] [13] [] = .ok (terms, vvs) ∧ Dict.get? terms 3 = some t ∧
      ∀ {Ω : Type} {mΩ : MeasurableSpace Ω} {P : Measure Ω} [IsProbabilityMeasure P] {x v : Ω → ℝ}, P.map x = gaussianReal 0 1 →
        ¬ IsLogDensity (fun y => t.eval DemoJoint.kernel (fun i => if i = 13 then .fin y else .nan) ω)
          (P.map fun w => realOf (.ok (IR.evalAt (Graph.asg fun i => if i = 0 then x w else v w) (fun _ => .nan) Q))) := by
  have hp : SumOf (fun w => w ∈ [3] ∨ w ∈ Dict.keys ([] : Dict ℕ ℕ)) Q [pX, pV.neg, pV] := sumQ (by simp [Dict.keys]) (by simp [Dict.keys]) (by simp [Dict.keys])
  obtain ⟨terms, vvs, hcond⟩ := returns rfl hp 13 hrun hF
  obtain ⟨x', t, hx, ht, hev⟩ := SumOf.term (rvs := [3]) (clones := [13]) wf rfl hrun hF hcond (v := 3) (by simp) rfl hp
  cases (show x' = 13 by simpa [rvValues, Dict.update, Dict.ofList, Dict.set, Dict.get?] using hx.symm)
  refine ⟨terms, vvs, t, hcond, ht, fun {Ω mΩ P _ x v} hx h => ?_⟩
  have hlp : (fun y : ℝ => t.eval DemoJoint.kernel (fun i => if i = 13 then .fin y else .nan) ω) = fun y => normalLogprob (.fin y) (.fin 0) (.fin 3) := by
    funext y
    rw [hev DemoJoint.kernel ker_ok _ ω (fun i => if i = 0 then 0 else 1) (fun i => if i = 0 then 1 else 2)]
    · have e1 : lin (fun i => if i = 0 then 0 else 1) [pX, pV.neg, pV] = 0 := by simp [lin, pX, pV, Part.neg]
      have e2 : Real.sqrt (sumVar (fun i => if i = 0 then 1 else 2) [pX, pV.neg, pV]) = 3 := by
        have : sumVar (fun i => if i = 0 then 1 else 2) [pX, pV.neg, pV] = 3 ^ 2 := by simp [sumVar, pX, pV, Part.neg]; norm_num
        rw [this, Real.sqrt_sq (by norm_num)]
      rw [e1, e2, if_pos rfl]
    · intro p h
      simp only [List.mem_cons, List.not_mem_nil, or_false] at h
      rcases h with rfl | rfl | rfl <;> exact ⟨rfl, rfl, by norm_num [pX, pV, Part.neg]⟩
  have hdraw : (fun w => realOf (.ok (IR.evalAt (Graph.asg fun i => if i = 0 then x w else v w) (fun _ => .nan) Q))) = x := by
    funext w
    rw [hp.evalAt]
    simp [realOf, lin, pX, pV, Part.neg]
  rw [hlp, hdraw, hx] at h
  have h2 := (gaussianReal_ext_iff.1 (h.unique (C09_normal 0 (show (0 : ℝ) < 3 by norm_num)).1)).2
  have h3 := congrArg NNReal.toReal h2
  rw [Real.coe_toNNReal _ (by norm_num)] at h3
  norm_num at h3

/-- **C123** (false in general) `Z = X + Y` with `Y ~ N(X, 1)`: whatever the draw of `X` that is left in the graph, the term is not the log-density of `Z`. -/
theorem C123_dependent_wrong {S : ℕ → Bool} (hrun : Steps (fun _ => false) (outputs defs (rvValues [5] [15] [])) (fun _ => false) S)
    (hF : Final (fun _ => false) (outputs defs (rvValues [5] [15] [])) S) {ω : ℕ → Unit → List FVal → FVal} {x' : ℝ} (hω : ω 0 () [.fin 0, .fin 1] = .fin x') :
    ∃ terms vvs t, conditional S defs [5] [15] [] = .ok (terms, vvs) ∧ Dict.get? terms 5 = some t ∧
      ∀ {Ω : Type} {mΩ : MeasurableSpace Ω} {P : Measure Ω} [IsProbabilityMeasure P] {x u : Ω → ℝ}, Measurable x → Measurable u → P.map x = gaussianReal 0 1 → P.map u = gaussianReal 0 1 →
        IndepFun x u P → ¬ IsLogDensity (fun y => t.eval DemoJoint.kernel (fun i => if i = 15 then .fin y else .nan) ω)
          (P.map fun w => realOf (.ok (IR.evalAt (Graph.asg fun i => if i = 0 then x w else x w + u w) (fun _ => .nan) Z))) := by
  have hp : SumOf (fun w => w ∈ [5] ∨ w ∈ Dict.keys ([] : Dict ℕ ℕ)) Z [pX, pY] := sumZ (by simp [Dict.keys]) (by simp [Dict.keys])
  obtain ⟨terms, vvs, hcond⟩ := returns rfl hp 15 hrun hF
  obtain ⟨x₀, t, hx, ht, hev⟩ := SumOf.term (rvs := [5]) (clones := [15]) wf rfl hrun hF hcond (v := 5) (by simp) rfl hp
  cases (show x₀ = 15 by simpa [rvValues, Dict.update, Dict.ofList, Dict.set, Dict.get?] using hx.symm)
  refine ⟨terms, vvs, t, hcond, ht, fun {Ω mΩ P _ x u} hxm hum hx hu hxu h => ?_⟩
  have hlp : (fun y : ℝ => t.eval DemoJoint.kernel (fun i => if i = 15 then .fin y else .nan) ω) = fun y => normalLogprob (.fin y) (.fin x') (.fin (Real.sqrt 2)) := by
    funext y
    rw [hev DemoJoint.kernel ker_ok _ ω (fun i => if i = 0 then 0 else x') (fun _ => 1)]
    · have e1 : lin (fun i => if i = 0 then 0 else x') [pX, pY] = x' := by simp [lin, pX, pY]
      have e2 : sumVar (fun _ => 1) [pX, pY] = 2 := by simp [sumVar]; norm_num
      rw [e1, e2, if_pos rfl]
    · intro p h
      simp only [List.mem_cons, List.not_mem_nil, or_false] at h
      rcases h with rfl | rfl
      · exact ⟨rfl, rfl, by norm_num⟩
      · exact ⟨hω, rfl, by norm_num⟩
  have hdraw : (fun w => realOf (.ok (IR.evalAt (Graph.asg fun i => if i = 0 then x w else x w + u w) (fun _ => .nan) Z))) = (fun w => 2 * x w) + u := by
    funext w
    rw [hp.evalAt]
    simp [realOf, lin, pX, pY]
    ring
  have h2x : P.map (fun w => 2 * x w) = gaussianReal (2 * 0) (NNReal.mk (2 ^ 2) (sq_nonneg _) * 1) := by
    have := gaussianReal_map_const_mul (μ := 0) (v := 1) 2
    rw [← hx, Measure.map_map (measurable_const_mul _) hxm] at this
    exact this
  have hsum := gaussianReal_add_gaussianReal_of_indepFun (hxu.comp (measurable_const_mul (2 : ℝ)) measurable_id) h2x hu
  rw [hlp, hdraw] at h
  have h2 := (gaussianReal_ext_iff.1 (hsum.symm.trans (h.unique (C09_normal _ (Real.sqrt_pos.2 (show (0 : ℝ) < 2 by norm_num))).1))).2
  have h3 := congrArg NNReal.toReal h2
  rw [Real.coe_toNNReal _ (by positivity), Real.sq_sqrt (by norm_num)] at h3
  simp at h3
  norm_num at h3

example := C123_repeated_wrong (exists_run (fun _ => false) (outputs defs (rvValues [3] [13] [])) fun _ => false).choose_spec.1
  (exists_run (fun _ => false) (outputs defs (rvValues [3] [13] [])) fun _ => false).choose_spec.2

example := C123_dependent_wrong (exists_run (fun _ => false) (outputs defs (rvValues [5] [15] [])) fun _ => false).choose_spec.1
  (exists_run (fun _ => false) (outputs defs (rvValues [5] [15] [])) fun _ => false).choose_spec.2 (ω := fun _ _ _ => .fin 7) rfl

end DemoSum

end Verif.IR
