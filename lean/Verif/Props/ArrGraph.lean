import Verif.Lemmas.ArrGraph
import Verif.Props.ElemwiseArray
import Verif.Props.MvNormal
import Verif.Props.TransformVec
import Verif.Props.IRTransform

/-! # C106: the joint density of a model with array variables -/

namespace Verif.ArrGraph
open Verif Cond MeasureTheory

variable {Di : Type} {X : ℕ → Type} [∀ i, MeasurableSpace (X i)]

/-- **C106** For every model given by array-valued random variables `l` in dependency order whose parameters are valid with probability one, with values given to all of them (some requested, some realized),
`joint_logprob` returns, and `exp` of its value, as a function of the values `σ` of the variables, is the density, with respect to the product of the reference measures, of the law
obtained by sampling the variables in dependency order: the two integrals agree for every function `φ` of the values. -/
theorem C106_joint_density (arr : ∀ i, X i → Arr FVal) (kernel : Di → Arr FVal → List (Arr FVal) → Except Err (Arr FVal)) (law : ∀ i, Di → List (Arr FVal) → Measure (X i))
    (ref : ∀ i, Measure (X i)) (ρ : ℕ → Arr FVal) (ω : ℕ → Di → List (Arr FVal) → Arr FVal) {l : List (ℕ × RVDef Di)} (hne : l ≠ []) (hord : DependencyOrder l)
    (huser : ∀ p ∈ l, ∀ i, User (p.2.args i)) {rvs clones : List ℕ} {realized : Dict ℕ ℕ} (hc : clones.length = rvs.length)
    (hall : ∀ v, v ∈ l.map Prod.fst ↔ v ∈ rvs ∨ v ∈ Dict.keys realized) (hclosed : ∀ p ∈ l, ∀ i id, Mentions id (p.2.args i) → id ∈ l.map Prod.fst)
    (env : (∀ i, X i) → ℕ → Arr FVal) (henv : ∀ σ v x, Dict.get? (rvValues rvs clones realized) v = some x → env σ x = arr v (σ v))
    (hfresh : ∀ σ, ∀ p ∈ l, params (asg arr σ) (env σ) p.2 = params (asg arr σ) ρ p.2) :
    ∃ j vvs, joint (Dict.get? l) rvs clones realized = .ok (some (j, vvs)) ∧
      (∀ x, x ∈ vvs ↔ ∃ v, v ∉ Dict.keys realized ∧ Dict.get? (rvValues rvs clones realized) v = some x) ∧
      ∀ (σ₀ : ∀ i, X i), Valid arr kernel law ref ρ l σ₀ → ∀ φ : (∀ i, X i) → ENNReal,
        refE ref l σ₀ (fun σ => dens (evalJoint kernel (env σ) ω j) * φ σ) = sampleE arr law ρ l σ₀ φ := by
  set d := rvValues rvs clones realized with hd
  have hdn : (Dict.keys d).Nodup := rvValues_nodup rvs clones realized
  have hdk : ∀ v, v ∈ Dict.keys d ↔ v ∈ l.map Prod.fst := fun v => by
    rw [hd, rvValues, Dict.mem_keys_update, Dict.mem_keys_ofList, List.map_fst_zip hc.ge, hall]
  have hnd : (l.map Prod.fst).Nodup := by
    clear hne huser hall hclosed hfresh hdk
    induction l with
    | nil => simp
    | cons p l ih =>
      obtain ⟨id, r⟩ := p
      refine List.nodup_cons.2 ⟨fun hmem => ?_, ih hord.2.2⟩
      obtain ⟨p, hp, hpid⟩ := List.mem_map.1 hmem
      exact (hord.2.1 p hp).1 hpid
  have hget : ∀ p ∈ l, Dict.get? l p.1 = some p.2 := fun p hp => Dict.get?_of_mem hnd hp
  have hdef : ∀ v ∈ Dict.keys d, ∃ r, Dict.get? l v = some r := fun v hv => by
    obtain ⟨p, hp, rfl⟩ := List.mem_map.1 ((hdk v).1 hv)
    exact ⟨_, hget p hp⟩
  let val : ℕ → ℕ := fun v => (Dict.get? d v).getD 0
  have hval : ∀ p ∈ d, val p.1 = p.2 := fun p hp => by simp only [val, Dict.get?_of_mem hdn (show (p.1, p.2) ∈ d from hp), Option.getD_some]
  have hval' : ∀ v ∈ Dict.keys d, Dict.get? d v = some (val v) := fun v hv => by
    obtain ⟨x, hx⟩ := Dict.get?_isSome.2 hv
    simp only [val, hx, Option.getD_some]
  let mk : ℕ → RVDef Di → Term Di := fun v r => ⟨r.dist, cleanup (.inp (val v)), r.n, fun i => cleanup (replaceValued d (r.args i))⟩
  let t : ℕ → Term Di := fun v => mk v ((Dict.get? l v).getD (l.head hne).2)
  have ht : ∀ {v r}, Dict.get? l v = some r → t v = mk v r := fun {v r} h => by show mk v ((Dict.get? l v).getD _) = _; rw [h]; rfl
  have hcond := conditional_simple (B := backend (Dict.get? l) d) (realized := realized) (val := val) (base := val) (t := t) hd
    (fun v hv => by obtain ⟨r, hr⟩ := hdef v hv; simp [backend, hr]) (fun _ _ => rfl)
    (by
      show Except.ok (d.map fun p => some (⟨p.1, p.2⟩ : ValuedOut ℕ), d.map Prod.snd) = _
      congr 2
      · exact List.map_congr_left fun p hp => by rw [hval p hp]
      · exact List.map_congr_left fun p hp => (hval p hp).symm)
    (fun v hv => by obtain ⟨r, hr⟩ := hdef v hv; simp [backend, hr]) (fun v hv => by obtain ⟨r, hr⟩ := hdef v hv; rw [ht hr]; simp [backend, hr, mk])
  have htne : (d.map fun p => (p.1, t p.1)) ≠ [] := by
    intro h0
    have h1 : d = [] := List.map_eq_nil_iff.1 h0
    have : (l.head hne).1 ∈ Dict.keys d := (hdk _).2 (List.mem_map.2 ⟨_, List.head_mem hne, rfl⟩)
    rw [h1] at this
    simp [Dict.keys] at this
  obtain ⟨j, hj, hdens⟩ := dens_evalJoint kernel htne hcond
  refine ⟨j, _, hj, fun x => ?_, fun σ₀ hvalid φ => ?_⟩
  · simp only [List.mem_map, List.mem_filter, decide_eq_true_eq]
    constructor
    · rintro ⟨v, ⟨h1, h2⟩, rfl⟩
      exact ⟨v, h2, hval' v h1⟩
    · rintro ⟨v, h1, h2⟩
      exact ⟨v, ⟨Dict.get?_isSome.1 ⟨x, h2⟩, h1⟩, by rw [hval' v (Dict.get?_isSome.1 ⟨x, h2⟩)] at h2; exact Option.some.inj h2⟩
  rw [← refE_eq_sampleE arr kernel law ref ρ φ l σ₀ hord hvalid]
  congr 1
  funext σ
  congr 1
  rw [hdens, List.map_map]
  have hterm : ∀ q ∈ l, dens (arrayJoint ((t q.1).eval kernel (env σ) ω)) = dens (arrayJoint (kernel q.2.dist (arr q.1 (σ q.1)) (params (asg arr σ) ρ q.2))) := by
    intro q hq
    have hk : q.1 ∈ Dict.keys d := (hdk _).2 (List.mem_map.2 ⟨q, hq, rfl⟩)
    rw [ht (hget q hq)]
    simp only [mk, Term.eval, cleanup, eval, henv σ _ _ (hval' _ hk)]
    congr 3
    rw [← hfresh σ q hq]
    simp only [params]
    congr 1
    funext i
    refine eval_cleanup_replace ω _ (huser q hq i) fun id hm => ?_
    have hik := (hdk id).2 (hclosed q hq i id hm)
    exact ⟨_, hval' id hik, henv σ _ _ (hval' id hik)⟩
  have e1 : (d.map ((fun p : ℕ × Term Di => dens (arrayJoint (p.2.eval kernel (env σ) ω))) ∘ fun p => (p.1, t p.1))) =
      (Dict.keys d).map fun v => dens (arrayJoint ((t v).eval kernel (env σ) ω)) := by rw [Dict.keys, List.map_map]; rfl
  have hperm : (Dict.keys d).Perm (l.map Prod.fst) := (List.perm_ext_iff_of_nodup hdn hnd).2 hdk
  rw [e1, (hperm.map _).prod_eq, List.map_map]
  congr 1
  exact List.map_congr_left hterm

theorem eval_given (d : Dict ℕ ℕ) (ρ : ℕ → Arr FVal) (ω : ℕ → Di → List (Arr FVal) → Arr FVal) (e : Expr Di) (hu : User e) :
    eval ρ ω (cleanup (replaceValued d e)) = evalGiven (fun v => (Dict.get? d v).map ρ) ρ ω e := by
  induction e with
  | const x => rfl
  | inp i => rfl
  | app n f args ih =>
    simp only [replaceValued, cleanup, eval, evalGiven]
    congr 1
    funext i
    exact ih i (hu i)
  | rv id dist n args ih =>
    cases hv : Dict.get? d id with
    | some v => simp only [replaceValued, hv, cleanup, eval, evalGiven, Option.map_some]
    | none =>
      simp only [replaceValued, hv, cleanup, eval, evalGiven, Option.map_none]
      congr 2
      funext i
      exact ih i (hu i)
  | valued r v => exact hu.elim

/-- **C106** (single terms) `conditional_logprob` returns a term for each variable with a value, some requested and some realized: the log-probability array of its distribution at its value, with the parameters computed from
the values of the other variables; variables without value are sampled given those of their ancestors that have one. -/
theorem C106_terms (kernel : Di → Arr FVal → List (Arr FVal) → Except Err (Arr FVal)) {defs : ℕ → Option (RVDef Di)} (huser : ∀ v r, defs v = some r → ∀ i, User (r.args i))
    {rvs clones : List ℕ} (hc : clones.length = rvs.length) {realized : Dict ℕ ℕ} (hdef : ∀ v, v ∈ rvs ∨ v ∈ Dict.keys realized → (defs v).isSome) :
    ∃ terms vvs, conditionalLogprob (backend defs (rvValues rvs clones realized)) rvs clones realized = .ok (terms, vvs) ∧
      ((Dict.keys terms).Nodup ∧ ∀ v, v ∈ Dict.keys terms ↔ v ∈ rvs ∨ v ∈ Dict.keys realized) ∧
      ∀ v r, v ∈ rvs ∨ v ∈ Dict.keys realized → defs v = some r → ∃ x t, Dict.get? (rvValues rvs clones realized) v = some x ∧ Dict.get? terms v = some t ∧
        ∀ ρ ω, t.eval kernel ρ ω = kernel r.dist (ρ x) (List.ofFn fun i => evalGiven (fun w => (Dict.get? (rvValues rvs clones realized) w).map ρ) ρ ω (r.args i)) := by
  set d := rvValues rvs clones realized with hd
  have hdn : (Dict.keys d).Nodup := rvValues_nodup rvs clones realized
  have hdk : ∀ v, v ∈ Dict.keys d ↔ v ∈ rvs ∨ v ∈ Dict.keys realized := fun v => by
    rw [hd, rvValues, Dict.mem_keys_update, Dict.mem_keys_ofList, List.map_fst_zip hc.ge]
  have hdef' : ∀ v ∈ Dict.keys d, ∃ r, defs v = some r := fun v hv => Option.isSome_iff_exists.1 (hdef v ((hdk v).1 hv))
  let val : ℕ → ℕ := fun v => (Dict.get? d v).getD 0
  have hval : ∀ p ∈ d, val p.1 = p.2 := fun p hp => by simp only [val, Dict.get?_of_mem hdn (show (p.1, p.2) ∈ d from hp), Option.getD_some]
  have hval' : ∀ v ∈ Dict.keys d, Dict.get? d v = some (val v) := fun v hv => by
    obtain ⟨x, hx⟩ := Dict.get?_isSome.2 hv
    simp only [val, hx, Option.getD_some]
  by_cases hne : d = []
  · have hv0 : ∀ v, ¬ (v ∈ rvs ∨ v ∈ Dict.keys realized) := fun v hv => by
      have := (hdk v).2 hv
      rw [hne] at this
      simp [Dict.keys] at this
    refine ⟨[], [], ?_, ⟨by simp [Dict.keys], fun v => ⟨fun h => by simp [Dict.keys] at h, fun h => absurd h (hv0 v)⟩⟩, fun v r hv => absurd hv (hv0 v)⟩
    rw [conditionalLogprob, ← hd, hne]
    rfl
  obtain ⟨p0, hp0⟩ := List.exists_mem_of_ne_nil d hne
  obtain ⟨r0, -⟩ := hdef' p0.1 (List.mem_map.2 ⟨p0, hp0, rfl⟩)
  let mk : ℕ → RVDef Di → Term Di := fun v r => ⟨r.dist, cleanup (.inp (val v)), r.n, fun i => cleanup (replaceValued d (r.args i))⟩
  let t : ℕ → Term Di := fun v => mk v ((defs v).getD r0)
  have ht : ∀ {v r}, defs v = some r → t v = mk v r := fun {v r} h => by show mk v ((defs v).getD _) = _; rw [h]; rfl
  have hcond := conditional_simple (B := backend defs d) (realized := realized) (val := val) (base := val) (t := t) hd
    (fun v hv => by obtain ⟨r, hr⟩ := hdef' v hv; simp [backend, hr]) (fun _ _ => rfl)
    (by
      show Except.ok (d.map fun p => some (⟨p.1, p.2⟩ : ValuedOut ℕ), d.map Prod.snd) = _
      congr 2
      · exact List.map_congr_left fun p hp => by rw [hval p hp]
      · exact List.map_congr_left fun p hp => (hval p hp).symm)
    (fun v hv => by obtain ⟨r, hr⟩ := hdef' v hv; simp [backend, hr]) (fun v hv => by obtain ⟨r, hr⟩ := hdef' v hv; rw [ht hr]; simp [backend, hr, mk])
  have hkeys : Dict.keys (d.map fun p => (p.1, t p.1)) = Dict.keys d := by rw [Dict.keys, List.map_map]; rfl
  refine ⟨_, _, hcond, ⟨hkeys ▸ hdn, fun v => ?_⟩, fun v r hv hr => ⟨val v, t v, hval' v ((hdk v).2 hv), IR.get?_map_key d t ((hdk v).2 hv), fun ρ ω => ?_⟩⟩
  · rw [← hdk, Dict.keys, List.map_map]
    rfl
  · rw [ht hr]
    simp only [mk, Term.eval, cleanup, eval]
    congr 2
    funext i
    exact eval_given d ρ ω _ (huser v r hr i)

/-- **C106** (arrays of independent numbers) For an elementwise formula that is, at the parameters met by each entry, the log-density of a law of numbers: on arrays of that shape, with
parameters that fit into it, the sum over the log-probability array is the log-density of independent entries with these laws. -/
theorem C106_entries {k : FVal → List FVal → Except Err FVal} {s : List ℕ} {p : List (Arr FVal)} (hfit : Fit s p) {law ref : Fin (entries s) → Measure ℝ} [∀ i, SigmaFinite (ref i)]
    (hp : ∀ i, IsProbabilityMeasure (law i)) (hm : ∀ i : Fin (entries s), Measurable fun x : ℝ => dens (k (.fin x) (paramsAt p (coord i))))
    (hd : ∀ i, law i = (ref i).withDensity fun x => dens (k (.fin x) (paramsAt p (coord i)))) :
    GoodAt (numbers s) (elemwiseLogprob k) (Measure.pi law) (Measure.pi ref) p := by
  refine goodAt_pi hp (fun i => (hm i).aemeasurable) hd fun x => ?_
  have hs : bshape ((numbers s x).shape :: p.map Arr.shape) = some s := hfit
  rw [elemwiseLogprob, hs]
  simp only
  refine (dens_entries _ s).trans (Finset.prod_congr rfl fun i _ => ?_)
  rw [entryLogprob, entryAt, show (numbers s x).shape = s from rfl, project_self (coord_inRange i), numbers_get]
  rfl

/-- **C106** (parameters out of range) Such a log-probability raises, on arrays with parameters that fit, exactly if the formula raises at some entry. -/
theorem C106_entries_raise (k : FVal → List FVal → Except Err FVal) {s : List ℕ} {p : List (Arr FVal)} (hfit : Fit s p) (x : Fin (entries s) → ℝ) :
    (∃ e, elemwiseLogprob k (numbers s x) p = .error e) ↔ ∃ (i : Fin (entries s)) (e : Err), k (.fin (x i)) (paramsAt p (coord i)) = .error e := by
  have hs : bshape ((numbers s x).shape :: p.map Arr.shape) = some s := hfit
  rw [elemwiseLogprob, hs]
  simp only
  have he : ∀ i : Fin (entries s), entryLogprob k (numbers s x) p (coord i) = k (.fin (x i)) (paramsAt p (coord i)) := fun i => by
    rw [entryLogprob, entryAt, show (numbers s x).shape = s from rfl, project_self (coord_inRange i), numbers_get]
    rfl
  constructor
  · rintro ⟨e, h⟩
    by_contra hno
    push Not at hno
    have : ∀ c ∈ allCoords s, ∃ y, entryLogprob k (numbers s x) p c = .ok y := by
      intro c hc
      obtain ⟨i, hi, rfl⟩ := List.mem_iff_getElem.1 hc
      have h1 := he ⟨i, hi⟩
      have h2 := hno ⟨i, hi⟩
      simp only [coord] at h1 h2
      rw [show (allCoords s)[i] = (allCoords s)[(⟨i, hi⟩ : Fin (entries s))] from rfl, h1]
      cases hk : k (.fin (x ⟨i, hi⟩)) (paramsAt p (allCoords s)[(⟨i, hi⟩ : Fin (entries s))]) with
      | ok y => exact ⟨y, rfl⟩
      | error e => exact absurd hk (h2 e)
    choose! g hg using this
    rw [mapM_ok hg] at h
    cases h
  · rintro ⟨i, e, h⟩
    rw [← he] at h
    cases hm : (allCoords s).mapM (entryLogprob k (numbers s x) p) with
    | error e => exact ⟨e, rfl⟩
    | ok l =>
      exfalso
      have hmem : coord i ∈ allCoords s := List.getElem_mem _
      revert hm hmem
      generalize allCoords s = cs
      intro hm hmem
      induction cs generalizing l with
      | nil => simp at hmem
      | cons a cs ih =>
        rw [List.mapM_cons] at hm
        cases ha : entryLogprob k (numbers s x) p a with
        | error e => rw [ha] at hm; cases hm
        | ok y =>
          rcases List.mem_cons.1 hmem with h1 | h1
          · rw [← h1, h] at ha; cases ha
          · cases hr : cs.mapM (entryLogprob k (numbers s x) p) with
            | error e => rw [ha, hr] at hm; cases hm
            | ok l' => exact ih l' hr h1

section mv
open ProbabilityTheory Matrix WithLp

/-- **C106** (vectors) One or a whole axis of multivariate normal vectors, with means given by a parameter that fits and one positive-definite covariance: the sum over the log-probability
array is the log-density of independent Gaussian vectors with these means and this covariance. -/
theorem C106_mvnormal {chol : (n : ℕ) → Matrix (Fin n) (Fin n) ℝ → Option (Matrix (Fin n) (Fin n) ℝ)} {b : List ℕ} (hb : b.length ≤ 1) {n : ℕ} (hchol : CholContract (chol n))
    {mu cov : Arr FVal} (hmu : Fit (b ++ [n]) [mu]) (hcov : cov.shape = [n, n]) {S : Matrix (Fin n) (Fin n) ℝ} (hS : S.PosDef) (hSc : ∀ i j : Fin n, cov.get [i, j] = .fin (S i j))
    {m : Fin (entries b) → Fin n → ℝ} (hm : ∀ (k : Fin (entries b)) (i : Fin n), mu.get (project (coord k ++ [(i : ℕ)]) mu.shape) = .fin (m k i)) :
    GoodAt (rows b n) (mvnormalArr chol) (Measure.pi fun k => (multivariateGaussian (toLp 2 (m k)) S).map ofLp) (Measure.pi fun _ => volume) [mu, cov] := by
  have hmeas : ∀ k, Measurable fun x => dens (mvnormalLogprob (chol n) x (m k) S) := fun k => by
    simp_rw [C37_mvnormal_formula hchol hS (m k), dens, FVal.toDens]
    have : Continuous fun x : Fin n → ℝ => -((n : ℝ) / 2) * Real.log (2 * Real.pi) - 1 / 2 * Real.log S.det - 1 / 2 * ((x - m k) ⬝ᵥ S⁻¹ *ᵥ (x - m k)) := by fun_prop
    exact (Real.continuous_exp.comp this).measurable.ennreal_ofReal
  refine goodAt_pi (d := fun k x => dens (mvnormalLogprob (chol n) x (m k) S)) (fun k => Measure.isProbabilityMeasure_map (by fun_prop)) (fun k => (hmeas k).aemeasurable) (fun k => ?_) fun x => ?_
  · refine Measure.ext fun t ht => ?_
    rw [withDensity_apply _ ht, (C37_mvnormal hchol hS (m k)).1.law t ht]
  · have hs : bshape [(rows b n x).shape, mu.shape] = some (b ++ [n]) := hmu
    have hlast : (rows b n x).shape.getLast? = some n := List.getLast?_concat ..
    rw [mvnormalArr, hs, hcov, hlast]
    simp only [List.length_append, List.length_singleton, List.getLast?_concat, List.dropLast_concat]
    rw [if_pos ⟨by omega, trivial, trivial⟩]
    refine (dens_entries _ b).trans (Finset.prod_congr rfl fun k _ => ?_)
    have e1 : (fun i : Fin n => toReal (entryAt (rows b n x) (coord k ++ [(i : ℕ)]))) = x k := by
      funext i
      have hin : InRange (coord k ++ [(i : ℕ)]) (b ++ [n]) := by
        have := coord_inRange k
        exact List.rel_append this (.cons i.2 .nil)
      rw [entryAt, show (rows b n x).shape = b ++ [n] from rfl, project_self hin, rows_get]
      rfl
    have e2 : (fun i : Fin n => toReal (entryAt mu (coord k ++ [(i : ℕ)]))) = m k := by
      funext i
      rw [entryAt, hm k i]
      rfl
    have e3 : (fun i j : Fin n => toReal (cov.get [(i : ℕ), (j : ℕ)])) = S := by
      funext i j
      rw [hSc]
      rfl
    rw [mvnormalRow, e1, e2, e3]
    rfl

/-- Four vectors of length three with a common mean. -/
example : ∃ chol, GoodAt (rows [4] 3) (mvnormalArr chol) (Measure.pi fun _ : Fin (entries [4]) => (multivariateGaussian (toLp 2 ![1, 2, 3]) (1 : Matrix (Fin 3) (Fin 3) ℝ)).map ofLp)
    (Measure.pi fun _ => volume) [⟨[3], fun c => .fin (c.headD 0 + 1)⟩, ⟨[3, 3], fun c => .fin (if c.headD 0 = c.getLastD 0 then 1 else 0)⟩] := by
  choose chol hchol using fun n => exists_cholContract (n := n)
  refine ⟨chol, C106_mvnormal (b := [4]) (by simp) (hchol 3) (mu := ⟨[3], fun c => .fin (c.headD 0 + 1)⟩) (cov := ⟨[3, 3], fun c => .fin (if c.headD 0 = c.getLastD 0 then 1 else 0)⟩) (by unfold Fit; decide) rfl
    Matrix.PosDef.one (fun i j => ?_) (m := fun _ => ![1, 2, 3]) fun k i => ?_⟩
  · fin_cases i <;> fin_cases j <;> simp
  · have hl : (coord k).length = 1 := (coord_inRange k).length_eq
    match hc : coord k, hl with
    | [a], _ =>
      fin_cases i <;> simp [project] <;> norm_num

end mv

/-! A hierarchical model with `J` groups (the "eight schools"): `μ ~ N(0, 5)`, `τ ~ Exponential(mean 5)`, `θ ~ N(μ, τ, size=J)`, `y ~ N(θ, sd)` with given standard deviations; `y` is
observed. -/

namespace Schools
open ProbabilityTheory

inductive Dist | normal | exponential

noncomputable def normalK : FVal → List FVal → Except Err FVal
  | x, [m, s] => normalLogprob x m s
  | _, _ => .error .notImplemented

noncomputable def expK : FVal → List FVal → Except Err FVal
  | x, [m] => exponentialLogprob x m
  | _, _ => .error .notImplemented

noncomputable def kernel : Dist → Arr FVal → List (Arr FVal) → Except Err (Arr FVal)
  | .normal => elemwiseLogprob normalK
  | .exponential => elemwiseLogprob expK

noncomputable def law1 : Dist → List FVal → Measure ℝ
  | .normal, [.fin m, .fin s] => gaussianReal m (s ^ 2).toNNReal
  | .exponential, [.fin m] => volume.withDensity (exponentialPDF m⁻¹)
  | _, _ => 0

variable (J : ℕ)

def shape (i : ℕ) : List ℕ := if i = 2 ∨ i = 3 then [J] else []

noncomputable def law (i : ℕ) (dist : Dist) (p : List (Arr FVal)) : Measure (Fin (entries (shape J i)) → ℝ) := Measure.pi fun k => law1 dist (paramsAt p (coord k))

noncomputable def ref (i : ℕ) : Measure (Fin (entries (shape J i)) → ℝ) := Measure.pi fun _ => volume

def scalar (x : ℝ) : Arr FVal := ⟨[], fun _ => .fin x⟩

/-- A vector of numbers. -/
def vector (v : ℕ → ℝ) : Arr FVal := ⟨[J], fun c => .fin (v (c.headD 0))⟩

noncomputable def mu : RVDef Dist := ⟨.normal, 2, ![.const (scalar 0), .const (scalar 5)]⟩
noncomputable def tau : RVDef Dist := ⟨.exponential, 1, ![.const (scalar 5)]⟩
noncomputable def theta : RVDef Dist := ⟨.normal, 2, ![.rv 0 .normal 2 mu.args, .rv 1 .exponential 1 tau.args]⟩
noncomputable def y (sd : ℕ → ℝ) : RVDef Dist := ⟨.normal, 2, ![.rv 2 .normal 2 theta.args, .const (vector J sd)]⟩
noncomputable def model (sd : ℕ → ℝ) : List (ℕ × RVDef Dist) := [(0, mu), (1, tau), (2, theta), (3, y J sd)]

theorem normal_good {s : List ℕ} {a b : Arr FVal} (hfit : Fit s [a, b]) {m sd : Fin (entries s) → ℝ} (ha : ∀ k, a.get (project (coord k) a.shape) = .fin (m k))
    (hb : ∀ k, b.get (project (coord k) b.shape) = .fin (sd k)) (hsd : ∀ k, 0 < sd k) :
    GoodAt (numbers s) (kernel .normal) (Measure.pi fun k : Fin (entries s) => law1 .normal (paramsAt [a, b] (coord k))) (Measure.pi fun _ => volume) [a, b] := by
  have hp : ∀ k : Fin (entries s), paramsAt [a, b] (coord k) = [.fin (m k), .fin (sd k)] := fun k => by simp only [paramsAt, List.map_cons, List.map_nil, ha, hb]
  have e : ∀ k : Fin (entries s), (fun x : ℝ => dens (normalK (.fin x) (paramsAt [a, b] (coord k)))) = gaussianPDF (m k) (sd k ^ 2).toNNReal := fun k => by
    funext x
    rw [hp k]
    show dens (normalLogprob _ _ _) = _
    rw [normal_eval x (m k) (hsd k), dens_log (gaussianPDFReal_pos _ _ _ (toNNReal_sq_ne (hsd k)))]
    rfl
  refine C106_entries hfit (fun k => ?_) (fun k => ?_) fun k => ?_
  · rw [hp k]; exact inferInstanceAs (IsProbabilityMeasure (gaussianReal _ _))
  · rw [e k]; exact measurable_gaussianPDF _ _
  · rw [e k, hp k]; exact gaussianReal_of_var_ne_zero _ (toNNReal_sq_ne (hsd k))

theorem exp_good {s : List ℕ} {a : Arr FVal} (hfit : Fit s [a]) {m : Fin (entries s) → ℝ} (ha : ∀ k, a.get (project (coord k) a.shape) = .fin (m k)) (hm : ∀ k, 0 < m k) :
    GoodAt (numbers s) (kernel .exponential) (Measure.pi fun k : Fin (entries s) => law1 .exponential (paramsAt [a] (coord k))) (Measure.pi fun _ => volume) [a] := by
  have hp : ∀ k : Fin (entries s), paramsAt [a] (coord k) = [.fin (m k)] := fun k => by simp only [paramsAt, List.map_cons, List.map_nil, ha]
  have e : ∀ k : Fin (entries s), (fun x : ℝ => dens (expK (.fin x) (paramsAt [a] (coord k)))) = exponentialPDF (m k)⁻¹ := fun k => by
    rw [hp k]; exact TransVec.Demo.dens_exponential (hm k)
  refine C106_entries hfit (fun k => ?_) (fun k => ?_) fun k => ?_
  · rw [hp k]
    exact isProbabilityMeasure_expMeasure (inv_pos.2 (hm k))
  · rw [e k]; exact (measurable_exponentialPDFReal _).ennreal_ofReal
  · rw [e k, hp k]; rfl

theorem entries_nil : entries [] = 1 := rfl

theorem scalar_entry (x : Fin (entries []) → ℝ) (c : List ℕ) : (numbers [] x).get (project c (numbers [] x).shape) = .fin (x ⟨0, by decide⟩) := by
  have : project c (numbers [] x).shape = coord (s := []) ⟨0, by decide⟩ := by simp [project, numbers, coord, allCoords]
  rw [this, numbers_get]

theorem fit_scalars {s : List ℕ} {a b : Arr FVal} (ha : a.shape = []) (hb : b.shape = []) : Fit s [a, b] := by
  rw [Fit, List.map_cons, List.map_cons, List.map_nil, ha, hb, bshape_some]
  have hmax : maxDims [s, [], []] = s.length := by simp [maxDims]
  rw [hmax]
  refine ⟨rfl, fun d h => ⟨fun t ht => ?_, fun _ => ⟨s, by simp, ?_⟩⟩⟩
  · simp only [List.mem_cons, List.not_mem_nil, or_false, or_self] at ht
    rcases ht with rfl | rfl
    · exact .inr (by simp [padded, h])
    · exact .inl (by simp [padded, h])
  · simp [padded, h]

theorem exp_pos_ae {m : ℝ} : ∀ᵐ x ∂((volume : Measure ℝ).withDensity (exponentialPDF m⁻¹)), 0 < x := by
  have hm : Measurable (exponentialPDF m⁻¹) := (measurable_exponentialPDFReal _).ennreal_ofReal
  rw [ae_withDensity_iff hm]
  filter_upwards [Measure.ae_ne volume (0 : ℝ)] with x h0 hx
  rcases lt_or_gt_of_ne h0 with h | h
  · exact absurd (by simp [exponentialPDF_eq, not_le.2 h]) hx
  · exact h

theorem valid {sd : ℕ → ℝ} (hsd : ∀ i, 0 < sd i) (ρ : ℕ → Arr FVal) (σ : ∀ i, Fin (entries (shape J i)) → ℝ) :
    Valid (fun i => numbers (shape J i)) kernel (law J) (ref J) ρ (model J sd) σ := by
  have p0 : ∀ σ ρ, params σ ρ mu = [scalar 0, scalar 5] := fun σ ρ => by simp [params, mu, List.ofFn_succ, evalAt]
  have p1 : ∀ σ ρ, params σ ρ tau = [scalar 5] := fun σ ρ => by simp [params, tau, List.ofFn_succ, evalAt]
  refine ⟨?_, ae_of_all _ fun x0 => ⟨?_, ?_⟩⟩
  · rw [p0]
    exact normal_good (s := []) (fit_scalars rfl rfl) (m := fun _ => 0) (sd := fun _ => 5) (fun _ => rfl) (fun _ => rfl) (by norm_num)
  · rw [p1]
    exact exp_good (s := []) (a := scalar 5) rfl (m := fun _ => 5) (fun _ => rfl) (by norm_num)
  have hpos : ∀ᵐ x1 ∂(law J 1 .exponential [scalar 5]), 0 < x1 (⟨0, one_pos⟩ : Fin 1) := by
    have hp : ∀ k : Fin (entries (shape J 1)), law1 .exponential (paramsAt [scalar 5] (coord k)) = (volume : Measure ℝ).withDensity (exponentialPDF 5⁻¹) := fun k => rfl
    have : ∀ k : Fin (entries (shape J 1)), SigmaFinite (law1 .exponential (paramsAt [scalar 5] (coord k))) := fun k => by
      rw [hp]
      have : IsProbabilityMeasure ((volume : Measure ℝ).withDensity (exponentialPDF 5⁻¹)) := isProbabilityMeasure_expMeasure (by norm_num)
      infer_instance
    exact (Measure.quasiMeasurePreserving_eval _ _).ae (exp_pos_ae (m := 5))
  rw [p1]
  filter_upwards [hpos] with x1 h1
  refine ⟨?_, ae_of_all _ fun x2 => ⟨?_, ae_of_all _ fun _ => trivial⟩⟩
  · have p2 : params (asg (fun i => numbers (shape J i)) (Function.update (Function.update σ 0 x0) 1 x1)) ρ theta = [numbers [] x0, numbers [] x1] := by
      simp only [params, theta, List.ofFn_succ, evalAt, asg]
      rfl
    rw [p2]
    exact normal_good (s := [J]) (fit_scalars rfl rfl) (fun k => scalar_entry x0 (coord k)) (fun k => scalar_entry x1 (coord k)) fun _ => h1
  · have p3 : params (asg (fun i => numbers (shape J i)) (Function.update (Function.update (Function.update σ 0 x0) 1 x1) 2 x2)) ρ (y J sd) = [numbers [J] x2, vector J sd] := by
      simp only [params, y, List.ofFn_succ, evalAt, asg]
      rfl
    rw [p3]
    have hfit : Fit [J] [numbers [J] x2, vector J sd] := bshape_replicate (s := [J]) (by simp [numbers, vector]) (by simp)
    refine normal_good (s := [J]) hfit (m := x2) (sd := fun k => sd ((coord k).headD 0)) (fun k => ?_) (fun k => ?_) fun k => hsd _
    · rw [show (numbers [J] x2).shape = [J] from rfl, project_self (coord_inRange k)]
      exact numbers_get (s := [J]) x2 k
    · rw [show (vector J sd).shape = [J] from rfl, project_self (coord_inRange k)]
      rfl

/-- Two entries, one of them with a negative standard deviation. -/
example : ∃ e, elemwiseLogprob normalK (numbers [2] fun _ => 0) [scalar 0, vector 2 fun i => 1 - 2 * i] = .error e := by
  refine (C106_entries_raise normalK (s := [2]) (p := [scalar 0, vector 2 fun i => 1 - 2 * i]) (by unfold Fit; simp only [scalar, vector, List.map_cons, List.map_nil]; decide) fun _ => 0).2
    ⟨⟨1, by decide⟩, .parameterValue, ?_⟩
  show normalLogprob _ (.fin 0) (.fin (1 - 2 * ((1 : ℕ) : ℝ))) = _
  simp [normalLogprob, checkParam, FVal.gt, FVal.lt]

/-- Value variables `10`, `11`, `12`, `13`. -/
noncomputable def env (σ : ∀ i, Fin (entries (shape J i)) → ℝ) (i : ℕ) : Arr FVal := if 10 ≤ i then numbers (shape J (i - 10)) (σ (i - 10)) else ⟨[], fun _ => .nan⟩

/-- All the hypotheses hold, for any number of groups; `y` is realized. -/
example {sd : ℕ → ℝ} (hsd : ∀ i, 0 < sd i) (ρ : ℕ → Arr FVal) (ω : ℕ → Dist → List (Arr FVal) → Arr FVal) :
    ∃ j vvs, joint (Dict.get? (model J sd)) [2, 0, 1] [12, 10, 11] [(3, 13)] = .ok (some (j, vvs)) ∧
      (∀ x, x ∈ vvs ↔ ∃ v, v ∉ Dict.keys [(3, 13)] ∧ Dict.get? (rvValues [2, 0, 1] [12, 10, 11] [(3, 13)]) v = some x) ∧
      ∀ σ₀, ∀ φ, refE (ref J) (model J sd) σ₀ (fun σ => dens (evalJoint kernel (env J σ) ω j) * φ σ) =
          sampleE (fun i => numbers (shape J i)) (law J) ρ (model J sd) σ₀ φ := by
  obtain ⟨j, vvs, h1, h2, h3⟩ := C106_joint_density (fun i => numbers (shape J i)) kernel (law J) (ref J) ρ ω (l := model J sd) (rvs := [2, 0, 1]) (clones := [12, 10, 11]) (realized := [(3, 13)])
    (by simp [model]) (by simp [DependencyOrder, model, mu, tau, theta, y, Mentions, Fin.forall_fin_two]) (by simp [model, mu, tau, theta, y, User, Fin.forall_fin_two]) rfl
    (by intro v; simp [model, Dict.keys]; tauto) (by simp [model, mu, tau, theta, y, Mentions, Fin.forall_fin_two]) (env J)
    (by
      intro σ v x h
      have e : rvValues [2, 0, 1] [12, 10, 11] [(3, 13)] = [(2, 12), (0, 10), (1, 11), (3, 13)] := by decide
      rw [e] at h
      simp only [Dict.get?] at h
      split_ifs at h with h1 h2 h3 h4 <;> cases h <;> (rename_i h; subst_vars; rfl))
    (by
      intro σ p hp
      simp only [model, List.mem_cons, List.not_mem_nil, or_false] at hp
      rcases hp with rfl | rfl | rfl | rfl <;> simp [params, mu, tau, theta, y, List.ofFn_succ, evalAt])
  exact ⟨j, vvs, h1, h2, fun σ₀ φ => h3 σ₀ (valid J hsd ρ σ₀) φ⟩

/-- `y` is realized, `θ` and `μ` are not given: the term of `y` has a sampled mean. -/
example (sd : ℕ → ℝ) : ∃ terms vvs, conditionalLogprob (backend (Dict.get? (model J sd)) (rvValues [1] [11] [(3, 13)])) [1] [11] [(3, 13)] = .ok (terms, vvs) ∧
    (∀ v, v ∈ Dict.keys terms ↔ v ∈ [1] ∨ v ∈ Dict.keys [(3, 13)]) ∧ ∃ t, Dict.get? terms 3 = some t ∧
      ∀ ρ ω, t.eval kernel ρ ω = kernel .normal (ρ 13) [ω 2 .normal [ω 0 .normal [scalar 0, scalar 5], ρ 11], vector J sd] := by
  obtain ⟨terms, vvs, h1, h2, h3⟩ := C106_terms kernel (defs := Dict.get? (model J sd)) (rvs := [1]) (clones := [11]) (realized := [(3, 13)])
    (fun v r h => by
      have := Dict.mem_of_get? h
      simp only [model, List.mem_cons, List.not_mem_nil, or_false, Prod.mk.injEq] at this
      rcases this with ⟨-, rfl⟩ | ⟨-, rfl⟩ | ⟨-, rfl⟩ | ⟨-, rfl⟩ <;> simp [mu, tau, theta, y, User, Fin.forall_fin_two]) rfl
    (by intro v hv; simp [Dict.keys] at hv; rcases hv with rfl | rfl <;> simp [model, Dict.get?])
  refine ⟨terms, vvs, h1, h2.2, ?_⟩
  obtain ⟨x, t, hx, ht, he⟩ := h3 3 (y J sd) (by simp [Dict.keys]) (by simp [model, Dict.get?])
  have hd : rvValues [1] [11] [(3, 13)] = [(1, 11), (3, 13)] := by decide
  rw [hd] at hx he
  have hx' : x = 13 := by simpa [Dict.get?] using hx.symm
  subst hx'
  refine ⟨t, ht, fun ρ ω => (he ρ ω).trans ?_⟩
  simp [y, theta, mu, tau, List.ofFn_succ, evalGiven, Dict.get?]

end Schools

end Verif.ArrGraph
