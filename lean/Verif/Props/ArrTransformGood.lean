import Verif.Props.ArrTransform

/-! # C107: which transforms of array variables are good -/

namespace Verif.ArrGraph
open Verif Cond MeasureTheory Set

/-- The array with the given entries, from what is computed at each entry. -/
theorem tabulate_numbers {s : List ℕ} {f : List ℕ → FVal} {g : Fin (entries s) → ℝ} (h : ∀ k, f (coord k) = .fin (g k)) : tabulate s f = numbers s g := by
  simp only [tabulate, numbers]
  congr 1
  funext c
  by_cases hc : c ∈ allCoords s
  · have hlt : (allCoords s).idxOf c < entries s := List.idxOf_lt_length_iff.2 hc
    rw [if_pos hc, dif_pos hlt, ← h]
    congr 1
    exact (List.getElem_idxOf hlt).symm
  · have hlt : ¬ (allCoords s).idxOf c < entries s := fun h => hc (List.idxOf_lt_length_iff.1 h)
    rw [if_neg hc, dif_neg hlt]

theorem entryAt_numbers {s : List ℕ} (x : Fin (entries s) → ℝ) (k : Fin (entries s)) : entryAt (numbers s x) (coord k) = .fin (x k) := by
  rw [entryAt, show (numbers s x).shape = s from rfl, project_self (coord_inRange k), numbers_get]

theorem elemwise_numbers {f : FVal → List FVal → FVal} {s : List ℕ} {p : List (Arr FVal)} (hfit : Fit s p) {x g : Fin (entries s) → ℝ}
    (h : ∀ k : Fin (entries s), f (.fin (x k)) (paramsAt p (coord k)) = .fin (g k)) : elemwise f (numbers s x) p = numbers s g := by
  have hs : bshape ((numbers s x).shape :: p.map Arr.shape) = some s := hfit
  rw [elemwise, hs, Option.getD_some]
  refine tabulate_numbers fun k => ?_
  rw [entryAt_numbers, ← h k]
  rfl

/-- The sum of an array of log-probabilities and an array of numbers of the same shape. -/
theorem dens_addArr {s : List ℕ} {out : Arr FVal} (hs : out.shape = s) (j : Fin (entries s) → ℝ) :
    dens (arrayJoint (addArr out (numbers s j))) = (∏ k, (FVal.fin (j k)).toDens) * dens (arrayJoint (.ok out)) := by
  rw [dens_arrayJoint_ok hs, ← Finset.prod_mul_distrib]
  have hb : bshape [out.shape, (numbers s j).shape] = some s := by rw [hs]; exact bshape_self s
  rw [addArr, hb]
  simp only
  rw [dens_arrayJoint_ok (s := s) rfl]
  refine Finset.prod_congr rfl fun k _ => ?_
  simp only [entryAt_numbers]
  rw [entryAt, hs, project_self (coord_inRange k), Graph.toDens_add, mul_comm]

/-- **C107** (no transform) A variable without a transform. -/
theorem C107_plain {Y : Type} [MeasurableSpace Y] {arr : Y → Arr FVal} {kernel : Arr FVal → List (Arr FVal) → Except Err (Arr FVal)} {law ref : Measure Y} {p : List (Arr FVal)}
    (h : GoodAt arr kernel law ref p) : GoodT arr arr kernel none id univ law ref p := by
  have hp := h.prob
  refine ⟨h.prob, ae_of_all _ fun x => ⟨trivial, rfl⟩, ae_of_all _ fun x => rfl, by rw [Measure.restrict_univ]; exact h.meas, fun G => ?_⟩
  have hm : AEMeasurable (fun x => dens (arrayJoint (kernel (arr x) p))) ref := h.meas
  have hfin : ∀ᵐ x ∂ref, dens (arrayJoint (kernel (arr x) p)) < ⊤ := by
    refine ae_lt_top' hm ?_
    have : law univ = 1 := measure_univ
    rw [h.dens, withDensity_apply _ MeasurableSet.univ, Measure.restrict_univ] at this
    rw [this]; exact ENNReal.one_ne_top
  rw [Measure.restrict_univ]
  conv_lhs => rw [h.dens]
  rw [lintegral_withDensity_eq_lintegral_mul_non_measurable₀ _ hm hfin]
  rfl

/-- **C107** (elementwise transforms) A variable with one log-probability for each entry and an elementwise transform that is invertible, with the right Jacobian term, between the values `D k` that
the entry `k` takes and the values `R k`. -/
theorem C107_entrywise {s : List ℕ} {kernel : Arr FVal → List (Arr FVal) → Except Err (Arr FVal)} {law : Measure (Fin (entries s) → ℝ)} {p : List (Arr FVal)}
    (hgood : GoodAt (numbers s) kernel law (Measure.pi fun _ => volume) p) (hshape : ∀ x out, kernel (numbers s x) p = .ok out → out.shape = s) (hfit : Fit s p) {t : IR.VTransform}
    {D R : Fin (entries s) → Set ℝ} (hD : ∀ᵐ x ∂law, x ∈ univ.pi D) (hinv : ∀ k : Fin (entries s), Inverts (t.at (paramsAt p (coord k))) (D k) (R k))
    (hjac : ∀ k : Fin (entries s), LogJac (t.at (paramsAt p (coord k))) (R k)) (hR : ∀ k, MeasurableSet (R k)) :
    GoodT (numbers s) (numbers s) kernel (some (entrywise t)) (fun x k => realOf (.ok (t.forward (.fin (x k)) (paramsAt p (coord k))))) (univ.pi R) law (Measure.pi fun _ => volume) p := by
  have hp := hgood.prob
  set T : Fin (entries s) → RVTransform := fun k => t.at (paramsAt p (coord k)) with hT
  have hfw : (fun (x : Fin (entries s) → ℝ) k => realOf (.ok (t.forward (.fin (x k)) (paramsAt p (coord k))))) = TransVec.forw T := rfl
  rw [hfw]
  have hvol : (Measure.pi fun _ : Fin (entries s) => (volume : Measure ℝ)) = volume := rfl
  rw [hvol] at hgood ⊢
  obtain ⟨d, hd⟩ := TransVec.exists_deriv hjac
  have hd1 : ∀ y ∈ univ.pi R, HasFDerivAt (TransVec.back T) (TransVec.diag (d y)) y := fun y hy => (hd y hy).1
  have hRm : MeasurableSet (univ.pi R) := MeasurableSet.univ_pi hR
  have hDm : MeasurableSet (univ.pi D) := TransVec.image_all hinv ▸ TransVec.image_measurable hinv hd1 subset_rfl hRm
  set f : (Fin (entries s) → ℝ) → ENNReal := fun x => dens (arrayJoint (kernel (numbers s x) p)) with hf
  have hfm : AEMeasurable f volume := hgood.meas
  have hdet : AEMeasurable (fun y => ENNReal.ofReal |(TransVec.diag (d y)).det|) (volume.restrict (univ.pi R)) :=
    aemeasurable_ofReal_abs_det_fderivWithin volume hRm fun y hy => (hd1 y hy).hasFDerivWithinAt
  have hback : AEMeasurable (TransVec.back T) (volume.restrict (univ.pi R)) := ContinuousOn.aemeasurable (fun y hy => (hd1 y hy).continuousAt.continuousWithinAt) hRm
  have hfb : AEMeasurable (fun y => f (TransVec.back T y)) (volume.restrict (univ.pi R)) := by
    refine AEMeasurable.comp_aemeasurable' (hfm.mono_ac (Measure.AbsolutelyContinuous.mk fun N hN h0 => ?_)) hback
    have h1 : ∫⁻ y in univ.pi R, ENNReal.ofReal (∏ i, |d y i|) * N.indicator 1 (TransVec.back T y) = 0 := by
      rw [← TransVec.lintegral_back hinv hd1 subset_rfl hRm, lintegral_indicator_one hN]
      exact le_antisymm ((Measure.restrict_apply_le _ _).trans h0.le) bot_le
    have h2 : AEMeasurable (fun y => ENNReal.ofReal (∏ i, |d y i|) * N.indicator (1 : (Fin (entries s) → ℝ) → ENNReal) (TransVec.back T y)) (volume.restrict (univ.pi R)) := by
      refine AEMeasurable.mul ?_ ((measurable_one.indicator hN).comp_aemeasurable hback)
      simpa only [TransVec.diag_det, Finset.abs_prod] using hdet
    have h3 := (lintegral_eq_zero_iff' h2).1 h1
    rw [Measure.map_apply_of_aemeasurable hback hN, measure_eq_zero_iff_ae_notMem]
    rw [Filter.EventuallyEq, ae_restrict_iff' hRm] at h3
    rw [ae_restrict_iff' hRm]
    filter_upwards [h3] with y hy hyR hyN
    have h4 := hy hyR
    rw [indicator_of_mem (show TransVec.back T y ∈ N from hyN), Pi.one_apply, mul_one, Pi.zero_apply, ENNReal.ofReal_eq_zero, not_lt.symm] at h4
    exact h4 (Finset.prod_pos fun i _ => abs_pos.2 ((hd y hyR).2.1 i))
  have hlaw : law = volume.withDensity f := hgood.dens
  have hbk : ∀ y ∈ univ.pi R, (entrywise t).backward (numbers s y) p = numbers s (TransVec.back T y) := fun y hy =>
    elemwise_numbers hfit fun k => Except.ok.inj ((TransVec.back_spec hinv hy).2.2 k)
  have hterm : ∀ y ∈ univ.pi R, dens (arrayJoint (termAt kernel (some (entrywise t)) true (numbers s y) p)) = ENNReal.ofReal (∏ k, |d y k|) * f (TransVec.back T y) := by
    intro y hy
    have hj : (entrywise t).logJacDet (numbers s y) p = numbers s fun k => Real.log |d y k| := elemwise_numbers hfit fun k => Except.ok.inj ((hd y hy).2.2 k)
    simp only [termAt, transformedArr, hbk y hy, hj, hf, if_true]
    cases hk : kernel (numbers s (TransVec.back T y)) p with
    | error e => simp [arrayJoint, dens]
    | ok out => rw [dens_addArr (hshape _ _ hk), TransVec.ofReal_prod_abs _ (hd y hy).2.1]
  refine ⟨hp, ?_, ?_, ?_, fun G => ?_⟩
  · filter_upwards [hD] with x hx
    refine ⟨(TransVec.forw_spec hinv hx).1, elemwise_numbers hfit fun k => ?_⟩
    obtain ⟨z, -, e1, -⟩ := (hinv k).fwd _ (hx k trivial)
    have e2 : t.forward (.fin (x k)) (paramsAt p (coord k)) = .fin z := Except.ok.inj e1
    simp only [TransVec.forw, hT, IR.VTransform.at, e2]
    rfl
  · filter_upwards [hD] with x hx
    obtain ⟨h1, h2⟩ := TransVec.forw_spec hinv hx
    exact (hbk _ h1).trans (by rw [h2])
  · refine AEMeasurable.congr (f := fun y => ENNReal.ofReal |(TransVec.diag (d y)).det| * f (TransVec.back T y)) ?_ ?_
    · exact hdet.mul hfb
    · rw [Filter.EventuallyEq, ae_restrict_iff' hRm]
      refine ae_of_all _ fun y hy => ?_
      rw [hterm y hy, TransVec.diag_det, Finset.abs_prod]
  · have hfin : ∀ᵐ x ∂(volume.restrict (univ.pi D)), f x < ⊤ := by
      refine ae_restrict_of_ae (ae_lt_top' hfm ?_)
      have : law univ = 1 := measure_univ
      rw [hlaw, withDensity_apply _ MeasurableSet.univ, Measure.restrict_univ] at this
      rw [this]; exact ENNReal.one_ne_top
    rw [← Measure.restrict_eq_self_of_ae_mem hD, hlaw, restrict_withDensity hDm, lintegral_withDensity_eq_lintegral_mul_non_measurable₀ _ hfm.restrict hfin, ← TransVec.image_all hinv,
      TransVec.lintegral_back hinv hd1 subset_rfl hRm]
    refine setLIntegral_congr_fun hRm fun y hy => ?_
    simp only [Pi.mul_apply]
    rw [hterm y hy, (TransVec.back_spec hinv hy).2.1, mul_assoc]

section whole
variable {Di : Type} {X Z : ℕ → Type} [∀ i, MeasurableSpace (X i)] [∀ i, MeasurableSpace (Z i)]

/-- The conditions of `C107_joint_density_partial` follow from those of `C106_joint_density` and from the transforms of the variables. -/
theorem validT_of_valid {arr : ∀ i, X i → Arr FVal} {arrZ : ∀ i, Z i → Arr FVal} {kernel : Di → Arr FVal → List (Arr FVal) → Except Err (Arr FVal)} {tr : ℕ → Option ATransform}
    {fwd : ∀ i, Di → List (Arr FVal) → X i → Z i} {reg : ∀ i, Di → List (Arr FVal) → Set (Z i)} {law : ∀ i, Di → List (Arr FVal) → Measure (X i)} {ref : ∀ i, Measure (X i)}
    {refZ : ∀ i, Measure (Z i)} {ρ : ℕ → Arr FVal} {l : List (ℕ × RVDef Di)}
    (h : ∀ q ∈ l, ∀ σ : ∀ i, X i, GoodAt (arr q.1) (kernel q.2.dist) (law q.1 q.2.dist (params (asg arr σ) ρ q.2)) (ref q.1) (params (asg arr σ) ρ q.2) →
      GoodT (arr q.1) (arrZ q.1) (kernel q.2.dist) (tr q.1) (fwd q.1 q.2.dist (params (asg arr σ) ρ q.2)) (reg q.1 q.2.dist (params (asg arr σ) ρ q.2))
        (law q.1 q.2.dist (params (asg arr σ) ρ q.2)) (refZ q.1) (params (asg arr σ) ρ q.2))
    (σ : ∀ i, X i) (hv : Valid arr kernel law ref ρ l σ) : ValidT arr arrZ kernel tr fwd reg law refZ ρ l σ := by
  induction l generalizing σ with
  | nil => trivial
  | cons q l ih =>
    obtain ⟨h1, h2⟩ := hv
    exact ⟨h q (by simp) σ h1, h2.mono fun x hx => ih (fun q hq => h q (by simp [hq])) _ hx⟩

/-- **C107** (no Jacobian) With `use_jacobian=False` the joint term is the joint density on the original scales, at the values taken back. -/
theorem C107_without_jacobian {l : List (ℕ × RVDef Di)} {rvs clones : List ℕ} {realized : Dict ℕ ℕ} {reqs : Dict ℕ (Option (TransVals.Req ATransform))}
    {registered : Di → Option ATransform} {tr : ℕ → Option ATransform} {tv : ℕ → ℕ} {order : List ℕ} (hs : Setting l rvs clones realized reqs registered tr tv order)
    (hfirst : ∀ v, (tr v).isSome → ¬ ChildFirst l (Dict.keys (rvValues rvs clones realized)) v) (kernel : Di → Arr FVal → List (Arr FVal) → Except Err (Arr FVal)) (arrZ : ∀ i, Z i → Arr FVal) :
    ∃ j vvs, jointT (Dict.get? l) reqs registered tv order rvs clones realized = .ok (some (j, vvs)) ∧
      ∀ ρ ω τ env A, Env l (rvValues rvs clones realized) tr tv arrZ ρ τ env →
        dens (evalJointT kernel false env ω j) =
          (l.map fun q => dens (arrayJoint (kernel q.2.dist (takeBack tr arrZ ρ τ l A q.1) (params (takeBack tr arrZ ρ τ l A) ρ q.2)))).prod := by
  obtain ⟨j, hj, hfac⟩ := joint_factors (Z := Z) hs hfirst kernel
  refine ⟨j, _, hj, fun ρ ω τ env A henv => ?_⟩
  rw [hfac arrZ false ρ ω τ env A henv, densT_eq kernel false τ hs.ordered]
  congr 1
  refine List.map_congr_left fun q hq => ?_
  rw [takeBack_item hs.ordered hq]
  simp only [termAt, offScale]
  cases tr q.1 with
  | none => rfl
  | some t =>
    simp only [transformedArr, Bool.false_eq_true, if_false]
    cases kernel q.2.dist (t.backward (arrZ q.1 (τ q.1)) (params (takeBack tr arrZ ρ τ l A) ρ q.2)) (params (takeBack tr arrZ ρ τ l A) ρ q.2) <;> rfl

/-- **C107** (errors) A transform given for a variable that has no value is a `KeyError`. -/
theorem C107_unknown_variable {defs : ℕ → Option (RVDef Di)} {rvs clones : List ℕ} (hc : clones.length = rvs.length) {realized : Dict ℕ ℕ}
    (hdef : ∀ v, v ∈ rvs ∨ v ∈ Dict.keys realized → (defs v).isSome) {reqs : Dict ℕ (Option (TransVals.Req ATransform))} (registered : Di → Option ATransform) (tv : ℕ → ℕ) (order : List ℕ)
    (h : ∃ v ∈ Dict.keys reqs, v ∉ rvs ∧ v ∉ Dict.keys realized) : jointT defs reqs registered tv order rvs clones realized = .error .keyError := by
  obtain ⟨v, hv, h1, h2⟩ := h
  have hk := IR.keys_values hc realized
  have hall : ((Dict.keys reqs).all fun v => v ∈ Dict.keys (rvValues rvs clones realized)) = false := by
    rw [List.all_eq_false]
    exact ⟨v, hv, by simp [hk, h1, h2]⟩
  rw [jointT, jointLogprob, conditionalLogprob, constructIr,
    checkValued_simple (B := backendT defs (rvValues rvs clones realized) reqs registered tv order) (fun v hv => by simp [backendT, hdef v ((hk v).1 hv)]) fun _ _ => rfl]
  simp only [backendT, hall, Bool.false_eq_true, if_false]

end whole

/-! The model of `Schools`, with `τ` on the scale of its logarithm, its default transform. -/

namespace Schools

/-- `LogTransform`, the default for exponential variables (transforms.py:675-684, 901-912). -/
noncomputable def logV : IR.VTransform where
  forward v _ := FVal.log v
  backward v _ := FVal.exp v
  logJacDet v _ := v

noncomputable def registered : Dist → Option ATransform
  | .normal => none
  | .exponential => some (entrywise logV)

noncomputable def tr (v : ℕ) : Option ATransform := if v = 1 then some (entrywise logV) else none

def reqs : Dict ℕ (Option (TransVals.Req ATransform)) := [(1, some .default), (0, some .default)]

variable (J : ℕ)

noncomputable def fwd (i : ℕ) (_ : Dist) (p : List (Arr FVal)) (x : Fin (entries (shape J i)) → ℝ) (k : Fin (entries (shape J i))) : ℝ :=
  if i = 1 then realOf (.ok (logV.forward (.fin (x k)) (paramsAt p (coord k)))) else x k

theorem mem_model {sd : ℕ → ℝ} (v : ℕ) : v ∈ (model J sd).map Prod.fst ↔ v = 0 ∨ v = 1 ∨ v = 2 ∨ v = 3 := by simp [model]

theorem values_eq : rvValues [2, 0, 1] [12, 10, 11] [(3, 13)] = [(2, 12), (0, 10), (1, 11), (3, 13)] := by decide

theorem setting (sd : ℕ → ℝ) : Setting (model J sd) [2, 0, 1] [12, 10, 11] [(3, 13)] reqs registered tr (fun v => v + 20) [3, 0, 2, 1] where
  ne := by simp [model]
  ordered := by simp [DependencyOrder, model, mu, tau, theta, y, Mentions, Fin.forall_fin_two]
  user := by simp [model, mu, tau, theta, y, User, Fin.forall_fin_two]
  closed := by simp [model, mu, tau, theta, y, Mentions, Fin.forall_fin_two]
  length := rfl
  mem v := by rw [mem_model]; simp [Dict.keys]; tauto
  requested v t := by
    by_cases h : v = 1
    · subst h; simp [tr, reqs, Dict.get?, model, tau, registered, eq_comm]
    · by_cases h0 : v = 0
      · subst h0; simp [tr, reqs, Dict.get?, model, mu, registered]
      · simp [tr, reqs, Dict.get?, h, Ne.symm h, Ne.symm h0]
  keys v hv := by rw [mem_model]; simp [reqs, Dict.keys] at hv; tauto
  inj v w y h1 h2 := by
    rw [values_eq] at h1 h2
    simp only [Dict.get?] at h1 h2
    split_ifs at h1 h2 <;> simp only [Option.some.injEq] at h1 h2 <;> omega
  fresh v w y hv h := by
    rw [values_eq] at h
    simp only [Dict.get?] at h
    split_ifs at h <;> (cases h; omega)
  order := by
    show [3, 0, 2, 1].Perm [0, 1, 2, 3]
    decide

theorem first_ok (sd : ℕ → ℝ) (v : ℕ) (hv : (tr v).isSome) : ¬ ChildFirst (model J sd) (Dict.keys (rvValues [2, 0, 1] [12, 10, 11] [(3, 13)])) v := by
  have : v = 1 := by by_contra h; simp [tr, h] at hv
  subst this
  rintro ⟨⟨u, r, hr, i, hi⟩, -⟩
  simp [model, Dict.get?] at hr
  subst hr
  revert hi; revert i; simp [tau, Mentions]

/-- Value variables `10`, `12`, `13` and, for the logarithm of `τ`, `21`. -/
noncomputable def envT (σ : ∀ i, Fin (entries (shape J i)) → ℝ) (i : ℕ) : Arr FVal :=
  if i = 21 then numbers (shape J 1) (σ 1) else if 10 ≤ i then numbers (shape J (i - 10)) (σ (i - 10)) else ⟨[], fun _ => .nan⟩

theorem env_ok (sd : ℕ → ℝ) (ρ : ℕ → Arr FVal) (σ : ∀ i, Fin (entries (shape J i)) → ℝ) :
    ArrGraph.Env (model J sd) (rvValues [2, 0, 1] [12, 10, 11] [(3, 13)]) tr (fun v => v + 20) (fun i => numbers (shape J i)) ρ σ (envT J σ) := by
  refine ⟨fun v y h hn => ?_, fun v hv hn => ?_, fun p hp i k hk => ?_⟩
  · rw [values_eq] at h
    simp only [Dict.get?] at h
    split_ifs at h with h1 h2 h3 h4
    · cases h; subst h1; rfl
    · cases h; subst h2; rfl
    · subst h3; simp [tr] at hn
    · cases h; subst h4; rfl
  · have : v = 1 := by by_contra h; simp [tr, h] at hn
    subst this
    rfl
  · exfalso
    simp only [model, List.mem_cons, List.not_mem_nil, or_false] at hp
    rcases hp with rfl | rfl | rfl | rfl
    · revert hk; revert i; simp [mu, UsesInput, Fin.forall_fin_two]
    · revert hk; revert i; simp [tau, UsesInput]
    · revert hk; revert i; simp [theta, UsesInput, Fin.forall_fin_two]
    · revert hk; revert i; simp [Schools.y, UsesInput, Fin.forall_fin_two]

theorem elemwise_shape {k : FVal → List FVal → Except Err FVal} {s : List ℕ} {p : List (Arr FVal)} (hfit : Fit s p) (x : Fin (entries s) → ℝ) (out : Arr FVal)
    (h : elemwiseLogprob k (numbers s x) p = .ok out) : out.shape = s := by
  have hs : bshape ((numbers s x).shape :: p.map Arr.shape) = some s := hfit
  rw [elemwiseLogprob, hs] at h
  simp only at h
  split at h
  · cases h
  · cases h; rfl

theorem log_inverts (p : List FVal) : Inverts (logV.at p) (Ioi 0) univ := C49_log

theorem log_jac (p : List FVal) : LogJac (logV.at p) univ := C50_log

theorem validT {sd : ℕ → ℝ} (hsd : ∀ i, 0 < sd i) (ρ : ℕ → Arr FVal) (σ : ∀ i, Fin (entries (shape J i)) → ℝ) :
    ValidT (fun i => numbers (shape J i)) (fun i => numbers (shape J i)) kernel tr (fwd J) (fun _ _ _ => univ) (law J) (ref J) ρ (model J sd) σ := by
  refine validT_of_valid (ref := ref J) (fun q hq σ hgood => ?_) σ (valid J hsd ρ σ)
  by_cases h1 : q = (1, tau)
  · subst h1
    have p1 : params (asg (fun i => numbers (shape J i)) σ) ρ tau = [scalar 5] := by simp [params, tau, List.ofFn_succ, evalAt]
    rw [p1] at hgood ⊢
    have hfit : Fit (shape J 1) [scalar 5] := rfl
    have := C107_entrywise (s := shape J 1) (kernel := kernel .exponential) (law := law J 1 .exponential [scalar 5]) (p := [scalar 5]) hgood
      (fun x out h => elemwise_shape hfit x out h) hfit (t := logV) (D := fun _ => Ioi 0) (R := fun _ => univ) (by
        have hp : ∀ k : Fin (entries (shape J 1)), law1 .exponential (paramsAt [scalar 5] (coord k)) = (volume : Measure ℝ).withDensity (ProbabilityTheory.exponentialPDF 5⁻¹) := fun k => rfl
        have : ∀ k : Fin (entries (shape J 1)), SigmaFinite (law1 .exponential (paramsAt [scalar 5] (coord k))) := fun k => by
          rw [hp]
          have : IsProbabilityMeasure ((volume : Measure ℝ).withDensity (ProbabilityTheory.exponentialPDF 5⁻¹)) := ProbabilityTheory.isProbabilityMeasure_expMeasure (by norm_num)
          infer_instance
        have h : ∀ k : Fin (entries (shape J 1)), ∀ᵐ x ∂(law J 1 .exponential [scalar 5]), x k ∈ Ioi (0 : ℝ) := fun k =>
          (Measure.quasiMeasurePreserving_eval _ k).ae (exp_pos_ae (m := 5))
        filter_upwards [ae_all_iff.2 h] with x hx
        exact fun k _ => hx k)
      (fun k => log_inverts _) (fun k => log_jac _) fun k => MeasurableSet.univ
    rw [pi_univ] at this
    exact this
  · have hq1 : q.1 ≠ 1 := by
      simp only [model, List.mem_cons, List.not_mem_nil, or_false] at hq
      rcases hq with rfl | rfl | rfl | rfl <;> simp at h1 ⊢
    have e1 : tr q.1 = none := by simp [tr, hq1]
    have e2 : ∀ p, fwd J q.1 q.2.dist p = id := fun p => by funext x k; simp [fwd, hq1]
    rw [e1, e2]
    exact C107_plain hgood

/-- All the hypotheses hold, for any number of groups: `μ` has no default transform, `τ` has, `θ` is not transformed, `y` is realized. -/
example {sd : ℕ → ℝ} (hsd : ∀ i, 0 < sd i) (ρ : ℕ → Arr FVal) (ω : ℕ → Dist → List (Arr FVal) → Arr FVal) :
    ∃ j, jointT (Dict.get? (model J sd)) reqs registered (fun v => v + 20) [3, 0, 2, 1] [2, 0, 1] [12, 10, 11] [(3, 13)] = .ok (some (j, [12, 10, 21])) ∧
      ∀ (σ₀ τ₀ : ∀ i, Fin (entries (shape J i)) → ℝ), ∀ ψ : (∀ i, Fin (entries (shape J i)) → ℝ) → ENNReal, refT tr (fun i => numbers (shape J i)) (fun _ _ _ => univ) (ref J) ρ (model J sd) (asg (fun i => numbers (shape J i)) σ₀) τ₀
          (fun τ => dens (evalJointT kernel true (envT J τ) ω j) * ψ τ) =
          sampleE (fun i => numbers (shape J i)) (law J) ρ (model J sd) σ₀ fun σ => ψ (scaled (fun i => numbers (shape J i)) (fwd J) ρ (model J sd) τ₀ σ) := by
  obtain ⟨j, h1, h2⟩ := C107_joint_density_partial (fun i => numbers (shape J i)) (fun i => numbers (shape J i)) kernel (fwd J) (fun _ _ _ => univ) (law J) (ref J) ρ ω (setting J sd) (first_ok J sd) (envT J)
    (env_ok J sd ρ)
  refine ⟨j, ?_, fun σ₀ τ₀ => h2 σ₀ τ₀ (validT J hsd ρ σ₀)⟩
  rw [h1, values_eq]
  simp [tr, firstOcc, Dict.keys, Dict.get?]

example (sd : ℕ → ℝ) := C107_without_jacobian (setting J sd) (first_ok J sd) kernel fun i => numbers (shape J i)

/-- A transform for a variable that is neither requested nor realized. -/
example (sd : ℕ → ℝ) : jointT (Dict.get? (model J sd)) [(1, some .default)] registered (fun v => v + 20) [0] [0] [10] [] = .error .keyError :=
  C107_unknown_variable (defs := Dict.get? (model J sd)) (rvs := [0]) (clones := [10]) (realized := []) (reqs := [(1, some .default)]) rfl (by simp [Dict.keys, model, Dict.get?]) registered _ _
    ⟨1, by simp [Dict.keys], by simp, by simp [Dict.keys]⟩

end Schools

end Verif.ArrGraph
