import Verif.Props.ArrTransformGood

/-! # Array variables: the order of the arguments matters when values are transformed

The model of `Props/TransformOrder.lean` with the log-probability graphs for arrays, here of no axes. -/

namespace Verif.ArrGraph.DemoOrder
open Verif Cond MeasureTheory ProbabilityTheory Schools

noncomputable def num (x : ℝ) : Arr FVal := tabulate [] fun _ => .fin x

noncomputable def W : RVDef Dist := ⟨.normal, 2, ![.const (num 0), .const (num 1)]⟩
noncomputable def X : RVDef Dist := ⟨.normal, 2, ![.rv 0 .normal 2 W.args, .const (num 1)]⟩
noncomputable def Y : RVDef Dist := ⟨.normal, 2, ![.rv 1 .normal 2 X.args, .const (num 1)]⟩

noncomputable def model : List (ℕ × RVDef Dist) := [(0, W), (1, X), (2, Y)]

noncomputable def trX (v : ℕ) : Option ATransform := if v = 1 then some (unaware logV) else none

noncomputable def reqX : Dict ℕ (Option (TransVals.Req ATransform)) := [(1, some (.transform (unaware logV)))]

/-- The values `w`, `z` and `y`, the one of `X` on the transformed scale. -/
noncomputable def env (w z y : ℝ) (i : ℕ) : Arr FVal := if i = 10 then num w else if i = 21 then num z else if i = 12 then num y else num 0

theorem up_eq : rvValues [2, 1, 0] [12, 11, 10] [] = [(2, 12), (1, 11), (0, 10)] := by decide

theorem up : Setting model [2, 1, 0] [12, 11, 10] [] reqX registered trX (fun v => v + 20) [0, 1, 2] where
  ne := by simp [model]
  ordered := by simp [DependencyOrder, model, W, X, Y, Mentions, Fin.forall_fin_two]
  user := by simp [model, W, X, Y, User, Fin.forall_fin_two]
  closed := by simp [model, W, X, Y, Mentions, Fin.forall_fin_two]
  length := rfl
  mem v := by simp [model, Dict.keys]; omega
  requested v t := by
    by_cases h : v = 1
    · subst h; simp [trX, reqX, Dict.get?, eq_comm]
    · simp [trX, reqX, Dict.get?, h, Ne.symm h]
  keys v hv := by simp [reqX, Dict.keys] at hv; simp [model, hv]
  inj v w y h1 h2 := by
    rw [up_eq] at h1 h2
    simp only [Dict.get?] at h1 h2
    split_ifs at h1 h2 <;> simp only [Option.some.injEq] at h1 h2 <;> omega
  fresh v w y hv h := by
    rw [up_eq] at h
    simp only [Dict.get?] at h
    split_ifs at h <;> (cases h; omega)
  order := by simp [model]

theorem child_first (v : ℕ) (hv : (trX v).isSome) : ChildFirst model (Dict.keys (rvValues [2, 1, 0] [12, 11, 10] [])) v := by
  have : v = 1 := by by_contra h; simp [trX, h] at hv
  subst this
  exact ⟨⟨0, X, rfl, (0 : Fin 2), rfl⟩, [2], [0], 2, by decide, by simp, Y, rfl, (0 : Fin 2), rfl⟩

example := C107_child_first up child_first kernel

theorem entry_num (z : ℝ) (c : List ℕ) : entryAt (num z) c = .fin z := by
  have : project c (num z).shape = [] := by simp [project, num, tabulate]
  rw [entryAt, this]
  rfl

theorem back_num (z : ℝ) (p : List (Arr FVal)) : (unaware logV).backward (num z) p = num (Real.exp z) := by
  show tabulate [] _ = tabulate [] _
  congr 1
  funext c
  rw [entry_num]
  rfl

theorem jac_num (z : ℝ) (p : List (Arr FVal)) : (unaware logV).logJacDet (num z) p = num z := by
  show tabulate [] _ = tabulate [] _
  congr 1
  funext c
  rw [entry_num]
  rfl

theorem nrm (x m : ℝ) : normalLogprob (.fin x) (.fin m) (.fin 1) = .ok (.fin (Real.log (gaussianPDFReal m ((1 : ℝ) ^ 2).toNNReal x))) := normal_eval _ _ one_pos

/-- The logarithm of the density of `N(m, 1)`. -/
noncomputable def lp (x m : ℝ) : ℝ := Real.log (gaussianPDFReal m ((1 : ℝ) ^ 2).toNNReal x)

theorem nrmK (x m : ℝ) : kernel .normal (num x) [num m, num 1] = .ok ⟨[], fun _ => .fin (lp x m)⟩ := by
  have e : ∀ c, entryLogprob normalK (num x) [num m, num 1] c = .ok (.fin (lp x m)) := by
    intro c
    simp only [entryLogprob, List.map_cons, List.map_nil, entry_num]
    exact nrm x m
  have hb : bshape ((num x).shape :: [num m, num 1].map Arr.shape) = some [] := rfl
  have hm : (allCoords []).mapM (entryLogprob normalK (num x) [num m, num 1]) = .ok [.fin (lp x m)] := by
    rw [show entryLogprob normalK (num x) [num m, num 1] = fun _ => .ok (.fin (lp x m)) from funext e]
    rfl
  simp only [kernel, elemwiseLogprob, hb, hm, e]

/-- **C107** (false in general) `joint_logprob(Y, X, W)` is not `joint_logprob(W, X, Y)`, at all values except where the Jacobian term is zero. -/
theorem C107_order_counterexample : ∃ j j',
    jointT (Dict.get? model) reqX registered (fun v => v + 20) [0, 1, 2] [0, 1, 2] [10, 11, 12] [] = .ok (some (j, [10, 21, 12])) ∧
    jointT (Dict.get? model) reqX registered (fun v => v + 20) [0, 1, 2] [2, 1, 0] [12, 11, 10] [] = .ok (some (j', [12, 21, 10])) ∧
    ∀ w z y : ℝ, z ≠ 0 → ∀ ω, evalJointT kernel true (env w z y) ω j ≠ evalJointT kernel true (env w z y) ω j' := by
  have key : ∃ j j',
    jointT (Dict.get? model) reqX registered (fun v => v + 20) [0, 1, 2] [0, 1, 2] [10, 11, 12] [] = .ok (some (j, [10, 21, 12])) ∧
    jointT (Dict.get? model) reqX registered (fun v => v + 20) [0, 1, 2] [2, 1, 0] [12, 11, 10] [] = .ok (some (j', [12, 21, 10])) ∧
    ∀ (w z y : ℝ) ω, evalJointT kernel true (env w z y) ω j = Graph.sumE [arrayJoint (kernel .normal (num w) [num 0, num 1]),
        arrayJoint (transformedArr (unaware logV) [num w, num 1] (fun v => kernel .normal v [num w, num 1]) true (num z)),
        arrayJoint (kernel .normal (num y) [(unaware logV).backward (num z) [num w, num 1], num 1])] ∧
      evalJointT kernel true (env w z y) ω j' = Graph.sumE [arrayJoint (kernel .normal (num y) [(unaware logV).backward (num z) [ω 0 .normal [num 0, num 1], num 1], num 1]),
        arrayJoint (kernel .normal ((unaware logV).backward (num z) [ω 0 .normal [num 0, num 1], num 1]) [num w, num 1]), arrayJoint (kernel .normal (num w) [num 0, num 1])] :=
    ⟨_, _, rfl, rfl, fun w z y ω => ⟨rfl, rfl⟩⟩
  obtain ⟨j, j', h1, h2, h3⟩ := key
  refine ⟨j, j', h1, h2, fun w z y hz ω => ?_⟩
  obtain ⟨e1, e2⟩ := h3 w z y ω
  rw [e1, e2]
  have h0 : ∀ a : Arr FVal, (∃ x : ℝ, a = ⟨[], fun _ => .fin x⟩) → addArr a (num z) = .ok ⟨[], fun c => entryAt a c + .fin z⟩ := by
    rintro a ⟨x, rfl⟩
    show Except.ok _ = Except.ok _
    congr 2
    funext c
    rw [entry_num]
  simp only [back_num, jac_num, transformedArr, nrmK, if_true, h0 _ ⟨_, rfl⟩]
  have hj : ∀ f : List ℕ → FVal, arrayJoint (.ok ⟨[], f⟩) = .ok (fsum [f []]) := fun f => rfl
  simp only [hj, entryAt, Graph.sumE, fsum, FVal.add_fin, FVal.zero_eq]
  intro h
  simp only [List.foldr_cons, List.foldr_nil, Except.ok.injEq, FVal.fin.injEq, FVal.add_fin] at h
  exact hz (by linarith)

/-! A transform that looks at the parameters of the variable, as `IntervalTransform` does. -/

noncomputable def shiftV : IR.VTransform where
  forward v ins := v - ins.headD .nan
  backward v ins := v + ins.headD .nan
  logJacDet _ _ := .fin 0

theorem back_shift (z a b : ℝ) : (entrywise shiftV).backward (num z) [num a, num b] = num (z + a) := by
  show tabulate [] _ = tabulate [] _
  congr 1
  funext c
  simp only [List.map_cons, entry_num]
  rfl

theorem lp_eq (x m : ℝ) : lp x m = Real.log (√(2 * Real.pi))⁻¹ - (x - m) ^ 2 / 2 := by
  have hv : (((1 : ℝ) ^ 2).toNNReal : ℝ) = 1 := by simp
  rw [lp, gaussianPDFReal, hv, mul_one, mul_one, Real.log_mul (by positivity) (Real.exp_ne_zero _), Real.log_exp]
  ring

/-- **C107** (false in general) If the transform of `X` depends on `W`, the result of `joint_logprob(Y, X, W)` depends on `W` as a random variable, and not only on its value: whatever the values, two
draws give different results. -/
theorem C107_random_counterexample : ∃ j,
    jointT (Dict.get? model) [(1, some (.transform (entrywise shiftV)))] registered (fun v => v + 20) [0, 1, 2] [2, 1, 0] [12, 11, 10] [] = .ok (some (j, [12, 21, 10])) ∧
    ∀ (uj : Bool) (w z y : ℝ), ∃ ω ω', evalJointT kernel uj (env w z y) ω j ≠ evalJointT kernel uj (env w z y) ω' j := by
  have key : ∃ j,
    jointT (Dict.get? model) [(1, some (.transform (entrywise shiftV)))] registered (fun v => v + 20) [0, 1, 2] [2, 1, 0] [12, 11, 10] [] = .ok (some (j, [12, 21, 10])) ∧
    ∀ (uj : Bool) (w z y : ℝ) ω, evalJointT kernel uj (env w z y) ω j =
      Graph.sumE [arrayJoint (kernel .normal (num y) [(entrywise shiftV).backward (num z) [ω 0 .normal [num 0, num 1], num 1], num 1]),
        arrayJoint (kernel .normal ((entrywise shiftV).backward (num z) [ω 0 .normal [num 0, num 1], num 1]) [num w, num 1]), arrayJoint (kernel .normal (num w) [num 0, num 1])] :=
    ⟨_, rfl, fun uj w z y ω => rfl⟩
  obtain ⟨j, hj, h⟩ := key
  refine ⟨j, hj, fun uj w z y => ?_⟩
  by_contra hc
  push Not at hc
  have h01 := hc (fun _ _ _ => num 0) (fun _ _ _ => num 1)
  have h12 := hc (fun _ _ _ => num 1) (fun _ _ _ => num 2)
  rw [h, h] at h01 h12
  have hjn : ∀ x : ℝ, arrayJoint (.ok ⟨[], fun _ => .fin x⟩) = .ok (.fin (x + 0)) := fun x => rfl
  simp only [back_shift, nrmK, hjn, Graph.sumE, FVal.add_fin, FVal.zero_eq, Except.ok.injEq, FVal.fin.injEq, lp_eq] at h01 h12
  nlinarith

end Verif.ArrGraph.DemoOrder
