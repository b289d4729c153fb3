import Verif.Props.IRTransform

/-! # The order of the arguments matters when values are transformed

`W ~ N(0, 1)`, `X ~ N(W, 1)` on the scale `exp`, `Y ~ N(X, 1)`; `joint_logprob(W, X, Y)` and `joint_logprob(Y, X, W)`.
-/

namespace Verif.IR
open Verif Cond MeasureTheory

variable {Di : Type} [Normals Di]

/-- **C146** Two calls for the same variables with the same transforms and the same values, the arguments in different orders or passed in `realized`: the joint densities are the same if in both calls
the same transformed variables come after variables given through them.  Missing: calls that differ in this, for which the claim is false (`C146_jacobian_lost`, `C95_order_counterexample`). -/
theorem C146_order_partial {isInt : Di → Bool} {defs : ℕ → Option (Expr Di)} {l : List (Item Di)} {rvs clones rvs' clones' : List ℕ} {realized realized' : Dict ℕ ℕ}
    {reqs : Dict ℕ (Option (TransVals.Req VTransform))} {registered : Di → Option VTransform} {tr : ℕ → Option VTransform} {tv : ℕ → ℕ} {order order' : List ℕ}
    (hs : Setting isInt defs l rvs clones realized reqs registered tr tv order) (hs' : Setting isInt defs l rvs' clones' realized' reqs registered tr tv order')
    (hsame : ∀ v, (tr v).isSome → (ChildFirst defs (Dict.keys (rvValues rvs clones realized)) v ↔ ChildFirst defs (Dict.keys (rvValues rvs' clones' realized')) v)) {S S' : ℕ → Bool}
    (hrun : Steps isInt (outputs defs (rvValues rvs clones realized)) (fun _ => false) S) (hF : Final isInt (outputs defs (rvValues rvs clones realized)) S)
    (hrun' : Steps isInt (outputs defs (rvValues rvs' clones' realized')) (fun _ => false) S') (hF' : Final isInt (outputs defs (rvValues rvs' clones' realized')) S')
    (kernel : Di → FVal → List FVal → Except Err FVal) :
    ∃ j vvs j' vvs', jointT S defs reqs registered tv order rvs clones realized = .ok (some (j, vvs)) ∧ jointT S' defs reqs registered tv order' rvs' clones' realized' = .ok (some (j', vvs')) ∧
      ∀ ρ ω τ env env', Env defs l (rvValues rvs clones realized) tr tv ρ τ env → Env defs l (rvValues rvs' clones' realized') tr tv ρ τ env' →
        ∀ uj, dens (evalJointT kernel uj env ω j) = dens (evalJointT kernel uj env' ω j') := by
  obtain ⟨j, hj, h⟩ := joint_factors hs hrun hF kernel
  obtain ⟨j', hj', h'⟩ := joint_factors hs' hrun' hF' kernel
  refine ⟨j, _, j', _, hj, hj', fun ρ ω τ env env' henv henv' => ?_⟩
  intro uj
  rw [h uj ρ ω τ env henv, h' uj ρ ω τ env' henv']
  congr 1
  refine List.map_congr_left fun it _ => ?_
  cases ht : tr it.v with
  | none => simp only [termT, ht]
  | some t =>
    have e : innerFirst defs (rvValues rvs clones realized) it.v = innerFirst defs (rvValues rvs' clones' realized') it.v := by
      rw [Bool.eq_iff_iff, innerFirst_iff (rvValues_nodup _ _ _), innerFirst_iff (rvValues_nodup _ _ _)]
      exact hsame it.v (by simp [ht])
    rw [e]

/-- **C146** Without Jacobian terms the order never matters. -/
theorem C146_without_jacobian {isInt : Di → Bool} {defs : ℕ → Option (Expr Di)} {l : List (Item Di)} {rvs clones rvs' clones' : List ℕ} {realized realized' : Dict ℕ ℕ}
    {reqs : Dict ℕ (Option (TransVals.Req VTransform))} {registered : Di → Option VTransform} {tr : ℕ → Option VTransform} {tv : ℕ → ℕ} {order order' : List ℕ}
    (hs : Setting isInt defs l rvs clones realized reqs registered tr tv order) (hs' : Setting isInt defs l rvs' clones' realized' reqs registered tr tv order') {S S' : ℕ → Bool}
    (hrun : Steps isInt (outputs defs (rvValues rvs clones realized)) (fun _ => false) S) (hF : Final isInt (outputs defs (rvValues rvs clones realized)) S)
    (hrun' : Steps isInt (outputs defs (rvValues rvs' clones' realized')) (fun _ => false) S') (hF' : Final isInt (outputs defs (rvValues rvs' clones' realized')) S')
    (kernel : Di → FVal → List FVal → Except Err FVal) :
    ∃ j vvs j' vvs', jointT S defs reqs registered tv order rvs clones realized = .ok (some (j, vvs)) ∧ jointT S' defs reqs registered tv order' rvs' clones' realized' = .ok (some (j', vvs')) ∧
      ∀ ρ ω τ env env', Env defs l (rvValues rvs clones realized) tr tv ρ τ env → Env defs l (rvValues rvs' clones' realized') tr tv ρ τ env' →
        dens (evalJointT kernel false env ω j) = dens (evalJointT kernel false env' ω j') := by
  obtain ⟨j, hj, h⟩ := joint_factors hs hrun hF kernel
  obtain ⟨j', hj', h'⟩ := joint_factors hs' hrun' hF' kernel
  refine ⟨j, _, j', _, hj, hj', fun ρ ω τ env env' henv henv' => ?_⟩
  rw [h false ρ ω τ env henv, h' false ρ ω τ env' henv']
  rfl

/-- **C146** (false in general) If no transformed variable comes after a variable given through it in the first call, and each does in the second, the second call returns what the first would without
Jacobian terms. -/
theorem C146_jacobian_lost {isInt : Di → Bool} {defs : ℕ → Option (Expr Di)} {l : List (Item Di)} {rvs clones rvs' clones' : List ℕ} {realized realized' : Dict ℕ ℕ}
    {reqs : Dict ℕ (Option (TransVals.Req VTransform))} {registered : Di → Option VTransform} {tr : ℕ → Option VTransform} {tv : ℕ → ℕ} {order order' : List ℕ}
    (hs : Setting isInt defs l rvs clones realized reqs registered tr tv order) (hs' : Setting isInt defs l rvs' clones' realized' reqs registered tr tv order')
    (hfirst : ∀ v, (tr v).isSome → ¬ ChildFirst defs (Dict.keys (rvValues rvs clones realized)) v)
    (hlast : ∀ v, (tr v).isSome → ChildFirst defs (Dict.keys (rvValues rvs' clones' realized')) v) {S S' : ℕ → Bool}
    (hrun : Steps isInt (outputs defs (rvValues rvs clones realized)) (fun _ => false) S) (hF : Final isInt (outputs defs (rvValues rvs clones realized)) S)
    (hrun' : Steps isInt (outputs defs (rvValues rvs' clones' realized')) (fun _ => false) S') (hF' : Final isInt (outputs defs (rvValues rvs' clones' realized')) S')
    (kernel : Di → FVal → List FVal → Except Err FVal) :
    ∃ j vvs j' vvs', jointT S defs reqs registered tv order rvs clones realized = .ok (some (j, vvs)) ∧ jointT S' defs reqs registered tv order' rvs' clones' realized' = .ok (some (j', vvs')) ∧
      ∀ ρ ω τ env env', Env defs l (rvValues rvs clones realized) tr tv ρ τ env → Env defs l (rvValues rvs' clones' realized') tr tv ρ τ env' →
        dens (evalJointT kernel true env' ω j') = dens (evalJointT kernel false env ω j) ∧
          dens (evalJointT kernel true env ω j) =
            (l.map fun it => dens (termT kernel true tr (· ∈ l.map (·.v)) ρ (takeBack tr (· ∈ l.map (·.v)) ρ τ l (Graph.asg τ)) it (.fin (τ it.v)))).prod := by
  obtain ⟨j, hj, h⟩ := joint_factors hs hrun hF kernel
  obtain ⟨j', hj', h'⟩ := joint_factors hs' hrun' hF' kernel
  refine ⟨j, _, j', _, hj, hj', fun ρ ω τ env env' henv henv' => ?_⟩
  rw [h true ρ ω τ env henv, h false ρ ω τ env henv, h' true ρ ω τ env' henv']
  constructor
  all_goals
    congr 1
    refine List.map_congr_left fun it _ => ?_
    cases ht : tr it.v with
    | none => simp only [termT, ht]
    | some t => ?_
  · rw [(innerFirst_iff (rvValues_nodup _ _ _)).2 (hlast it.v (by simp [ht]))]
    rfl
  · have : innerFirst defs (rvValues rvs clones realized) it.v = false := by
      rw [← Bool.not_eq_true, innerFirst_iff (rvValues_nodup _ _ _)]
      exact hfirst it.v (by simp [ht])
    rw [this]
    rfl

end Verif.IR

namespace Verif.IR.DemoOrder
open Verif Cond MeasureTheory Set ProbabilityTheory

noncomputable def W : Expr Unit := .rv 0 () 2 ![.const (.fin 0), .const (.fin 1)]
noncomputable def X : Expr Unit := .rv 1 () 2 ![W, .const (.fin 1)]
noncomputable def Y : Expr Unit := .rv 2 () 2 ![X, .const (.fin 1)]

noncomputable def defs : ℕ → Option (Expr Unit) := Dict.get? [(0, W), (1, X), (2, Y)]

noncomputable def itW : Item Unit := ⟨0, ⟨0, (), 2, ![.const (.fin 0), .const (.fin 1)]⟩, []⟩
noncomputable def itX : Item Unit := ⟨1, ⟨1, (), 2, ![W, .const (.fin 1)]⟩, []⟩
noncomputable def itY : Item Unit := ⟨2, ⟨2, (), 2, ![X, .const (.fin 1)]⟩, []⟩
noncomputable def items : List (Item Unit) := [itW, itX, itY]

noncomputable def tr (v : ℕ) : Option VTransform := if v = 1 then some DemoTrans.expT else none

noncomputable def reqs : Dict ℕ (Option (TransVals.Req VTransform)) := [(1, some (.transform DemoTrans.expT))]

def tv (v : ℕ) : ℕ := v + 20

/-- The values `w`, `z` and `y`, the one of `X` on the transformed scale. -/
def env (w z y : ℝ) (i : ℕ) : FVal := if i = 10 then .fin w else if i = 21 then .fin z else if i = 12 then .fin y else .nan

theorem wf : WellFormed defs := by
  have hW : Closed defs W := ⟨rfl, by simp [Fin.forall_fin_two, Closed]⟩
  have hX : Closed defs X := ⟨rfl, fun i => by fin_cases i; exacts [hW, trivial]⟩
  have hY : Closed defs Y := ⟨rfl, fun i => by fin_cases i; exacts [hX, trivial]⟩
  intro v e h
  have := Dict.mem_of_get? h
  simp only [List.mem_cons, Prod.mk.injEq, List.not_mem_nil, or_false] at this
  rcases this with ⟨rfl, rfl⟩ | ⟨rfl, rfl⟩ | ⟨rfl, rfl⟩
  exacts [⟨rfl, hW⟩, ⟨rfl, hX⟩, ⟨rfl, hY⟩]

theorem mem (v : ℕ) : v ∈ items.map (·.v) ↔ v = 0 ∨ v = 1 ∨ v = 2 := by simp [items, itW, itX, itY]

theorem listed : Listed defs (fun _ => false) (· ∈ items.map (·.v)) items [] := by
  refine ⟨⟨W, rfl, .rv 0 () 2 _⟩, fun h => absurd rfl h, ?_, by simp [itW], ⟨X, rfl, .rv 1 () 2 _⟩, fun h => absurd rfl h, ?_, by simp [itX], ⟨Y, rfl, .rv 2 () 2 _⟩, fun h => absurd rfl h, ?_,
    by simp [itY], trivial⟩
  · intro i; change Fin 2 at i; fin_cases i <;> trivial
  · intro i
    change Fin 2 at i
    fin_cases i
    · exact ⟨(mem 0).2 (by simp), by simp [itW]⟩
    · trivial
  · intro i
    change Fin 2 at i
    fin_cases i
    · exact ⟨(mem 1).2 (by simp), by simp [itW, itX]⟩
    · trivial

theorem down_eq : rvValues [0, 1, 2] [10, 11, 12] [] = [(0, 10), (1, 11), (2, 12)] := by decide
theorem up_eq : rvValues [2, 1, 0] [12, 11, 10] [] = [(2, 12), (1, 11), (0, 10)] := by decide

theorem tr_some {v : ℕ} {t : VTransform} (h : tr v = some t) : v = 1 ∧ t = DemoTrans.expT := by
  unfold tr at h
  split_ifs at h with h1
  exact ⟨h1, (Option.some.inj h).symm⟩

/-- What both calls have in common. -/
theorem settingOf {rvs clones : List ℕ} (hlen : clones.length = rvs.length) (hmem : ∀ v, v ∈ rvs ↔ v = 0 ∨ v = 1 ∨ v = 2)
    (hval : ∀ v y, Dict.get? (rvValues rvs clones []) v = some y → y = v + 10 ∧ v ≤ 2) : Setting (fun _ => false) defs items rvs clones [] reqs (fun _ => none) tr tv [0, 1, 2] where
  wf := wf
  ne := by simp [items]
  nodup := by simp [items, itW, itX, itY]
  listed := listed
  length := hlen
  mem v := by rw [mem, hmem]; simp [Dict.keys]
  requested v t := by
    by_cases h : v = 1
    · subst h; simp [tr, reqs, Dict.get?, eq_comm]
    · simp [tr, reqs, Dict.get?, h, Ne.symm h]
  keys v hv := by
    rw [mem]
    have : v = 1 := by simpa [reqs, Dict.keys] using hv
    simp [this]
  plain it hit t _ hl := by
    simp only [items, List.mem_cons, List.not_mem_nil, or_false] at hit
    rcases hit with rfl | rfl | rfl <;> exact absurd rfl hl
  inside v t ht _ := by
    rw [(tr_some ht).2]
    exact ⟨fun _ _ _ => rfl, fun _ _ _ => rfl, fun _ _ _ => rfl⟩
  inj v w y h1 h2 := by
    have := (hval v y h1).1
    have := (hval w y h2).1
    omega
  fresh v w y _ h := by
    have := hval w y h
    unfold tv
    omega
  order := by simp [items, itW, itX, itY]

theorem down : Setting (fun _ => false) defs items [0, 1, 2] [10, 11, 12] [] reqs (fun _ => none) tr tv [0, 1, 2] :=
  settingOf rfl (by simp) fun v y h => by
    rw [down_eq] at h
    simp only [Dict.get?] at h
    split_ifs at h <;> cases h <;> omega

theorem up : Setting (fun _ => false) defs items [2, 1, 0] [12, 11, 10] [] reqs (fun _ => none) tr tv [0, 1, 2] :=
  settingOf rfl (by simp only [List.mem_cons, List.not_mem_nil, or_false]; omega) fun v y h => by
    rw [up_eq] at h
    simp only [Dict.get?] at h
    split_ifs at h <;> cases h <;> omega

theorem envOf {rvs clones : List ℕ} (hval : ∀ v y, Dict.get? (rvValues rvs clones []) v = some y → y = v + 10 ∧ v ≤ 2) (w z y : ℝ) :
    Env defs items (rvValues rvs clones []) tr tv (fun _ => .nan) (fun v => if v = 0 then w else if v = 1 then z else y) (env w z y) := by
  refine ⟨fun v k h hn => ?_, fun v hv hn => ?_, fun v e hv he i hi => ?_⟩
  · obtain ⟨rfl, hv⟩ := hval v k h
    have h1 : v ≠ 1 := by rintro rfl; simp [tr] at hn
    have : v = 0 ∨ v = 2 := by omega
    rcases this with rfl | rfl <;> simp [env]
  · obtain ⟨t, ht⟩ := Option.isSome_iff_exists.1 hn
    rw [(tr_some ht).1]
    simp [env, tv]
  · rw [mem] at hv
    rcases hv with rfl | rfl | rfl
    · cases he; simp [W, UsesInput, Fin.exists_fin_two] at hi
    · cases he; simp [X, W, UsesInput, Fin.exists_fin_two] at hi
    · cases he; simp [Y, X, W, UsesInput, Fin.exists_fin_two] at hi

theorem env_down (w z y : ℝ) :
    Env defs items (rvValues [0, 1, 2] [10, 11, 12] []) tr tv (fun _ => .nan) (fun v => if v = 0 then w else if v = 1 then z else y) (env w z y) :=
  envOf (fun v y h => by
    rw [down_eq] at h
    simp only [Dict.get?] at h
    split_ifs at h <;> cases h <;> omega) w z y

theorem env_up (w z y : ℝ) :
    Env defs items (rvValues [2, 1, 0] [12, 11, 10] []) tr tv (fun _ => .nan) (fun v => if v = 0 then w else if v = 1 then z else y) (env w z y) :=
  envOf (fun v y h => by
    rw [up_eq] at h
    simp only [Dict.get?] at h
    split_ifs at h <;> cases h <;> omega) w z y

/-- `X` comes before `Y`. -/
theorem parents_first (v : ℕ) (hv : (tr v).isSome) : ¬ ChildFirst defs (Dict.keys (rvValues [0, 1, 2] [10, 11, 12] [])) v := by
  obtain ⟨t, ht⟩ := Option.isSome_iff_exists.1 hv
  rw [(tr_some ht).1, ← innerFirst_iff (by decide), down_eq]
  simp [innerFirst, Dict.keys, valuedBelow, defs, Dict.get?, W, nodeInputs, valuedIn, List.ofFn_succ]

/-- `X` is given through `W`, and comes after `Y`. -/
theorem child_first (v : ℕ) (hv : (tr v).isSome) : ChildFirst defs (Dict.keys (rvValues [2, 1, 0] [12, 11, 10] [])) v := by
  obtain ⟨t, ht⟩ := Option.isSome_iff_exists.1 hv
  rw [(tr_some ht).1]
  have hk : ∀ v, v ∈ Dict.keys (rvValues [2, 1, 0] [12, 11, 10] []) ↔ v = 2 ∨ v = 1 ∨ v = 0 := fun v => by simp [up_eq, Dict.keys]
  refine ⟨⟨0, X, rfl, W, by simp [X, inputsOf, List.ofFn_succ], .inl ⟨(hk 0).2 (by simp), rfl⟩⟩, [2], [0], 2, by decide, by simp, Y, rfl, X, by simp [Y, inputsOf, List.ofFn_succ],
    .inl ⟨(hk 1).2 (by simp), rfl⟩⟩

example := C95_child_first up (exists_run (fun _ => false) (outputs defs (rvValues [2, 1, 0] [12, 11, 10] [])) fun _ => false).choose_spec.1
  (exists_run (fun _ => false) (outputs defs (rvValues [2, 1, 0] [12, 11, 10] [])) fun _ => false).choose_spec.2 DemoJoint.kernel child_first

example := C146_jacobian_lost down up parents_first child_first (exists_run (fun _ => false) (outputs defs (rvValues [0, 1, 2] [10, 11, 12] [])) fun _ => false).choose_spec.1
  (exists_run (fun _ => false) (outputs defs (rvValues [0, 1, 2] [10, 11, 12] [])) fun _ => false).choose_spec.2 (exists_run (fun _ => false) (outputs defs (rvValues [2, 1, 0] [12, 11, 10] [])) fun _ => false).choose_spec.1
  (exists_run (fun _ => false) (outputs defs (rvValues [2, 1, 0] [12, 11, 10] [])) fun _ => false).choose_spec.2 DemoJoint.kernel

example := C146_without_jacobian down up (exists_run (fun _ => false) (outputs defs (rvValues [0, 1, 2] [10, 11, 12] [])) fun _ => false).choose_spec.1
  (exists_run (fun _ => false) (outputs defs (rvValues [0, 1, 2] [10, 11, 12] [])) fun _ => false).choose_spec.2 (exists_run (fun _ => false) (outputs defs (rvValues [2, 1, 0] [12, 11, 10] [])) fun _ => false).choose_spec.1
  (exists_run (fun _ => false) (outputs defs (rvValues [2, 1, 0] [12, 11, 10] [])) fun _ => false).choose_spec.2 DemoJoint.kernel

/-- `joint_logprob(X, Y, W)`: `X` comes after its parent, but before `Y`. -/
theorem mixed_eq : rvValues [1, 2, 0] [11, 12, 10] [] = [(1, 11), (2, 12), (0, 10)] := by decide

theorem mixed : Setting (fun _ => false) defs items [1, 2, 0] [11, 12, 10] [] reqs (fun _ => none) tr tv [0, 1, 2] :=
  settingOf rfl (by simp only [List.mem_cons, List.not_mem_nil, or_false]; omega) fun v y h => by
    rw [mixed_eq] at h
    simp only [Dict.get?] at h
    split_ifs at h <;> cases h <;> omega

theorem mixed_first (v : ℕ) (hv : (tr v).isSome) : ¬ ChildFirst defs (Dict.keys (rvValues [1, 2, 0] [11, 12, 10] [])) v := by
  obtain ⟨t, ht⟩ := Option.isSome_iff_exists.1 hv
  rw [(tr_some ht).1, ← innerFirst_iff (by decide), mixed_eq]
  simp [innerFirst, Dict.keys]

example := C146_order_partial down mixed (fun v hv => iff_of_false (parents_first v hv) (mixed_first v hv)) (exists_run (fun _ => false) (outputs defs (rvValues [0, 1, 2] [10, 11, 12] [])) fun _ => false).choose_spec.1
  (exists_run (fun _ => false) (outputs defs (rvValues [0, 1, 2] [10, 11, 12] [])) fun _ => false).choose_spec.2 (exists_run (fun _ => false) (outputs defs (rvValues [1, 2, 0] [11, 12, 10] [])) fun _ => false).choose_spec.1
  (exists_run (fun _ => false) (outputs defs (rvValues [1, 2, 0] [11, 12, 10] [])) fun _ => false).choose_spec.2 DemoJoint.kernel

/-- **C95** (false in general) `joint_logprob(Y, X, W)` is not `joint_logprob(W, X, Y)`: at all values except where the Jacobian term is zero, they are different.  The latter is the log-density
of the model by `C95_joint_density_partial`. -/
theorem C95_order_counterexample : ∃ S S' j j',
    Steps (fun _ => false) (outputs defs (rvValues [0, 1, 2] [10, 11, 12] [])) (fun _ => false) S ∧
    Steps (fun _ => false) (outputs defs (rvValues [2, 1, 0] [12, 11, 10] [])) (fun _ => false) S' ∧
    jointT S defs reqs (fun _ => none) tv [0, 1, 2] [0, 1, 2] [10, 11, 12] [] = .ok (some (j, [10, 21, 12])) ∧
    jointT S' defs reqs (fun _ => none) tv [0, 1, 2] [2, 1, 0] [12, 11, 10] [] = .ok (some (j', [12, 21, 10])) ∧
    ∀ w z y : ℝ, 0 < z → z ≠ 1 → ∀ ω, dens (evalJointT DemoJoint.kernel true (env w z y) ω j) ≠ dens (evalJointT DemoJoint.kernel true (env w z y) ω j') := by
  obtain ⟨S, hrun, hF⟩ := exists_run (fun _ => false) (outputs defs (rvValues [0, 1, 2] [10, 11, 12] [])) fun _ => false
  obtain ⟨S', hrun', hF'⟩ := exists_run (fun _ => false) (outputs defs (rvValues [2, 1, 0] [12, 11, 10] [])) fun _ => false
  obtain ⟨j, hj, h⟩ := joint_factors down hrun hF DemoJoint.kernel
  obtain ⟨j', hj', h'⟩ := joint_factors up hrun' hF' DemoJoint.kernel
  refine ⟨S, S', j, j', hrun, hrun', hj.trans (by rw [down_eq]; rfl), hj'.trans (by rw [up_eq]; rfl), fun w z y hz hz1 ω => ?_⟩
  rw [h true _ ω _ _ (env_down w z y), h' true _ ω _ _ (env_up w z y)]
  have i1 : innerFirst defs (rvValues [0, 1, 2] [10, 11, 12] []) 1 = false := by
    rw [← Bool.not_eq_true, innerFirst_iff (by decide)]
    exact parents_first 1 rfl
  have i2 : innerFirst defs (rvValues [2, 1, 0] [12, 11, 10] []) 1 = true := (innerFirst_iff (by decide)).2 (child_first 1 rfl)
  set τ : ℕ → ℝ := fun v => if v = 0 then w else if v = 1 then z else y with hτ
  set A := takeBack tr (· ∈ items.map (·.v)) (fun _ => FVal.nan) τ items (Graph.asg τ) with hA
  have hA0 : A 0 = .fin w := takeBack_item (tr := tr) (ρ := fun _ => .nan) (τ := τ) (X := Graph.asg τ) listed (by simp [items, itW, itX, itY]) (it := itW) (by simp [items])
  have hA1 : A 1 = .fin (Real.log z) :=
    (takeBack_item (tr := tr) (ρ := fun _ => .nan) (τ := τ) (X := Graph.asg τ) listed (by simp [items, itW, itX, itY]) (it := itX) (by simp [items])).trans (FVal.log_fin_pos hz)
  have hW : readAt (· ∈ items.map (·.v)) A (fun _ => FVal.nan) W = .fin w := (if_pos ((mem 0).2 (by simp))).trans hA0
  have hX : readAt (· ∈ items.map (·.v)) A (fun _ => FVal.nan) X = .fin (Real.log z) := (if_pos ((mem 1).2 (by simp))).trans hA1
  have hne : ∀ m x : ℝ, dens (normalLogprob (.fin x) (.fin m) (.fin 1)) ≠ 0 ∧ dens (normalLogprob (.fin x) (.fin m) (.fin 1)) ≠ ⊤ := by
    intro m x
    rw [normal_eval _ _ one_pos, dens_log (gaussianPDFReal_pos _ _ _ (toNNReal_sq_ne one_pos))]
    exact ⟨by simpa using gaussianPDFReal_pos _ _ _ (toNNReal_sq_ne one_pos), ENNReal.ofReal_ne_top⟩
  have fW : ∀ b, termT DemoJoint.kernel b tr (· ∈ items.map (·.v)) (fun _ => FVal.nan) A itW (.fin (τ itW.v)) = normalLogprob (.fin w) (.fin 0) (.fin 1) := fun _ => rfl
  have fY : ∀ b, termT DemoJoint.kernel b tr (· ∈ items.map (·.v)) (fun _ => FVal.nan) A itY (.fin (τ itY.v)) = normalLogprob (.fin y) (.fin (Real.log z)) (.fin 1) := by
    intro b
    rw [← hX]; rfl
  have fX : ∀ b, termT DemoJoint.kernel b tr (· ∈ items.map (·.v)) (fun _ => FVal.nan) A itX (.fin (τ itX.v)) =
      transformedLogprob (DemoTrans.expT.at []) (fun v => normalLogprob v (.fin w) (.fin 1)) b (.fin z) := by
    intro b
    rw [← hW]; rfl
  have fX0 : dens (transformedLogprob (DemoTrans.expT.at []) (fun v => normalLogprob v (.fin w) (.fin 1)) false (.fin z)) = dens (normalLogprob (.fin (Real.log z)) (.fin w) (.fin 1)) := by
    simp only [transformedLogprob, VTransform.at, DemoTrans.expT, bind, Except.bind, Bool.false_eq_true, if_false, FVal.log_fin_pos hz, normal_eval _ _ one_pos, pure, Except.pure]
  have fX1 : dens (transformedLogprob (DemoTrans.expT.at []) (fun v => normalLogprob v (.fin w) (.fin 1)) true (.fin z)) =
      dens (normalLogprob (.fin (Real.log z)) (.fin w) (.fin 1)) * ENNReal.ofReal z⁻¹ := by
    simp only [transformedLogprob, VTransform.at, DemoTrans.expT, bind, Except.bind, if_true, FVal.log_fin_pos hz, normal_eval _ _ one_pos, pure, Except.pure, FVal.neg_fin]
    show ENNReal.ofReal (Real.exp (_ + _)) = _
    rw [Real.exp_add, ENNReal.ofReal_mul (Real.exp_pos _).le, Real.exp_neg, Real.exp_log hz]
    rfl
  show dens (termT _ (true && !innerFirst _ _ 0) _ _ _ A itW _) * (dens (termT _ (true && !innerFirst _ _ 1) _ _ _ A itX _) * (dens (termT _ (true && !innerFirst _ _ 2) _ _ _ A itY _) * 1)) ≠
    dens (termT _ (true && !innerFirst _ _ 0) _ _ _ A itW _) * (dens (termT _ (true && !innerFirst _ _ 1) _ _ _ A itX _) * (dens (termT _ (true && !innerFirst _ _ 2) _ _ _ A itY _) * 1))
  rw [i1, i2, fW, fW, fX, fX, fY, fY]
  simp only [Bool.not_false, Bool.not_true, Bool.and_true, Bool.and_false, fX0, fX1, mul_one]
  intro heq
  rw [ENNReal.mul_right_inj (hne _ _).1 (hne _ _).2, ENNReal.mul_left_inj (hne _ _).1 (hne _ _).2] at heq
  have h1 : dens (normalLogprob (.fin (Real.log z)) (.fin w) (.fin 1)) * ENNReal.ofReal z⁻¹ = dens (normalLogprob (.fin (Real.log z)) (.fin w) (.fin 1)) * 1 := by rw [heq, mul_one]
  rw [ENNReal.mul_right_inj (hne _ _).1 (hne _ _).2, ENNReal.ofReal_eq_one] at h1
  exact hz1 (by rw [← inv_inv z, h1, inv_one])

/-! A transform that looks at the parameters of the variable, as `IntervalTransform` does. -/

noncomputable def shiftT : VTransform where
  forward v ins := v - ins.headD .nan
  backward v ins := v + ins.headD .nan
  logJacDet _ _ := .fin 0

noncomputable def shiftReqs : Dict ℕ (Option (TransVals.Req VTransform)) := [(1, some (.transform shiftT))]

theorem log_normal (x m : ℝ) : Real.log (gaussianPDFReal m ((1 : ℝ) ^ 2).toNNReal x) = Real.log (√(2 * Real.pi))⁻¹ - (x - m) ^ 2 / 2 := by
  have hv : (((1 : ℝ) ^ 2).toNNReal : ℝ) = 1 := by simp
  rw [gaussianPDFReal, hv, mul_one, mul_one, Real.log_mul (by positivity) (Real.exp_ne_zero _), Real.log_exp]
  ring

theorem nrm (x m : ℝ) : normalLogprob (.fin x) (.fin m) (.fin 1) = .ok (.fin (Real.log (√(2 * Real.pi))⁻¹ - (x - m) ^ 2 / 2)) := by rw [normal_eval _ _ one_pos, log_normal]

theorem shift_eval (S : ℕ → Bool) : ∃ j, jointT S defs shiftReqs (fun _ => none) tv [0, 1, 2] [2, 1, 0] [12, 11, 10] [] = .ok (some (j, [12, 21, 10])) ∧
    ∀ (uj : Bool) (w z y a : ℝ), evalJointT DemoJoint.kernel uj (env w z y) (fun _ _ _ => .fin a) j =
      sumE [normalLogprob (.fin y) (.fin (z + a)) (.fin 1), normalLogprob (.fin (z + a)) (.fin w) (.fin 1), normalLogprob (.fin w) (.fin 0) (.fin 1)] :=
  ⟨_, rfl, fun _ _ _ _ _ => rfl⟩

/-- **C95** (false in general) Worse, if the transform of `X` depends on `W`: then the result of `joint_logprob(Y, X, W)` depends on `W` as a random variable, and not only on its value: whatever the
values, two draws give different results. -/
theorem C95_random_counterexample (S : ℕ → Bool) : ∃ j, jointT S defs shiftReqs (fun _ => none) tv [0, 1, 2] [2, 1, 0] [12, 11, 10] [] = .ok (some (j, [12, 21, 10])) ∧
    ∀ (uj : Bool) (w z y : ℝ), ∃ ω ω', evalJointT DemoJoint.kernel uj (env w z y) ω j ≠ evalJointT DemoJoint.kernel uj (env w z y) ω' j := by
  obtain ⟨j, hj, key⟩ := shift_eval S
  refine ⟨j, hj, fun uj w z y => ?_⟩
  by_contra hc
  push Not at hc
  have h01 := hc (fun _ _ _ => .fin 0) (fun _ _ _ => .fin 1)
  have h12 := hc (fun _ _ _ => .fin 1) (fun _ _ _ => .fin 2)
  rw [key, key] at h01 h12
  simp only [nrm, sumE, FVal.zero_eq, FVal.add_fin, Except.ok.injEq, FVal.fin.injEq] at h01 h12
  nlinarith

end Verif.IR.DemoOrder
