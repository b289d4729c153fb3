import Verif.Spec.ArrLocal
import Verif.Model.ArrLocal
import Verif.Props.ArrGraph
import Verif.Props.Local

/-! # C128, C129 and C131 for models with array variables -/

namespace Verif.ArrGraph
open Verif Cond

variable {Di : Type} {defs : ℕ → Option (RVDef Di)} {rvs₁ clones₁ rvs₂ clones₂ : List ℕ} {realized₁ realized₂ : Dict ℕ ℕ} {ρ₁ ρ₂ : ℕ → Arr FVal}

theorem evalGiven_local {vals₁ vals₂ : ℕ → Option (Arr FVal)} (ω : ℕ → Di → List (Arr FVal) → Arr FVal) (e : Expr Di) (h : ∀ w, Meets (fun v => (vals₁ v).isSome) w e → vals₁ w = vals₂ w)
    (hi : ∀ x, MeetsInput (fun v => (vals₁ v).isSome) x e → ρ₁ x = ρ₂ x) : evalGiven vals₁ ρ₁ ω e = evalGiven vals₂ ρ₂ ω e := by
  induction e with
  | const x => rfl
  | inp i => exact hi i rfl
  | app n f args ih =>
    simp only [evalGiven]
    congr 1
    funext i
    exact ih i (fun w hw => h w ⟨i, hw⟩) fun x hx => hi x ⟨i, hx⟩
  | rv id dist n args ih =>
    have h0 := h id (.inl rfl)
    simp only [evalGiven]
    cases h1 : vals₁ id with
    | some x => rw [← h0, h1]
    | none =>
      rw [← h0, h1]
      simp only
      congr 2
      funext i
      exact ih i (fun w hw => h w (.inr ⟨by simp [h1], i, hw⟩)) fun x hx => hi x ⟨by simp [h1], i, hx⟩
  | valued r v ih _ => exact ih h hi

theorem get_isSome {rvs clones : List ℕ} {realized : Dict ℕ ℕ} (q : Request defs rvs clones realized) (ρ : ℕ → Arr FVal) (v : ℕ) :
    ((Dict.get? (rvValues rvs clones realized) v).map ρ).isSome ↔ Asked rvs realized v := by
  rw [Option.isSome_map, Option.isSome_iff_exists, Dict.get?_isSome, rvValues, Dict.mem_keys_update, Dict.mem_keys_ofList, List.map_fst_zip q.len.ge, Asked]

theorem SameAt.get (q₁ : Request defs rvs₁ clones₁ realized₁) (q₂ : Request defs rvs₂ clones₂ realized₂) {v : ℕ} (h : SameAt ρ₁ ρ₂ rvs₁ clones₁ realized₁ rvs₂ clones₂ realized₂ v) :
    (Dict.get? (rvValues rvs₁ clones₁ realized₁) v).map ρ₁ = (Dict.get? (rvValues rvs₂ clones₂ realized₂) v).map ρ₂ := by
  simp only [SameAt, ← Full.given_iff q₁.nodup q₁.keys, ← Full.given_iff q₂.nodup q₂.keys] at h
  cases h1 : Dict.get? (rvValues rvs₁ clones₁ realized₁) v with
  | some x =>
    obtain ⟨x', hx', hy⟩ := (h (ρ₁ x)).1 ⟨x, h1, rfl⟩
    rw [hx', Option.map_some, Option.map_some, hy]
  | none =>
    cases h2 : Dict.get? (rvValues rvs₂ clones₂ realized₂) v with
    | none => rfl
    | some x =>
      obtain ⟨x', hx', -⟩ := (h (ρ₂ x)).2 ⟨x, h2, rfl⟩
      rw [h1] at hx'
      cases hx'

/-- `conditional_logprob` on the model given by `defs` (joint_logprob.py:22-219). -/
abbrev conditional (defs : ℕ → Option (RVDef Di)) (rvs clones : List ℕ) (realized : Dict ℕ ℕ) : Except Err (Dict ℕ (Term Di) × List ℕ) :=
  conditionalLogprob (backend defs (rvValues rvs clones realized)) rvs clones realized

/-- **C129** (locality, arrays) Two calls of `conditional_logprob` that agree on the value of `v` and on the variables and inputs met on the way back from `v` to the first variables with values return terms of
`v` with the same value: other requested variables, and everything further back, make no difference. -/
theorem C129_arrays_term (kernel : Di → Arr FVal → List (Arr FVal) → Except Err (Arr FVal)) (ω : ℕ → Di → List (Arr FVal) → Arr FVal) (huser : ∀ v r, defs v = some r → ∀ i, User (r.args i))
    (q₁ : Request defs rvs₁ clones₁ realized₁) (q₂ : Request defs rvs₂ clones₂ realized₂) {terms₁ terms₂ : Dict ℕ (Term Di)} {vvs₁ vvs₂ : List ℕ}
    (hok₁ : conditional defs rvs₁ clones₁ realized₁ = .ok (terms₁, vvs₁)) (hok₂ : conditional defs rvs₂ clones₂ realized₂ = .ok (terms₂, vvs₂)) {v : ℕ} {r : RVDef Di} (hr : defs v = some r)
    (hv : Asked rvs₁ realized₁ v) (hsame : SameAt ρ₁ ρ₂ rvs₁ clones₁ realized₁ rvs₂ clones₂ realized₂ v)
    (hpar : ∀ i w, Meets (Asked rvs₁ realized₁) w (r.args i) → SameAt ρ₁ ρ₂ rvs₁ clones₁ realized₁ rvs₂ clones₂ realized₂ w)
    (hin : ∀ i x, MeetsInput (Asked rvs₁ realized₁) x (r.args i) → ρ₁ x = ρ₂ x) :
    ∃ t₁ t₂, Dict.get? terms₁ v = some t₁ ∧ Dict.get? terms₂ v = some t₂ ∧ t₁.eval kernel ρ₁ ω = t₂.eval kernel ρ₂ ω := by
  obtain ⟨_, _, a1, -, a3⟩ := C106_terms kernel huser q₁.len q₁.defined
  obtain ⟨_, _, b1, -, b3⟩ := C106_terms kernel huser q₂.len q₂.defined
  cases hok₁.symm.trans a1
  cases hok₂.symm.trans b1
  have hg := hsame.get q₁ q₂
  have hv₂ : Asked rvs₂ realized₂ v := by rw [← get_isSome q₂ ρ₂, ← hg, get_isSome q₁]; exact hv
  obtain ⟨x₁, t₁, x1, g1, e1⟩ := a3 v r hv hr
  obtain ⟨x₂, t₂, x2, g2, e2⟩ := b3 v r hv₂ hr
  rw [x1, x2, Option.map_some, Option.map_some, Option.some.injEq] at hg
  refine ⟨t₁, t₂, g1, g2, ?_⟩
  rw [e1, e2, hg]
  congr 2
  funext i
  have hR : (fun v => ((Dict.get? (rvValues rvs₁ clones₁ realized₁) v).map ρ₁).isSome = true) = Asked rvs₁ realized₁ := funext fun v => propext (get_isSome q₁ ρ₁ v)
  refine evalGiven_local ω _ (fun w hw => ?_) fun x hx => ?_
  · rw [hR] at hw
    exact (hpar i w hw).get q₁ q₂
  · rw [hR] at hx
    exact hin i x hx

/-! ## Sums -/

theorem sumE_eq : ∀ l : List (Except Err FVal), Graph.sumE l = IR.sumE l
  | [] => rfl
  | .error _ :: _ => rfl
  | .ok _ :: l => by rw [Graph.sumE, IR.sumE, sumE_eq l]; rfl

theorem evalJoint_sum (kernel : Di → Arr FVal → List (Arr FVal) → Except Err (Arr FVal)) {rvs clones : List ℕ} {realized : Dict ℕ ℕ} {terms : Dict ℕ (Term Di)} {vvs : List ℕ} (hne : terms ≠ [])
    (h : conditional defs rvs clones realized = .ok (terms, vvs)) :
    ∃ j, joint defs rvs clones realized = .ok (some (j, vvs)) ∧ ∀ ρ ω, evalJoint kernel ρ ω j = IR.sumE (terms.map fun p => arrayJoint (p.2.eval kernel ρ ω)) := by
  rw [conditional] at h
  rw [joint, jointLogprob, h]
  match terms, hne with
  | [(v, t)], _ =>
    refine ⟨_, rfl, fun ρ ω => ?_⟩
    simp only [evalJoint, List.map_cons, List.map_nil]
    cases arrayJoint (t.eval kernel ρ ω) with
    | error e => rfl
    | ok x => simp only [IR.sumE, Full.add_zero']
  | a :: b :: l, _ =>
    refine ⟨_, rfl, fun ρ ω => ?_⟩
    rw [evalJoint, Dict.values, List.map_map, sumE_eq]
    rfl

/-- The request is not empty. -/
theorem terms_ne_nil {rvs : List ℕ} {realized : Dict ℕ ℕ} {terms : Dict ℕ (Term Di)} (hk : ∀ v, v ∈ Dict.keys terms ↔ v ∈ rvs ∨ v ∈ Dict.keys realized) {v : ℕ} (hv : Asked rvs realized v) : terms ≠ [] := by
  rintro rfl
  have := (hk v).2 hv
  simp [Dict.keys] at this

/-- **C128** (arrays) Two requests that give the same variables the same arrays, in any order and with any of them realized, have terms and joint log-probabilities of the same value. -/
theorem C128_arrays (kernel : Di → Arr FVal → List (Arr FVal) → Except Err (Arr FVal)) (ω : ℕ → Di → List (Arr FVal) → Arr FVal) (huser : ∀ v r, defs v = some r → ∀ i, User (r.args i))
    (q₁ : Request defs rvs₁ clones₁ realized₁) (q₂ : Request defs rvs₂ clones₂ realized₂) (hne : ∃ v, Asked rvs₁ realized₁ v)
    (hsame : ∀ v, SameAt ρ₁ ρ₂ rvs₁ clones₁ realized₁ rvs₂ clones₂ realized₂ v)
    (hin : ∀ v r i x, Asked rvs₁ realized₁ v → defs v = some r → MeetsInput (Asked rvs₁ realized₁) x (r.args i) → ρ₁ x = ρ₂ x) :
    (∃ terms₁ vvs₁ terms₂ vvs₂, conditional defs rvs₁ clones₁ realized₁ = .ok (terms₁, vvs₁) ∧ conditional defs rvs₂ clones₂ realized₂ = .ok (terms₂, vvs₂) ∧
      ∀ v, (Dict.get? terms₁ v).map (fun t => t.eval kernel ρ₁ ω) = (Dict.get? terms₂ v).map fun t => t.eval kernel ρ₂ ω) ∧
    ∃ j₁ vvs₁ j₂ vvs₂, joint defs rvs₁ clones₁ realized₁ = .ok (some (j₁, vvs₁)) ∧ joint defs rvs₂ clones₂ realized₂ = .ok (some (j₂, vvs₂)) ∧
      ∀ x, evalJoint kernel ρ₁ ω j₁ = .ok x ↔ evalJoint kernel ρ₂ ω j₂ = .ok x := by
  obtain ⟨terms₁, vvs₁, a1, ⟨a2, a3⟩, -⟩ := C106_terms kernel huser q₁.len q₁.defined
  obtain ⟨terms₂, vvs₂, b1, ⟨b2, b3⟩, -⟩ := C106_terms kernel huser q₂.len q₂.defined
  have hreq : ∀ v, Asked rvs₁ realized₁ v ↔ Asked rvs₂ realized₂ v := fun v => by rw [← get_isSome q₁ ρ₁, ← get_isSome q₂ ρ₂, (hsame v).get q₁ q₂]
  have hT : ∀ v, (Dict.get? terms₁ v).map (fun t => t.eval kernel ρ₁ ω) = (Dict.get? terms₂ v).map fun t => t.eval kernel ρ₂ ω := by
    intro v
    by_cases hv : Asked rvs₁ realized₁ v
    · obtain ⟨r, hr⟩ := Option.isSome_iff_exists.1 (q₁.defined v hv)
      obtain ⟨t₁, t₂, g1, g2, e⟩ := C129_arrays_term kernel ω huser q₁ q₂ a1 b1 hr hv (hsame v) (fun i w _ => hsame w) fun i x hx => hin v r i x hv hr hx
      rw [g1, g2, Option.map_some, Option.map_some, e]
    · rw [Dict.get?_eq_none.2 fun h => hv ((a3 v).1 h), Dict.get?_eq_none.2 fun h => hv ((hreq v).2 ((b3 v).1 h))]
      rfl
  obtain ⟨v, hv⟩ := hne
  obtain ⟨j₁, c1, c2⟩ := evalJoint_sum kernel (terms_ne_nil a3 hv) a1
  obtain ⟨j₂, d1, d2⟩ := evalJoint_sum kernel (terms_ne_nil b3 ((hreq v).1 hv)) b1
  refine ⟨⟨terms₁, vvs₁, terms₂, vvs₂, a1, b1, hT⟩, j₁, vvs₁, j₂, vvs₂, c1, d1, fun x => ?_⟩
  have hperm := Full.perm_of_get (f := fun t : Term Di => arrayJoint (t.eval kernel ρ₁ ω)) (g := fun t : Term Di => arrayJoint (t.eval kernel ρ₂ ω)) a2 b2 fun v => by
    have := congrArg (Option.map arrayJoint) (hT v)
    simpa only [Option.map_map, Function.comp_def] using this
  rw [c2, d2]
  exact ⟨Full.sumE_perm hperm x, Full.sumE_perm hperm.symm x⟩

theorem Request.both (q₁ : Request defs rvs₁ clones₁ realized₁) (q₂ : Request defs rvs₂ clones₂ realized₂) (h : ∀ v, Asked rvs₁ realized₁ v → ¬ Asked rvs₂ realized₂ v) :
    Request defs (rvs₁ ++ rvs₂) (clones₁ ++ clones₂) (realized₁ ++ realized₂) := by
  refine ⟨by simp [q₁.len, q₂.len], List.nodup_append.2 ⟨q₁.nodup, q₂.nodup, ?_⟩, ?_, ?_⟩
  · rintro a ha _ hb rfl
    exact h a (.inl ha) (.inl hb)
  · rw [Dict.keys, List.map_append]
    refine List.nodup_append.2 ⟨q₁.keys, q₂.keys, ?_⟩
    rintro a ha _ hb rfl
    exact h a (.inr ha) (.inr hb)
  · intro v hv
    simp only [Dict.keys, List.map_append, List.mem_append] at hv
    rcases hv with (hv | hv) | (hv | hv)
    exacts [q₁.defined v (.inl hv), q₂.defined v (.inl hv), q₁.defined v (.inr hv), q₂.defined v (.inr hv)]

theorem both_asked (v : ℕ) : Asked (rvs₁ ++ rvs₂) (realized₁ ++ realized₂) v ↔ Asked rvs₁ realized₁ v ∨ Asked rvs₂ realized₂ v := by
  simp only [Asked, Dict.keys, List.map_append, List.mem_append]
  tauto

theorem both_given (q₁ : Request defs rvs₁ clones₁ realized₁) {v x : ℕ} (h : ¬ Asked rvs₂ realized₂ v) :
    Full.Given (rvs₁ ++ rvs₂) (clones₁ ++ clones₂) (realized₁ ++ realized₂) v x ↔ Full.Given rvs₁ clones₁ realized₁ v x := by
  have h1 : ∀ y, (v, y) ∉ realized₂ := fun y hy => h (.inr (List.mem_map.2 ⟨_, hy, rfl⟩))
  have h2 : (v, x) ∉ rvs₂.zip clones₂ := fun hy => h (.inl (List.of_mem_zip hy).1)
  rw [Full.Given, Full.Given, List.zip_append q₁.len.symm]
  simp only [List.mem_append, h1, h2, or_false]

theorem both_given' (q₁ : Request defs rvs₁ clones₁ realized₁) {v x : ℕ} (h : ¬ Asked rvs₁ realized₁ v) :
    Full.Given (rvs₁ ++ rvs₂) (clones₁ ++ clones₂) (realized₁ ++ realized₂) v x ↔ Full.Given rvs₂ clones₂ realized₂ v x := by
  have h1 : ∀ y, (v, y) ∉ realized₁ := fun y hy => h (.inr (List.mem_map.2 ⟨_, hy, rfl⟩))
  have h2 : (v, x) ∉ rvs₁.zip clones₁ := fun hy => h (.inl (List.of_mem_zip hy).1)
  rw [Full.Given, Full.Given, List.zip_append q₁.len.symm]
  simp only [List.mem_append, h1, h2, false_or]

/-- **C129** (sums, arrays) If no variable of either request is requested in the other, or met on the way back from one of the other, then `joint_logprob` of both together is the sum of the two. -/
theorem C129_arrays_separate_sum (kernel : Di → Arr FVal → List (Arr FVal) → Except Err (Arr FVal)) (ω : ℕ → Di → List (Arr FVal) → Arr FVal) (huser : ∀ v r, defs v = some r → ∀ i, User (r.args i))
    (q₁ : Request defs rvs₁ clones₁ realized₁) (q₂ : Request defs rvs₂ clones₂ realized₂) (hne₁ : ∃ v, Asked rvs₁ realized₁ v) (hne₂ : ∃ v, Asked rvs₂ realized₂ v)
    (hs : Separate defs (Asked rvs₁ realized₁) (Asked rvs₂ realized₂)) :
    ∃ j₁ vvs₁ j₂ vvs₂ j vvs, joint defs rvs₁ clones₁ realized₁ = .ok (some (j₁, vvs₁)) ∧ joint defs rvs₂ clones₂ realized₂ = .ok (some (j₂, vvs₂)) ∧
      joint defs (rvs₁ ++ rvs₂) (clones₁ ++ clones₂) (realized₁ ++ realized₂) = .ok (some (j, vvs)) ∧
      ∀ ρ z, evalJoint kernel ρ ω j = .ok z ↔ ∃ x y, evalJoint kernel ρ ω j₁ = .ok x ∧ evalJoint kernel ρ ω j₂ = .ok y ∧ z = x + y := by
  have q := q₁.both q₂ hs.disjoint
  obtain ⟨terms₁, vvs₁, a1, ⟨a2, a3⟩, -⟩ := C106_terms kernel huser q₁.len q₁.defined
  obtain ⟨terms₂, vvs₂, b1, ⟨b2, b3⟩, -⟩ := C106_terms kernel huser q₂.len q₂.defined
  obtain ⟨terms, vvs, c1, ⟨c2, c3⟩, -⟩ := C106_terms kernel huser q.len q.defined
  have m := fun v => both_asked (rvs₁ := rvs₁) (rvs₂ := rvs₂) (realized₁ := realized₁) (realized₂ := realized₂) v
  have hnd : (Dict.keys (terms₁ ++ terms₂)).Nodup := by
    rw [Dict.keys, List.map_append]
    refine List.nodup_append.2 ⟨a2, b2, ?_⟩
    rintro a ha _ hb rfl
    exact hs.disjoint a ((a3 a).1 ha) ((b3 a).1 hb)
  have hget : ∀ ρ v, (Dict.get? terms v).map (fun t => arrayJoint (t.eval kernel ρ ω)) = (Dict.get? (terms₁ ++ terms₂) v).map fun t => arrayJoint (t.eval kernel ρ ω) := by
    intro ρ v
    by_cases hv : Asked rvs₁ realized₁ v ∨ Asked rvs₂ realized₂ v
    · obtain ⟨r, hr⟩ := Option.isSome_iff_exists.1 (q.defined v ((m v).2 hv))
      rcases hv with hv | hv
      · obtain ⟨t₁, t, g₁, g, ht⟩ := C129_arrays_term (ρ₁ := ρ) (ρ₂ := ρ) kernel ω huser q₁ q a1 c1 hr hv (fun y => by simp only [both_given q₁ (hs.disjoint v hv)])
          (fun i w hw y => by simp only [both_given q₁ fun hb => hs.left v r w hv hr hb i hw]) fun _ _ _ => rfl
        rw [g, Dict.get?_of_mem hnd (List.mem_append_left _ (Dict.mem_of_get? g₁)), Option.map_some, Option.map_some, ht]
      · obtain ⟨t₂, t, g₂, g, ht⟩ := C129_arrays_term (ρ₁ := ρ) (ρ₂ := ρ) kernel ω huser q₂ q b1 c1 hr hv (fun y => by simp only [both_given' q₁ fun ha => hs.disjoint v ha hv])
          (fun i w hw y => by simp only [both_given' q₁ fun ha => hs.right v r w hv hr ha i hw]) fun _ _ _ => rfl
        rw [g, Dict.get?_of_mem hnd (List.mem_append_right _ (Dict.mem_of_get? g₂)), Option.map_some, Option.map_some, ht]
    · have e1 : Dict.get? terms v = none := by
        rw [Dict.get?_eq_none, c3]
        exact fun h => hv ((m v).1 h)
      have e2 : Dict.get? (terms₁ ++ terms₂) v = none := by
        rw [Dict.get?_eq_none, Dict.keys, List.map_append, List.mem_append]
        rintro (h | h)
        exacts [hv (.inl ((a3 v).1 h)), hv (.inr ((b3 v).1 h))]
      rw [e1, e2]
  obtain ⟨v₁, hv₁⟩ := hne₁
  obtain ⟨v₂, hv₂⟩ := hne₂
  obtain ⟨j₁, d1, d2⟩ := evalJoint_sum kernel (terms_ne_nil a3 hv₁) a1
  obtain ⟨j₂, e1, e2⟩ := evalJoint_sum kernel (terms_ne_nil b3 hv₂) b1
  obtain ⟨j, f1, f2⟩ := evalJoint_sum kernel (terms_ne_nil c3 ((m v₁).2 (.inl hv₁))) c1
  refine ⟨j₁, vvs₁, j₂, vvs₂, j, vvs, d1, e1, f1, fun ρ z => ?_⟩
  have hperm := Full.perm_of_get c2 hnd (hget ρ)
  rw [f2, d2, e2, ← Full.sumE_append, ← List.map_append]
  exact ⟨Full.sumE_perm hperm z, Full.sumE_perm hperm.symm z⟩

/-! ## `logprob` -/

theorem eval_drawn {rvs clones : List ℕ} {realized : Dict ℕ ℕ} (q : Request defs rvs clones realized) {ρ : ℕ → Arr FVal} {ω : ℕ → Di → List (Arr FVal) → Arr FVal} (e : Expr Di) (hu : User e)
    (h : DrawsAgree ρ ω rvs clones realized e) : eval ρ ω e = evalGiven (fun w => (Dict.get? (rvValues rvs clones realized) w).map ρ) ρ ω e := by
  induction e with
  | const x => rfl
  | inp i => rfl
  | app n f args ih =>
    simp only [eval, evalGiven]
    congr 1
    funext i
    exact ih i (hu i) (h i)
  | rv id dist n args ih =>
    cases hv : Dict.get? (rvValues rvs clones realized) id with
    | some x =>
      simp only [eval, evalGiven, hv, Option.map_some]
      exact h.1 x ((Full.given_iff q.nodup q.keys id x).1 hv)
    | none =>
      simp only [eval, evalGiven, hv, Option.map_none]
      congr 2
      funext i
      refine ih i (hu i) (h.2.resolve_left (fun hr => ?_) i)
      rw [← get_isSome q ρ, hv] at hr
      simp at hr
  | valued r v => exact hu.elim

/-- **C131** (arrays) `logprob(X, x)` is the term of `X` in `conditional_logprob` when the variables that `X` is computed from are drawn equal to the values that `conditional_logprob` gives them. -/
theorem C131_arrays {rvs clones : List ℕ} {realized : Dict ℕ ℕ} (kernel : Di → Arr FVal → List (Arr FVal) → Except Err (Arr FVal)) {ω : ℕ → Di → List (Arr FVal) → Arr FVal} {ρ : ℕ → Arr FVal}
    (huser : ∀ v r, defs v = some r → ∀ i, User (r.args i)) (q : Request defs rvs clones realized) {v x : ℕ} (hv : Full.Given rvs clones realized v x) {r : RVDef Di} (hr : defs v = some r)
    (hdr : ∀ i, DrawsAgree ρ ω rvs clones realized (r.args i)) :
    ∃ terms vvs t, conditional defs rvs clones realized = .ok (terms, vvs) ∧ Dict.get? terms v = some t ∧ (logprobCall r x).eval kernel ρ ω = t.eval kernel ρ ω := by
  obtain ⟨terms, vvs, a1, -, a3⟩ := C106_terms kernel huser q.len q.defined
  have hg := (Full.given_iff q.nodup q.keys v x).2 hv
  have hreq : Asked rvs realized v := by rw [← get_isSome q ρ, hg]; rfl
  obtain ⟨x', t, h1, h2, h3⟩ := a3 v r hreq hr
  rw [hg] at h1
  cases h1
  refine ⟨terms, vvs, t, a1, h2, ?_⟩
  rw [h3, Term.eval]
  simp only [logprobCall, eval]
  congr 2
  funext i
  exact eval_drawn q _ (huser v r hr i) (hdr i)

/-! ## A model with groups: `Schools` -/

namespace Schools

variable (J : ℕ) (sd : ℕ → ℝ)

theorem userL : ∀ v r, Dict.get? (model J sd) v = some r → ∀ i, User (r.args i) := fun v r h => by
  have := Dict.mem_of_get? h
  simp only [model, List.mem_cons, List.not_mem_nil, or_false, Prod.mk.injEq] at this
  rcases this with ⟨-, rfl⟩ | ⟨-, rfl⟩ | ⟨-, rfl⟩ | ⟨-, rfl⟩ <;> simp [mu, tau, theta, y, User, Fin.forall_fin_two]

theorem request {rvs clones : List ℕ} {realized : Dict ℕ ℕ} (h : clones.length = rvs.length) (hn : rvs.Nodup) (hk : (Dict.keys realized).Nodup) (hlt : ∀ v, v ∈ rvs ∨ v ∈ Dict.keys realized → v < 4) :
    Request (Dict.get? (model J sd)) rvs clones realized := by
  refine ⟨h, hn, hk, fun v hv => ?_⟩
  have := hlt v hv
  interval_cases v <;> simp [model, Dict.get?]

theorem noInputs {R : ℕ → Prop} {v x : ℕ} {r : RVDef Dist} (h : Dict.get? (model J sd) v = some r) (i) : ¬ MeetsInput R x (r.args i) := by
  have := Dict.mem_of_get? h
  simp only [model, List.mem_cons, List.not_mem_nil, or_false, Prod.mk.injEq] at this
  rcases this with ⟨-, rfl⟩ | ⟨-, rfl⟩ | ⟨-, rfl⟩ | ⟨-, rfl⟩ <;> revert i <;> simp [mu, tau, theta, y, MeetsInput, Fin.forall_fin_two, Fin.exists_fin_two]

/-- The variables in another order, and `y` realized. -/
example (ω : ℕ → Dist → List (Arr FVal) → Arr FVal) (ρ : ℕ → Arr FVal) := C128_arrays (ρ₁ := ρ) (ρ₂ := fun i => ρ (if i = 23 then 13 else i)) kernel ω (userL J sd)
  (request J sd (rvs := [0, 1, 2, 3]) (clones := [10, 11, 12, 13]) (realized := []) rfl (by decide) (by decide) (by simp [Dict.keys]; try omega))
  (request J sd (rvs := [2, 0, 1]) (clones := [12, 10, 11]) (realized := [(3, 23)]) rfl (by decide) (by decide) (by simp [Dict.keys]; try omega)) ⟨0, by simp [Asked]⟩
  (by
    intro v a
    simp only [Full.Given, List.zip_cons_cons, List.zip_nil_right, List.mem_cons, List.not_mem_nil, or_false, Prod.mk.injEq]
    constructor
    · rintro ⟨x, h, rfl⟩
      simp only [false_or, not_false_eq_true, implies_true, true_and] at h
      rcases h with ⟨rfl, rfl⟩ | ⟨rfl, rfl⟩ | ⟨rfl, rfl⟩ | ⟨rfl, rfl⟩
      · exact ⟨10, by simp, by simp⟩
      · exact ⟨11, by simp, by simp⟩
      · exact ⟨12, by simp, by simp⟩
      · exact ⟨23, by simp, by simp⟩
    · rintro ⟨x, h, rfl⟩
      rcases h with ⟨rfl, rfl⟩ | ⟨-, ⟨rfl, rfl⟩ | ⟨rfl, rfl⟩ | ⟨rfl, rfl⟩⟩
      · exact ⟨13, by simp, by simp⟩
      · exact ⟨12, by simp, by simp⟩
      · exact ⟨10, by simp, by simp⟩
      · exact ⟨11, by simp, by simp⟩)
  fun v r i x _ hr hx => absurd hx (noInputs J sd hr i)

theorem reads_y {R : ℕ → Prop} (h2 : R 2) {w : ℕ} (i) (h : Meets R w ((y J sd).args i)) : w = 2 := by
  revert i
  simp [y, Meets, Fin.forall_fin_two, h2, eq_comm]

/-- The term of `y` is the same whether `μ` and `τ` are requested or not. -/
example (ω : ℕ → Dist → List (Arr FVal) → Arr FVal) (ρ : ℕ → Arr FVal) {terms₁ terms₂ : Dict ℕ (Term Dist)} {vvs₁ vvs₂ : List ℕ}
    (h₁ : conditional (Dict.get? (model J sd)) [2, 3] [12, 13] [] = .ok (terms₁, vvs₁)) (h₂ : conditional (Dict.get? (model J sd)) [0, 1, 2, 3] [10, 11, 12, 13] [] = .ok (terms₂, vvs₂)) :=
  C129_arrays_term (ρ₁ := ρ) (ρ₂ := ρ) kernel ω (userL J sd) (request J sd (rvs := [2, 3]) (clones := [12, 13]) (realized := []) rfl (by decide) (by decide) (by simp [Dict.keys]; try omega)) (request J sd (rvs := [0, 1, 2, 3]) (clones := [10, 11, 12, 13]) (realized := []) rfl (by decide) (by decide) (by simp [Dict.keys]; try omega)) h₁ h₂
    (v := 3) (r := y J sd) (by simp [model, Dict.get?]) (by simp [Asked]) (by intro a; simp [Full.Given])
    (fun i w hw => by cases reads_y J sd (by simp [Asked]) i hw; intro a; simp [Full.Given]) fun _ _ _ => rfl

/-- `μ` alone, and `τ` alone. -/
example (ω : ℕ → Dist → List (Arr FVal) → Arr FVal) := C129_arrays_separate_sum kernel ω (userL J sd)
  (request J sd (rvs := [0]) (clones := [10]) (realized := []) rfl (by decide) (by decide) (by simp [Dict.keys]; try omega))
  (request J sd (rvs := []) (clones := []) (realized := [(1, 11)]) rfl (by decide) (by decide) (by simp [Dict.keys]; try omega)) ⟨0, by simp [Asked]⟩ ⟨1, by simp [Asked, Dict.keys]⟩
  ⟨fun v h => by simp [Asked, Dict.keys] at h ⊢; omega,
    fun v r w hv hr _ i => by
      have : v = 0 := by simpa [Asked, Dict.keys] using hv
      subst this
      have : r = mu := by simpa [model, Dict.get?] using hr.symm
      subst this
      revert i
      simp [mu, Meets, Fin.forall_fin_two],
    fun v r w hv hr _ i => by
      have : v = 1 := by simpa [Asked, Dict.keys] using hv
      subst this
      have : r = tau := by simpa [model, Dict.get?] using hr.symm
      subst this
      revert i
      simp [tau, Meets]⟩

/-- `logprob(y, 13)` with draws of `θ` equal to its value `12`. -/
example (ω : ℕ → Dist → List (Arr FVal) → Arr FVal) (ρ : ℕ → Arr FVal) (hω : ∀ dist p, ω 2 dist p = ρ 12) := C131_arrays (ρ := ρ) (ω := ω) kernel (userL J sd)
  (request J sd (rvs := [2, 3]) (clones := [12, 13]) (realized := []) rfl (by decide) (by decide) (by simp [Dict.keys]; try omega)) (v := 3) (x := 13) (r := y J sd) (by simp [Full.Given])
  (by simp [model, Dict.get?]) (by simp [y, DrawsAgree, Fin.forall_fin_two, Full.Given, hω, Asked])

end Schools

end Verif.ArrGraph
