import Verif.Spec.Local
import Verif.Props.SameValues
import Verif.Props.Merge

/-! # C129: the term of a variable depends only on what it is computed from, and log-probabilities of separate parts add up -/

namespace Verif.Full
open Verif Cond

variable {Di : Type} {ρ ρ₁ ρ₂ : ℕ → FVal} {defs : ℕ → Option (Expr Di)} {d₁ d₂ : Dict ℕ ℕ} {R R₁ R₂ : ℕ → Prop}

/-! ## Locality of the specification -/

theorem reads_congr {w : ℕ} {e : Expr Di} (h : Reads R₂ w e) (ha : ∀ u, Reads R₁ u e → (R₁ u ↔ R₂ u)) : Reads R₁ w e := by
  induction h with
  | here h => exact .here h
  | app i hr _ ih =>
    have hr' : ¬ R₁ _ := fun h => hr ((ha _ (.here rfl)).1 h)
    exact .app i hr' (ih fun u hu => ha u (.app i hr' hu))
  | rv i hr _ ih =>
    have hr' : ¬ R₁ _ := fun h => hr ((ha _ (.here rfl)).1 h)
    exact .rv i hr' (ih fun u hu => ha u (.rv i hr' hu))

theorem parent_congr {w : ℕ} {e : Expr Di} (h : Parent R₂ w e) (ha : ∀ u, Parent R₁ u e → (R₁ u ↔ R₂ u)) : Parent R₁ w e := by
  cases e with
  | app id k op n args =>
    obtain ⟨i, hi⟩ := h
    exact ⟨i, reads_congr hi fun u hu => ha u ⟨i, hu⟩⟩
  | rv id dist n args =>
    obtain ⟨i, hi⟩ := h
    exact ⟨i, reads_congr hi fun u hu => ha u ⟨i, hu⟩⟩
  | _ => exact h

theorem Parent.reads {w : ℕ} {e : Expr Di} (h : Parent R w e) (hv : ¬ HasValue R e) : Reads R w e := by
  cases e with
  | app id k op n args =>
    obtain ⟨i, hi⟩ := h
    exact .app i (fun hr => hv ⟨id, rfl, hr⟩) hi
  | rv id dist n args =>
    obtain ⟨i, hi⟩ := h
    exact .rv i (fun hr => hv ⟨id, rfl, hr⟩) hi
  | _ => exact h.elim

theorem hasValue_local {e : Expr Di} (ha : ∀ u, Reads R₁ u e → (R₁ u ↔ R₂ u)) : HasValue R₁ e ↔ HasValue R₂ e := by
  constructor
  · rintro ⟨id, h, hr⟩
    exact ⟨id, h, (ha _ (.here h)).1 hr⟩
  · rintro ⟨id, h, hr⟩
    exact ⟨id, h, (ha _ (.here h)).2 hr⟩

theorem determined_local {e : Expr Di} (ha : ∀ u, Reads R₁ u e → (R₁ u ↔ R₂ u)) : Determined R₁ e ↔ Determined R₂ e := by
  induction e with
  | const => rfl
  | inp => rfl
  | app id k op n args ih =>
    simp only [Determined]
    have h := ha id (.here rfl)
    by_cases hr : R₁ id
    · exact iff_of_true (.inl hr) (.inl (h.1 hr))
    · rw [← h]
      simp only [hr, false_or]
      exact forall_congr' fun i => ih i fun u hu => ha u (.app i hr hu)
  | rv id dist n args => exact ha id (.here rfl)
  | valued => rfl

variable [IR.Normals Di]

theorem normalVar_local {e : Expr Di} (h : NormalVar R₁ e) (ha : ∀ u, Reads R₁ u e → (R₁ u ↔ R₂ u)) : NormalVar R₂ e := by
  induction h with
  | rv hn hr => exact .rv hn fun h => hr ((ha _ (.here rfl)).2 h)
  | sum hop hr _ ih => exact .sum hop (fun h => hr ((ha _ (.here rfl)).2 h)) fun i => ih i fun u hu => ha u (.app i hr hu)

theorem cdfVar_local {hasCdf : Di → Bool} {e : Expr Di} (h : CdfVar R₁ hasCdf e) (ha : ∀ u, Parent R₁ u e → (R₁ u ↔ R₂ u)) : CdfVar R₂ hasCdf e := by
  cases h with
  | rv h => exact .rv h
  | normals h1 h2 => exact .normals h1 fun i => normalVar_local (h2 i) fun u hu => ha u ⟨i, hu⟩

theorem derived_local {kd : Di → Kind} {b : Bool} {e : Expr Di} (h : Derived R₁ kd b e) (ha : ∀ u, Parent R₁ u e → (R₁ u ↔ R₂ u)) : Derived R₂ kd b e := by
  have below : ∀ {e : Expr Di}, ¬ HasValue R₁ e → (∀ u, Reads R₁ u e → (R₁ u ↔ R₂ u)) → ∀ u, Parent R₁ u e → (R₁ u ↔ R₂ u) := fun hv h u hu => h u (hu.reads hv)
  induction h with
  | rv => exact .rv ..
  | elem i a1 _ a3 a4 a5 ih =>
    exact .elem i a1 (ih (below a3 fun u hu => ha u ⟨i, hu⟩)) (fun h => a3 ((hasValue_local fun u hu => ha u ⟨i, hu⟩).2 h)) a4 fun j hj => (determined_local fun u hu => ha u ⟨j, hu⟩).1 (a5 j hj)
  | normals a1 a2 => exact .normals a1 fun i => normalVar_local (a2 i) fun u hu => ha u ⟨i, hu⟩
  | clip _ a2 ih => exact .clip (ih (below a2 fun u hu => ha u ⟨0, hu⟩)) fun h => a2 ((hasValue_local fun u hu => ha u ⟨0, hu⟩).2 h)
  | round _ a2 a3 ih => exact .round (ih (below a2 fun u hu => ha u ⟨0, hu⟩)) (fun h => a2 ((hasValue_local fun u hu => ha u ⟨0, hu⟩).2 h)) a3
  | switch _ a2 _ a4 ih1 ih2 =>
    exact .switch (ih1 (below a2 fun u hu => ha u ⟨1, hu⟩)) (fun h => a2 ((hasValue_local fun u hu => ha u ⟨1, hu⟩).2 h)) (ih2 (below a4 fun u hu => ha u ⟨2, hu⟩))
      fun h => a4 ((hasValue_local fun u hu => ha u ⟨2, hu⟩).2 h)
  | pick b a1 _ a3 ih => exact .pick b a1 (fun i => ih i (below (a3 i) fun u hu => ha u ⟨i.succ, hu⟩)) fun i h => a3 i ((hasValue_local fun u hu => ha u ⟨i.succ, hu⟩).2 h)

theorem buildable_local {kd : Di → Kind} {hasCdf : Di → Bool} {b : Bool} {e : Expr Di} (h : Derived R₁ kd b e) (ha : ∀ u, Parent R₁ u e → (R₁ u ↔ R₂ u)) (hb : Buildable R₁ hasCdf e) : Buildable R₂ hasCdf e := by
  have below : ∀ {e : Expr Di}, ¬ HasValue R₁ e → (∀ u, Reads R₁ u e → (R₁ u ↔ R₂ u)) → ∀ u, Parent R₁ u e → (R₁ u ↔ R₂ u) := fun hv h u hu => h u (hu.reads hv)
  induction h with
  | rv => exact .rv ..
  | elem i a1 _ a3 a4 a5 ih =>
    cases hb with
    | elem j h1 h2 =>
      have : j = i := by
        by_contra hj
        exact h1 (a5 j hj)
      subst this
      exact .elem j (fun h => h1 ((determined_local fun u hu => ha u ⟨j, hu⟩).2 h)) (ih (below a3 fun u hu => ha u ⟨j, hu⟩) h2)
    | normals h1 h2 => exact .normals h1 fun i => normalVar_local (h2 i) fun u hu => ha u ⟨i, hu⟩
  | normals a1 a2 => exact .normals a1 fun i => normalVar_local (a2 i) fun u hu => ha u ⟨i, hu⟩
  | clip _ a2 ih =>
    cases hb with
    | clip h => exact .clip (cdfVar_local h (below a2 fun u hu => ha u ⟨0, hu⟩))
  | round _ a2 a3 ih =>
    cases hb with
    | round h => exact .round (cdfVar_local h (below a2 fun u hu => ha u ⟨0, hu⟩))
  | switch _ a2 _ a4 ih1 ih2 =>
    cases hb with
    | switch h1 h2 => exact .switch (ih1 (below a2 fun u hu => ha u ⟨1, hu⟩) h1) (ih2 (below a4 fun u hu => ha u ⟨2, hu⟩) h2)
  | pick b a1 _ a3 ih =>
    cases hb with
    | pick h => exact .pick fun i => ih i (below (a3 i) fun u hu => ha u ⟨i.succ, hu⟩) (h i)

/-! ## Locality of the converted graph -/

omit [IR.Normals Di] in
theorem pin_replace_local {e : Expr Di} (hd : ∀ v, Reads (· ∈ Dict.keys d₁) v e → (Dict.get? d₁ v).map ρ₁ = (Dict.get? d₂ v).map ρ₂) (hc : Closed defs e) :
    pin ρ₁ (replaceValued d₁ e) = pin ρ₂ (replaceValued d₂ e) := by
  induction e with
  | const => rfl
  | inp => rfl
  | app id k op n args ih =>
    have h := hd id (.here rfl)
    simp only [replaceValued]
    cases h1 : Dict.get? d₁ id <;> cases h2 : Dict.get? d₂ id <;> simp only [h1, h2, Option.map_none, Option.map_some, reduceCtorEq, Option.some.injEq] at h
    · simp only [pin]
      congr 1
      funext i
      exact ih i (fun v hv => hd v (.app i (fun hk => by obtain ⟨x, hx⟩ := Dict.get?_isSome.2 hk; rw [h1] at hx; cases hx) hv)) (hc.2 i)
    · simp only [pin, pinVal, h]
  | rv id dist n args ih =>
    have h := hd id (.here rfl)
    simp only [replaceValued]
    cases h1 : Dict.get? d₁ id <;> cases h2 : Dict.get? d₂ id <;> simp only [h1, h2, Option.map_none, Option.map_some, reduceCtorEq, Option.some.injEq] at h
    · simp only [pin]
      congr 1
      funext i
      exact ih i (fun v hv => hd v (.rv i (fun hk => by obtain ⟨x, hx⟩ := Dict.get?_isSome.2 hk; rw [h1] at hx; cases hx) hv)) (hc.2 i)
    · simp only [pin, pinVal, h]
  | valued => exact hc.elim

omit [IR.Normals Di] in
theorem pin_clone_local {e : Expr Di} (hd : ∀ v, Parent (· ∈ Dict.keys d₁) v e → (Dict.get? d₁ v).map ρ₁ = (Dict.get? d₂ v).map ρ₂) (hc : Closed defs e) :
    pin ρ₁ (cloneOf d₁ e) = pin ρ₂ (cloneOf d₂ e) := by
  cases e with
  | const _ => rfl
  | inp _ => rfl
  | app id k op n args =>
    simp only [cloneOf, pin]
    congr 1
    funext i
    exact pin_replace_local (fun v hv => hd v ⟨i, hv⟩) (hc.2 i)
  | rv id dist n args =>
    simp only [cloneOf, pin]
    congr 1
    funext i
    exact pin_replace_local (fun v hv => hd v ⟨i, hv⟩) (hc.2 i)
  | valued _ _ => exact hc.elim

omit [IR.Normals Di] in
/-- The nodes of the clone of a variable are clones of nodes with fewer parents. -/
theorem sub_local {d : Dict ℕ ℕ} {e : Expr Di} (hc : Closed defs e) {x : Expr Di} {id : ℕ} (hx : nodeId x = some id) :
    (Sub x (replaceValued d e) → ∃ e', defs id = some e' ∧ x = cloneOf d e' ∧ ∀ w, Parent (· ∈ Dict.keys d) w e' → Reads (· ∈ Dict.keys d) w e) ∧
    (Sub x (cloneOf d e) → ∃ e', defs id = some e' ∧ x = cloneOf d e' ∧ ∀ w, Parent (· ∈ Dict.keys d) w e' → Parent (· ∈ Dict.keys d) w e) := by
  induction e with
  | const c =>
    constructor <;>
    · intro h
      cases h
      cases hx
  | inp i =>
    constructor <;>
    · intro h
      cases h
      cases hx
  | app id' k op n args ih =>
    have h2 : Sub x (cloneOf d (.app id' k op n args)) → ∃ e', defs id = some e' ∧ x = cloneOf d e' ∧ ∀ w, Parent (· ∈ Dict.keys d) w e' → Parent (· ∈ Dict.keys d) w (.app id' k op n args) := by
      intro h
      cases h with
      | refl =>
        cases hx
        exact ⟨_, hc.1, rfl, fun _ h => h⟩
      | app i h =>
        obtain ⟨e', a1, a2, a3⟩ := (ih i (hc.2 i)).1 h
        exact ⟨e', a1, a2, fun w hw => ⟨i, a3 w hw⟩⟩
    refine ⟨fun h => ?_, h2⟩
    by_cases hv : HasValue (· ∈ Dict.keys d) (.app id' k op n args)
    · obtain ⟨v, hv⟩ := replaceValued_hasValue hv
      rw [hv] at h
      cases h
      cases hx
    · rw [replaceValued_eq_clone (id := id') rfl fun hk => hv ⟨id', rfl, hk⟩] at h
      obtain ⟨e', a1, a2, a3⟩ := h2 h
      exact ⟨e', a1, a2, fun w hw => (a3 w hw).reads hv⟩
  | rv id' dist n args ih =>
    have h2 : Sub x (cloneOf d (.rv id' dist n args)) → ∃ e', defs id = some e' ∧ x = cloneOf d e' ∧ ∀ w, Parent (· ∈ Dict.keys d) w e' → Parent (· ∈ Dict.keys d) w (.rv id' dist n args) := by
      intro h
      cases h with
      | refl =>
        cases hx
        exact ⟨_, hc.1, rfl, fun _ h => h⟩
      | rv i h =>
        obtain ⟨e', a1, a2, a3⟩ := (ih i (hc.2 i)).1 h
        exact ⟨e', a1, a2, fun w hw => ⟨i, a3 w hw⟩⟩
    refine ⟨fun h => ?_, h2⟩
    by_cases hv : HasValue (· ∈ Dict.keys d) (.rv id' dist n args)
    · obtain ⟨v, hv⟩ := replaceValued_hasValue hv
      rw [hv] at h
      cases h
      cases hx
    · rw [replaceValued_eq_clone (id := id') rfl fun hk => hv ⟨id', rfl, hk⟩] at h
      obtain ⟨e', a1, a2, a3⟩ := h2 h
      exact ⟨e', a1, a2, fun w hw => (a3 w hw).reads hv⟩
  | valued r v => exact hc.elim

omit [IR.Normals Di] in
theorem isMeas_congr {S S' : ℕ → Bool} {e : Expr Di} (h : ∀ id k op n args, Sub (.app id k op n args) e → S id = S' id) : isMeas S e = isMeas S' e := by
  cases e with
  | app id k op n args => exact h _ _ _ _ _ (.refl _)
  | _ => rfl

theorem measOf_congr {S S' : ℕ → Bool} : ∀ {e : Expr Di}, (∀ id k op n args, Sub (.app id k op n args) e → S id = S' id) → measOf S e = measOf S' e
  | .const _, _ => rfl
  | .inp _, _ => rfl
  | .rv id dist n args, _ => rfl
  | .valued r v, _ => rfl
  | .app id k op n args, h => by
    have ih := fun i => measOf_congr (e := args i) fun id k op n args' hs => h id k op n args' (.app i hs)
    have im := fun i => isMeas_congr (e := args i) fun id k op n args' hs => h id k op n args' (.app i hs)
    have hS := h _ _ _ _ _ (.refl _)
    cases op with
    | elem op => simp only [measOf, ih, im, hS]
    | clip =>
      rcases n with _ | _ | _ | _ | n <;> try rfl
      change measOf S (Expr.app id k Op.clip 3 args) = measOf S' (Expr.app id k Op.clip 3 args)
      simp only [measOf, ih, hS]
    | round r =>
      rcases n with _ | _ | n <;> try rfl
      change measOf S (Expr.app id k (Op.round r) 1 args) = measOf S' (Expr.app id k (Op.round r) 1 args)
      simp only [measOf, ih, hS]
    | switch =>
      rcases n with _ | _ | _ | _ | n <;> try rfl
      change measOf S (Expr.app id k Op.switch 3 args) = measOf S' (Expr.app id k Op.switch 3 args)
      simp only [measOf, ih, hS]
    | pick =>
      rcases n with _ | n <;> try rfl
      simp only [measOf, ih, hS]

/-- The nodes below a variable are converted in the same way in both requests. -/
theorem converted_local {kd : Di → Kind} {S₁ S₂ : ℕ → Bool} (hwf : WellFormed defs) (h₁ : Done kd defs d₁ S₁) (h₂ : Done kd defs d₂ S₂) {v : ℕ} {e : Expr Di} (he : defs v = some e)
    (hv₁ : v ∈ Dict.keys d₁) (hv₂ : v ∈ Dict.keys d₂) (hd : ∀ v, Parent (· ∈ Dict.keys d₁) v e → (Dict.get? d₁ v).map ρ₁ = (Dict.get? d₂ v).map ρ₂) {id k op n args}
    (hs : Sub (.app id k op n args) (pin ρ₁ (cloneOf d₁ e))) : S₁ id = S₂ id := by
  have hkeys : ∀ w, Parent (· ∈ Dict.keys d₁) w e → (w ∈ Dict.keys d₁ ↔ w ∈ Dict.keys d₂) := fun w hw => by
    have := congrArg Option.isSome (hd w hw)
    simp only [Option.isSome_map] at this
    rw [← Dict.get?_isSome, ← Dict.get?_isSome, ← Option.isSome_iff_exists, ← Option.isSome_iff_exists, this]
  obtain ⟨x₁, s1, p1⟩ := sub_of_pin hs rfl
  have hs2 := hs
  rw [pin_clone_local hd (hwf _ _ he).2] at hs2
  obtain ⟨x₂, s2, p2⟩ := sub_of_pin hs2 rfl
  have n1 : nodeId x₁ = some id := by rw [← nodeId_pin (ρ := ρ₁), ← p1]; rfl
  have n2 : nodeId x₂ = some id := by rw [← nodeId_pin (ρ := ρ₂), ← p2]; rfl
  obtain ⟨e₁, a1, a2, a3⟩ := (sub_local (hwf _ _ he).2 n1).2 s1
  obtain ⟨e₂, b1, b2, -⟩ := (sub_local (hwf _ _ he).2 n2).2 s2
  rw [a1] at b1
  cases b1
  have out : ∀ {d : Dict ℕ ℕ}, v ∈ Dict.keys d → cloneOf d e ∈ outputs defs d := by
    intro d hv
    obtain ⟨x, hx⟩ := Dict.get?_isSome.2 hv
    exact List.mem_filterMap.2 ⟨_, Dict.mem_of_get? hx, by rw [he]; rfl⟩
  have hc := (hwf _ _ a1).2
  have hm : ∀ {S : ℕ → Bool} {d : Dict ℕ ℕ}, Done kd defs d S → v ∈ Dict.keys d → Sub (cloneOf d e₁) (cloneOf d e) → (isMeas S (cloneOf d e₁) = true ↔ ∃ b, Derived (· ∈ Dict.keys d) kd b e₁) := by
    intro S d hD hv hs
    constructor
    · intro h
      obtain ⟨b, -, hb⟩ := hD.inv.derived hc h
      exact ⟨b, hb⟩
    · rintro ⟨b, hb⟩
      exact hD.complete hc (out hv) hs hb
  have m1 := hm h₁ hv₁ (a2 ▸ s1)
  have m2 := hm h₂ hv₂ (b2 ▸ s2)
  rw [← a2, ← isMeas_pin (ρ := ρ₁), ← p1] at m1
  rw [← b2, ← isMeas_pin (ρ := ρ₂), ← p2] at m2
  have hl : ∀ w, Parent (· ∈ Dict.keys d₁) w e₁ → (w ∈ Dict.keys d₁ ↔ w ∈ Dict.keys d₂) := fun w hw => hkeys w (a3 w hw)
  have hl' : ∀ w, Parent (· ∈ Dict.keys d₂) w e₁ → (w ∈ Dict.keys d₂ ↔ w ∈ Dict.keys d₁) := fun w hw => (hl w (parent_congr hw hl)).symm
  have : S₁ id = true ↔ S₂ id = true := by
    refine m1.trans (Iff.trans ⟨?_, ?_⟩ m2.symm)
    · rintro ⟨b, hb⟩
      exact ⟨b, derived_local hb hl⟩
    · rintro ⟨b, hb⟩
      exact ⟨b, derived_local hb hl'⟩
  exact Bool.eq_iff_iff.2 this

/-! ## Terms -/

section
variable {kd : Di → Kind} {hasCdf : Di → Bool} {rvs₁ clones₁ rvs₂ clones₂ : List ℕ} {realized₁ realized₂ : Dict ℕ ℕ} {S₁ S₂ : ℕ → Bool}

omit [IR.Normals Di] in
theorem Request.mem {rvs clones : List ℕ} {realized : Dict ℕ ℕ} (h : Request defs rvs clones realized) (v : ℕ) : v ∈ Dict.keys (rvValues rvs clones realized) ↔ v ∈ rvs ∨ v ∈ Dict.keys realized := by
  rw [rvValues, Dict.mem_keys_update, Dict.mem_keys_ofList, List.map_fst_zip h.len.ge]

omit [IR.Normals Di] in
theorem SameAt.get (q₁ : Request defs rvs₁ clones₁ realized₁) (q₂ : Request defs rvs₂ clones₂ realized₂) {v : ℕ} (h : SameAt ρ₁ ρ₂ rvs₁ clones₁ realized₁ rvs₂ clones₂ realized₂ v) :
    (Dict.get? (rvValues rvs₁ clones₁ realized₁) v).map ρ₁ = (Dict.get? (rvValues rvs₂ clones₂ realized₂) v).map ρ₂ := by
  simp only [SameAt, ← given_iff q₁.nodup q₁.keys, ← given_iff q₂.nodup q₂.keys] at h
  cases h1 : Dict.get? (rvValues rvs₁ clones₁ realized₁) v with
  | some x =>
    obtain ⟨x', hx', hy⟩ := (h (ρ₁ x)).1 ⟨x, h1, rfl⟩
    rw [hx', Option.map_some, Option.map_some, hy]
  | none =>
    cases h2 : Dict.get? (rvValues rvs₂ clones₂ realized₂) v with
    | none => rfl
    | some x =>
      obtain ⟨x', hx', -⟩ := (h (ρ₂ x)).2 ⟨x, h2, rfl⟩
      rw [h1] at hx'
      cases hx'

/-- **C129** (locality) If two calls of `conditional_logprob` return, and they agree on the value of `v` and on the nodes met on the way back from `v` to the first variables with values, then the terms of `v` have
the same value: other requested variables, and the values of those further back, make no difference. -/
theorem C129_term (reg : Registry Di) (ω : ℕ → Di → List FVal → FVal) (hN : ∀ dist, IR.Normals.isNormal dist = true → hasCdf dist = true) (hwf : WellFormed defs)
    (q₁ : Request defs rvs₁ clones₁ realized₁) (q₂ : Request defs rvs₂ clones₂ realized₂) (h₁ : Run kd (outputs defs (rvValues rvs₁ clones₁ realized₁)) S₁)
    (h₂ : Run kd (outputs defs (rvValues rvs₂ clones₂ realized₂)) S₂) {terms₁ terms₂ : Dict ℕ (Term Di)} {vvs₁ vvs₂ : List ℕ} (hok₁ : conditional hasCdf S₁ defs rvs₁ clones₁ realized₁ = .ok (terms₁, vvs₁))
    (hok₂ : conditional hasCdf S₂ defs rvs₂ clones₂ realized₂ = .ok (terms₂, vvs₂)) {v : ℕ} {e : Expr Di} (he : defs v = some e) (hv : v ∈ rvs₁ ∨ v ∈ Dict.keys realized₁)
    (hsame : SameAt ρ₁ ρ₂ rvs₁ clones₁ realized₁ rvs₂ clones₂ realized₂ v)
    (hpar : ∀ w, Parent (fun w => w ∈ rvs₁ ∨ w ∈ Dict.keys realized₁) w e → SameAt ρ₁ ρ₂ rvs₁ clones₁ realized₁ rvs₂ clones₂ realized₂ w) (hin : SameInputs ρ₁ ρ₂ e) :
    ∃ t₁ t₂, Dict.get? terms₁ v = some t₁ ∧ Dict.get? terms₂ v = some t₂ ∧ t₁.eval reg kd ρ₁ ω = t₂.eval reg kd ρ₂ ω := by
  obtain ⟨x₁, e', m₁, hx₁, he', hm₁, ht₁⟩ := term_of hN hwf q₁.len q₁.defined h₁ hok₁ hv
  rw [he] at he'
  cases he'
  have hx := hsame.get q₁ q₂
  rw [hx₁, Option.map_some] at hx
  obtain ⟨x₂, hx₂, hx⟩ := Option.map_eq_some_iff.1 hx.symm
  have hk₁ : v ∈ Dict.keys (rvValues rvs₁ clones₁ realized₁) := (q₁.mem v).2 hv
  have hk₂ : v ∈ Dict.keys (rvValues rvs₂ clones₂ realized₂) := Dict.get?_isSome.1 ⟨_, hx₂⟩
  obtain ⟨x₂', e', m₂, hx₂', he', hm₂, ht₂⟩ := term_of hN hwf q₂.len q₂.defined h₂ hok₂ ((q₂.mem v).1 hk₂)
  rw [he] at he'
  cases he'
  rw [hx₂] at hx₂'
  cases hx₂'
  refine ⟨_, _, ht₁, ht₂, ?_⟩
  rw [Term.eval, Term.eval]
  have hR : (· ∈ Dict.keys (rvValues rvs₁ clones₁ realized₁)) = fun w => w ∈ rvs₁ ∨ w ∈ Dict.keys realized₁ := funext fun w => propext (q₁.mem w)
  have hd : ∀ w, Parent (· ∈ Dict.keys (rvValues rvs₁ clones₁ realized₁)) w e → (Dict.get? (rvValues rvs₁ clones₁ realized₁) w).map ρ₁ = (Dict.get? (rvValues rvs₂ clones₂ realized₂) w).map ρ₂ :=
    fun w hw => (hpar w (hR ▸ hw)).get q₁ q₂
  have hp := measOf_pin (ρ := ρ₁) S₁ (cloneOf (rvValues rvs₁ clones₁ realized₁) e)
  have hp' := measOf_pin (ρ := ρ₂) S₂ (cloneOf (rvValues rvs₂ clones₂ realized₂) e)
  have hall := measOf_all (ρ₁ := ρ₁) (ρ₂ := ρ₂) S₂ (sameInputs_clone (ρ := ρ₂) (d := rvValues rvs₂ clones₂ realized₂) (hwf _ _ he).2 hin) (by rw [hp', hm₂]; rfl)
  have hcg : measOf S₁ (pin ρ₁ (cloneOf (rvValues rvs₁ clones₁ realized₁) e)) = measOf S₂ (pin ρ₁ (cloneOf (rvValues rvs₁ clones₁ realized₁) e)) :=
    measOf_congr fun id k op n args hs => converted_local hwf (h₁.done hwf) (h₂.done hwf) he hk₁ hk₂ hd hs
  rw [hcg, pin_clone_local hd (hwf _ _ he).2, hp', hm₁, hm₂, Option.map_some, Option.map_some, Option.some.injEq] at hp
  have e1 := lp_pin (ρ := ρ₁) reg kd (fun e => eval ρ₁ ω (cleanup e)) m₁ (ρ₁ x₁)
  have e2 := lp_pin (ρ := ρ₂) reg kd (fun e => eval ρ₂ ω (cleanup e)) m₂ (ρ₂ x₂)
  simp only [eval_pin] at e1 e2
  simp only
  have e3 := lp_congr reg kd (ev := fun e => eval ρ₁ ω (cleanup e)) (ev' := fun e => eval ρ₂ ω (cleanup e)) (fun _ => rfl) (ρ₂ x₂) (hall.imp fun e he => eval_same he)
  rw [← e1, ← e2, ← hp, ← hx, e3]

/-! ## Separate parts -/

omit [IR.Normals Di] in
theorem Separate.symm {A B : ℕ → Prop} (h : Separate defs A B) : Separate defs B A := ⟨fun v hb ha => h.disjoint v ha hb, h.right, h.left⟩

/-- Everything requested in either. -/
theorem both_mem (q₁ : Request defs rvs₁ clones₁ realized₁) (w : ℕ) :
    (w ∈ rvs₁ ++ rvs₂ ∨ w ∈ Dict.keys (realized₁ ++ realized₂)) ↔ (w ∈ rvs₁ ∨ w ∈ Dict.keys realized₁) ∨ (w ∈ rvs₂ ∨ w ∈ Dict.keys realized₂) := by
  simp only [Dict.keys, List.map_append, List.mem_append]
  tauto

omit [IR.Normals Di] in
theorem Request.both (q₁ : Request defs rvs₁ clones₁ realized₁) (q₂ : Request defs rvs₂ clones₂ realized₂)
    (h : ∀ v, v ∈ rvs₁ ∨ v ∈ Dict.keys realized₁ → ¬ (v ∈ rvs₂ ∨ v ∈ Dict.keys realized₂)) : Request defs (rvs₁ ++ rvs₂) (clones₁ ++ clones₂) (realized₁ ++ realized₂) := by
  refine ⟨by simp [q₁.len, q₂.len], List.nodup_append.2 ⟨q₁.nodup, q₂.nodup, ?_⟩, ?_, ?_⟩
  · rintro a ha _ hb rfl
    exact h a (.inl ha) (.inl hb)
  · rw [Dict.keys, List.map_append]
    refine List.nodup_append.2 ⟨q₁.keys, q₂.keys, ?_⟩
    rintro a ha _ hb rfl
    exact h a (.inr ha) (.inr hb)
  · intro v hv
    simp only [Dict.keys, List.map_append, List.mem_append] at hv
    rcases hv with (hv | hv) | (hv | hv)
    exacts [q₁.defined v (.inl hv), q₂.defined v (.inl hv), q₁.defined v (.inr hv), q₂.defined v (.inr hv)]

omit [IR.Normals Di] in
theorem both_given (q₁ : Request defs rvs₁ clones₁ realized₁) {v x : ℕ} (h : ¬ (v ∈ rvs₂ ∨ v ∈ Dict.keys realized₂)) :
    Given (rvs₁ ++ rvs₂) (clones₁ ++ clones₂) (realized₁ ++ realized₂) v x ↔ Given rvs₁ clones₁ realized₁ v x := by
  have h1 : ∀ y, (v, y) ∉ realized₂ := fun y hy => h (.inr (List.mem_map.2 ⟨_, hy, rfl⟩))
  have h2 : (v, x) ∉ rvs₂.zip clones₂ := fun hy => h (.inl (List.of_mem_zip hy).1)
  rw [Given, Given, List.zip_append q₁.len.symm]
  simp only [List.mem_append, h1, h2, or_false]

omit [IR.Normals Di] in
theorem both_given' (q₁ : Request defs rvs₁ clones₁ realized₁) {v x : ℕ} (h : ¬ (v ∈ rvs₁ ∨ v ∈ Dict.keys realized₁)) :
    Given (rvs₁ ++ rvs₂) (clones₁ ++ clones₂) (realized₁ ++ realized₂) v x ↔ Given rvs₂ clones₂ realized₂ v x := by
  have h1 : ∀ y, (v, y) ∉ realized₁ := fun y hy => h (.inr (List.mem_map.2 ⟨_, hy, rfl⟩))
  have h2 : (v, x) ∉ rvs₁.zip clones₁ := fun hy => h (.inl (List.of_mem_zip hy).1)
  rw [Given, Given, List.zip_append q₁.len.symm]
  simp only [List.mem_append, h1, h2, false_or]

omit [IR.Normals Di] in
theorem sameInputs_refl : ∀ e : Expr Di, SameInputs ρ ρ e := by
  intro e
  induction e with
  | const => trivial
  | inp i => exact rfl
  | app _ _ _ _ _ ih => exact fun i => ih i
  | rv _ _ _ _ ih => exact fun i => ih i
  | valued _ _ _ ih => exact ih

/-- Made as it should be, among others. -/
theorem made_more {A B AB : ℕ → Prop} (hs : Separate defs A B) (hAB : ∀ w, AB w ↔ A w ∨ B w) {v : ℕ} {e : Expr Di} (hv : A v) (he : defs v = some e) :
    ((∃ b, Derived AB kd b e) ∧ Buildable AB hasCdf e) ↔ (∃ b, Derived A kd b e) ∧ Buildable A hasCdf e := by
  have ha : ∀ w, Parent A w e → (A w ↔ AB w) := fun w hw => by
    rw [hAB]
    exact ⟨.inl, fun h => h.resolve_right fun hb => hs.left v e w hv he hb hw⟩
  have ha' : ∀ w, Parent AB w e → (AB w ↔ A w) := fun w hw => (ha w (parent_congr hw ha)).symm
  constructor
  · rintro ⟨⟨b, h1⟩, h2⟩
    exact ⟨⟨b, derived_local h1 ha'⟩, buildable_local h1 ha' h2⟩
  · rintro ⟨⟨b, h1⟩, h2⟩
    exact ⟨⟨b, derived_local h1 ha⟩, buildable_local h1 ha h2⟩

/-- **C129** (separate parts, outcome) `conditional_logprob` returns for two separate requests together exactly if it does for each of them. -/
theorem C129_separate_outcome_partial (hN : ∀ dist, IR.Normals.isNormal dist = true → hasCdf dist = true) (hwf : WellFormed defs) (q₁ : Request defs rvs₁ clones₁ realized₁)
    (q₂ : Request defs rvs₂ clones₂ realized₂) (hs : Separate defs (fun w => w ∈ rvs₁ ∨ w ∈ Dict.keys realized₁) fun w => w ∈ rvs₂ ∨ w ∈ Dict.keys realized₂) {S : ℕ → Bool}
    (h : Run kd (outputs defs (rvValues (rvs₁ ++ rvs₂) (clones₁ ++ clones₂) (realized₁ ++ realized₂))) S) (h₁ : Run kd (outputs defs (rvValues rvs₁ clones₁ realized₁)) S₁)
    (h₂ : Run kd (outputs defs (rvValues rvs₂ clones₂ realized₂)) S₂) :
    (∃ terms vvs, conditional hasCdf S defs (rvs₁ ++ rvs₂) (clones₁ ++ clones₂) (realized₁ ++ realized₂) = .ok (terms, vvs)) ↔
      (∃ terms vvs, conditional hasCdf S₁ defs rvs₁ clones₁ realized₁ = .ok (terms, vvs)) ∧ ∃ terms vvs, conditional hasCdf S₂ defs rvs₂ clones₂ realized₂ = .ok (terms, vvs) := by
  have q := q₁.both q₂ hs.disjoint
  rw [(C99_outcome hN hwf q.len q.defined h).1, (C99_outcome hN hwf q₁.len q₁.defined h₁).1, (C99_outcome hN hwf q₂.len q₂.defined h₂).1]
  have m := both_mem (rvs₂ := rvs₂) (realized₂ := realized₂) q₁
  constructor
  · intro hall
    exact ⟨fun v e hv he => (made_more hs m hv he).1 (hall v e ((m v).2 (.inl hv)) he), fun v e hv he => (made_more hs.symm (fun w => (m w).trans or_comm) hv he).1 (hall v e ((m v).2 (.inr hv)) he)⟩
  · rintro ⟨g₁, g₂⟩ v e hv he
    rcases (m v).1 hv with hv | hv
    exacts [(made_more hs m hv he).2 (g₁ v e hv he), (made_more hs.symm (fun w => (m w).trans or_comm) hv he).2 (g₂ v e hv he)]

theorem sumE_append : ∀ (a b : List (Except Err FVal)) (z : FVal), IR.sumE (a ++ b) = .ok z ↔ ∃ x y, IR.sumE a = .ok x ∧ IR.sumE b = .ok y ∧ z = x + y
  | [], b, z => by
    have h0 : ∀ y : FVal, 0 + y = y := fun y => by rw [fadd_comm, add_zero']
    constructor
    · exact fun h => ⟨0, z, rfl, h, (h0 z).symm⟩
    · rintro ⟨x, y, hx, hy, rfl⟩
      cases hx
      rw [List.nil_append, hy]
      exact congrArg _ (h0 y).symm
  | .error _ :: a, b, z => by simp [IR.sumE]
  | .ok u :: a, b, z => by
    have ih := sumE_append a b
    have hassoc : ∀ x y : FVal, u + (x + y) = u + x + y := fun x y => by
      rw [fadd_comm (u + x) y, fadd_left_comm y u x, fadd_comm y x]
    simp only [List.cons_append, IR.sumE]
    constructor
    · intro h
      split at h
      · cases h
      · rename_i w hw
        cases h
        obtain ⟨x, y, hx, hy, rfl⟩ := (ih w).1 hw
        exact ⟨u + x, y, by rw [hx], hy, hassoc x y⟩
    · rintro ⟨x, y, hx, hy, rfl⟩
      split at hx
      · cases hx
      · rename_i w hw
        cases hx
        rw [(ih (w + y)).2 ⟨w, y, hw, hy, rfl⟩]
        simp only [hassoc]

/-- **C129** (separate parts) The joint log-probability of two separate requests together is the sum of those of the two. -/
theorem C129_separate_sum_partial (reg : Registry Di) (ω : ℕ → Di → List FVal → FVal) (hN : ∀ dist, IR.Normals.isNormal dist = true → hasCdf dist = true) (hwf : WellFormed defs)
    (q₁ : Request defs rvs₁ clones₁ realized₁) (q₂ : Request defs rvs₂ clones₂ realized₂)
    (hs : Separate defs (fun w => w ∈ rvs₁ ∨ w ∈ Dict.keys realized₁) fun w => w ∈ rvs₂ ∨ w ∈ Dict.keys realized₂) {S : ℕ → Bool}
    (h : Run kd (outputs defs (rvValues (rvs₁ ++ rvs₂) (clones₁ ++ clones₂) (realized₁ ++ realized₂))) S) (h₁ : Run kd (outputs defs (rvValues rvs₁ clones₁ realized₁)) S₁)
    (h₂ : Run kd (outputs defs (rvValues rvs₂ clones₂ realized₂)) S₂) {j₁ j₂ : JointExpr (Term Di)} {vvs₁ vvs₂ : List ℕ} (hj₁ : joint hasCdf S₁ defs rvs₁ clones₁ realized₁ = .ok (some (j₁, vvs₁)))
    (hj₂ : joint hasCdf S₂ defs rvs₂ clones₂ realized₂ = .ok (some (j₂, vvs₂))) :
    ∃ j vvs, joint hasCdf S defs (rvs₁ ++ rvs₂) (clones₁ ++ clones₂) (realized₁ ++ realized₂) = .ok (some (j, vvs)) ∧
      ∀ ρ z, evalJoint reg kd ρ ω j = .ok z ↔ ∃ x y, evalJoint reg kd ρ ω j₁ = .ok x ∧ evalJoint reg kd ρ ω j₂ = .ok y ∧ z = x + y := by
  have q := q₁.both q₂ hs.disjoint
  have hcond : ∀ {S : ℕ → Bool} {rvs clones : List ℕ} {realized : Dict ℕ ℕ} {j : JointExpr (Term Di)} {vvs : List ℕ}, joint hasCdf S defs rvs clones realized = .ok (some (j, vvs)) →
      ∃ terms, terms ≠ [] ∧ conditional hasCdf S defs rvs clones realized = .ok (terms, vvs) := by
    intro S rvs clones realized j vvs hj
    simp only [joint, jointLogprob] at hj
    cases hc : conditionalLogprob (backend hasCdf S defs (rvValues rvs clones realized)) rvs clones realized with
    | error e => rw [hc] at hj; cases hj
    | ok r =>
      obtain ⟨terms, vvs⟩ := r
      rw [hc] at hj
      match terms, hj with
      | [(v, t)], hj => cases hj; exact ⟨_, by simp, hc⟩
      | a :: b :: l, hj => cases hj; exact ⟨_, by simp, hc⟩
  obtain ⟨terms₁, hne₁, hok₁⟩ := hcond hj₁
  obtain ⟨terms₂, hne₂, hok₂⟩ := hcond hj₂
  obtain ⟨terms, vvs, hok⟩ := (C129_separate_outcome_partial hN hwf q₁ q₂ hs h h₁ h₂).2 ⟨⟨_, _, hok₁⟩, ⟨_, _, hok₂⟩⟩
  have k₁ := C02_one_term_each (backend_contract hasCdf S₁ defs _).1 q₁.len hok₁
  have k₂ := C02_one_term_each (backend_contract hasCdf S₂ defs _).1 q₂.len hok₂
  have k := C02_one_term_each (backend_contract hasCdf S defs _).1 q.len hok
  have m := both_mem (rvs₂ := rvs₂) (realized₂ := realized₂) q₁
  have hnd : (Dict.keys (terms₁ ++ terms₂)).Nodup := by
    rw [Dict.keys, List.map_append]
    refine List.nodup_append.2 ⟨k₁.1, k₂.1, ?_⟩
    rintro a ha _ hb rfl
    exact hs.disjoint a ((k₁.2 a).1 ha) ((k₂.2 a).1 hb)
  have hget : ∀ ρ v, (Dict.get? terms v).map (fun t => t.eval reg kd ρ ω) = (Dict.get? (terms₁ ++ terms₂) v).map fun t => t.eval reg kd ρ ω := by
    intro ρ v
    by_cases hv : (v ∈ rvs₁ ∨ v ∈ Dict.keys realized₁) ∨ (v ∈ rvs₂ ∨ v ∈ Dict.keys realized₂)
    · obtain ⟨e, he⟩ := Option.isSome_iff_exists.1 (q.defined v ((m v).2 hv))
      rcases hv with hv | hv
      · obtain ⟨t₁, t, g₁, g, ht⟩ := C129_term (ρ₁ := ρ) (ρ₂ := ρ) reg ω hN hwf q₁ q h₁ h hok₁ hok he hv (fun y => by simp only [both_given q₁ (hs.disjoint v hv)])
          (fun w hw y => by simp only [both_given q₁ fun hb => hs.left v e w hv he hb hw]) (sameInputs_refl e)
        rw [g, Dict.get?_of_mem hnd (List.mem_append_left _ (Dict.mem_of_get? g₁)), Option.map_some, Option.map_some, ht]
      · obtain ⟨t₂, t, g₂, g, ht⟩ := C129_term (ρ₁ := ρ) (ρ₂ := ρ) reg ω hN hwf q₂ q h₂ h hok₂ hok he hv (fun y => by simp only [both_given' q₁ fun ha => hs.disjoint v ha hv])
          (fun w hw y => by simp only [both_given' q₁ fun ha => hs.right v e w hv he ha hw]) (sameInputs_refl e)
        rw [g, Dict.get?_of_mem hnd (List.mem_append_right _ (Dict.mem_of_get? g₂)), Option.map_some, Option.map_some, ht]
    · have e1 : Dict.get? terms v = none := by
        rw [Dict.get?_eq_none, k.2, m]
        exact hv
      have e2 : Dict.get? (terms₁ ++ terms₂) v = none := by
        rw [Dict.get?_eq_none, Dict.keys, List.map_append, List.mem_append]
        rintro (h | h)
        exacts [hv (.inl ((k₁.2 v).1 h)), hv (.inr ((k₂.2 v).1 h))]
      rw [e1, e2]
  have hperm := fun ρ => perm_of_get k.1 hnd (hget ρ)
  have hne : terms ≠ [] := by
    rintro rfl
    have := hperm fun _ => 0
    simp only [List.map_nil, List.nil_perm, List.map_eq_nil_iff, List.append_eq_nil_iff] at this
    exact hne₁ this.1
  obtain ⟨_, a1, a2⟩ := evalJoint_sum (kd := kd) reg hne₁ hok₁
  obtain ⟨_, b1, b2⟩ := evalJoint_sum (kd := kd) reg hne₂ hok₂
  obtain ⟨j, c1, c2⟩ := evalJoint_sum (kd := kd) reg hne hok
  rw [hj₁] at a1
  cases a1
  rw [hj₂] at b1
  cases b1
  refine ⟨j, vvs, c1, fun ρ z => ?_⟩
  rw [c2, a2, b2, ← sumE_append, ← List.map_append]
  exact ⟨sumE_perm (hperm ρ) z, sumE_perm (hperm ρ).symm z⟩

/-! ## With merging of equal nodes -/

omit [IR.Normals Di] in
theorem sameIn_local {a b : Expr Di} (h : SameIn R₁ a b) (ha : ∀ u, Reads R₁ u a → (R₁ u ↔ R₂ u)) (hb : ∀ u, Reads R₁ u b → (R₁ u ↔ R₂ u)) : SameIn R₂ a b := by
  induction h with
  | refl => exact .refl _
  | app h1 h2 _ ih =>
    exact .app (fun h => h1 ((ha _ (.here rfl)).2 h)) (fun h => h2 ((hb _ (.here rfl)).2 h)) fun i => ih i (fun u hu => ha u (.app i h1 hu)) fun u hu => hb u (.app i h2 hu)

omit [IR.Normals Di] in
theorem sameNode_local {a b : Expr Di} (h : SameNode R₁ a b) (ha : ∀ u, Parent R₁ u a → (R₁ u ↔ R₂ u)) (hb : ∀ u, Parent R₁ u b → (R₁ u ↔ R₂ u)) : SameNode R₂ a b := by
  cases h with
  | app h => exact .app fun i => sameIn_local (h i) (fun u hu => ha u ⟨i, hu⟩) fun u hu => hb u ⟨i, hu⟩

omit [IR.Normals Di] in
theorem noTwins_more {A B AB : ℕ → Prop} (hs : Separate defs A B) (hAB : ∀ w, AB w ↔ A w ∨ B w) :
    NoTwins defs AB ↔ NoTwins defs A ∧ NoTwins defs B ∧ ∀ v w e f, A v → B w → defs v = some e → defs w = some f → ¬ SameNode AB e f := by
  have agree : ∀ {A B : ℕ → Prop}, Separate defs A B → (∀ w, AB w ↔ A w ∨ B w) → ∀ {v e}, A v → defs v = some e → ∀ w, Parent A w e → (A w ↔ AB w) := by
    intro A B hs hAB v e hv he w hw
    rw [hAB]
    exact ⟨.inl, fun h => h.resolve_right fun hb => hs.left v e w hv he hb hw⟩
  have agree' : ∀ {A B : ℕ → Prop}, Separate defs A B → (∀ w, AB w ↔ A w ∨ B w) → ∀ {v e}, A v → defs v = some e → ∀ w, Parent AB w e → (AB w ↔ A w) := by
    intro A B hs hAB v e hv he w hw
    exact (agree hs hAB hv he w (parent_congr hw (agree hs hAB hv he))).symm
  have hBA : ∀ w, AB w ↔ B w ∨ A w := fun w => (hAB w).trans or_comm
  constructor
  · intro h
    refine ⟨fun v w e f hv hw hvw he hf hn => ?_, fun v w e f hv hw hvw he hf hn => ?_, fun v w e f hv hw he hf => ?_⟩
    · exact h v w e f ((hAB v).2 (.inl hv)) ((hAB w).2 (.inl hw)) hvw he hf (sameNode_local hn (agree hs hAB hv he) (agree hs hAB hw hf))
    · exact h v w e f ((hAB v).2 (.inr hv)) ((hAB w).2 (.inr hw)) hvw he hf (sameNode_local hn (agree hs.symm hBA hv he) (agree hs.symm hBA hw hf))
    · exact h v w e f ((hAB v).2 (.inl hv)) ((hAB w).2 (.inr hw)) (fun h => hs.disjoint v hv (h ▸ hw)) he hf
  · rintro ⟨h1, h2, h3⟩ v w e f hv hw hvw he hf hn
    rcases (hAB v).1 hv with hv | hv <;> rcases (hAB w).1 hw with hw | hw
    · exact h1 v w e f hv hw hvw he hf (sameNode_local hn (agree' hs hAB hv he) (agree' hs hAB hw hf))
    · exact h3 v w e f hv hw he hf hn
    · refine h3 w v f e hw hv hf he ?_
      have hsym : ∀ {a b : Expr Di}, SameIn AB a b → SameIn AB b a := by
        intro a b h
        induction h with
        | refl => exact .refl _
        | app h1 h2 _ ih => exact .app h2 h1 ih
      cases hn with
      | app h => exact .app fun i => hsym (h i)
    · exact h2 v w e f hv hw hvw he hf (sameNode_local hn (agree' hs.symm hBA hv he) (agree' hs.symm hBA hw hf))

/-- Merging makes no difference when `conditional_logprob` returns. -/
theorem merged_eq (hN : ∀ dist, IR.Normals.isNormal dist = true → hasCdf dist = true) (hwf : WellFormed defs) {rvs clones : List ℕ} {realized : Dict ℕ ℕ} (q : Request defs rvs clones realized) {S : ℕ → Bool}
    (hrun : Run kd (outputs defs (rvValues rvs clones realized)) S) {r : Dict ℕ (Term Di) × List ℕ} (h : conditionalM hasCdf S defs rvs clones realized = .ok r) :
    mergedBackend hasCdf S defs (rvValues rvs clones realized) = backend hasCdf S defs (rvValues rvs clones realized) := by
  have hnt := ((C121_outcome hN hwf q.len q.defined hrun).1 ⟨r.1, r.2, h⟩).2
  have hkd : (fun w => w ∈ rvs ∨ w ∈ Dict.keys realized) = (· ∈ Dict.keys (rvValues rvs clones realized)) := funext fun w => propext (q.mem w).symm
  exact mergedBackend_eq hasCdf S (rep_id hwf (fun v hv => q.defined v ((q.mem v).1 hv)) (hkd ▸ hnt))

/-- **C129** (locality, with merging of equal nodes) As `C129_term`. -/
theorem C129_term_merged (reg : Registry Di) (ω : ℕ → Di → List FVal → FVal) (hN : ∀ dist, IR.Normals.isNormal dist = true → hasCdf dist = true) (hwf : WellFormed defs)
    (q₁ : Request defs rvs₁ clones₁ realized₁) (q₂ : Request defs rvs₂ clones₂ realized₂) (h₁ : Run kd (outputs defs (rvValues rvs₁ clones₁ realized₁)) S₁)
    (h₂ : Run kd (outputs defs (rvValues rvs₂ clones₂ realized₂)) S₂) {terms₁ terms₂ : Dict ℕ (Term Di)} {vvs₁ vvs₂ : List ℕ} (hok₁ : conditionalM hasCdf S₁ defs rvs₁ clones₁ realized₁ = .ok (terms₁, vvs₁))
    (hok₂ : conditionalM hasCdf S₂ defs rvs₂ clones₂ realized₂ = .ok (terms₂, vvs₂)) {v : ℕ} {e : Expr Di} (he : defs v = some e) (hv : v ∈ rvs₁ ∨ v ∈ Dict.keys realized₁)
    (hsame : SameAt ρ₁ ρ₂ rvs₁ clones₁ realized₁ rvs₂ clones₂ realized₂ v)
    (hpar : ∀ w, Parent (fun w => w ∈ rvs₁ ∨ w ∈ Dict.keys realized₁) w e → SameAt ρ₁ ρ₂ rvs₁ clones₁ realized₁ rvs₂ clones₂ realized₂ w) (hin : SameInputs ρ₁ ρ₂ e) :
    ∃ t₁ t₂, Dict.get? terms₁ v = some t₁ ∧ Dict.get? terms₂ v = some t₂ ∧ t₁.eval reg kd ρ₁ ω = t₂.eval reg kd ρ₂ ω := by
  have e₁ := merged_eq hN hwf q₁ h₁ hok₁
  have e₂ := merged_eq hN hwf q₂ h₂ hok₂
  rw [conditionalM, e₁] at hok₁
  rw [conditionalM, e₂] at hok₂
  exact C129_term reg ω hN hwf q₁ q₂ h₁ h₂ hok₁ hok₂ he hv hsame hpar hin

/-- **C129** (separate parts, outcome, with merging of equal nodes) `conditional_logprob` returns for two separate requests together exactly if it does for each of them, and no variable of one is made in the same way
as one of the other. -/
theorem C129_merged_outcome (hN : ∀ dist, IR.Normals.isNormal dist = true → hasCdf dist = true) (hwf : WellFormed defs) (q₁ : Request defs rvs₁ clones₁ realized₁)
    (q₂ : Request defs rvs₂ clones₂ realized₂) (hs : Separate defs (fun w => w ∈ rvs₁ ∨ w ∈ Dict.keys realized₁) fun w => w ∈ rvs₂ ∨ w ∈ Dict.keys realized₂) {S : ℕ → Bool}
    (h : Run kd (outputs defs (rvValues (rvs₁ ++ rvs₂) (clones₁ ++ clones₂) (realized₁ ++ realized₂))) S) (h₁ : Run kd (outputs defs (rvValues rvs₁ clones₁ realized₁)) S₁)
    (h₂ : Run kd (outputs defs (rvValues rvs₂ clones₂ realized₂)) S₂) :
    (∃ terms vvs, conditionalM hasCdf S defs (rvs₁ ++ rvs₂) (clones₁ ++ clones₂) (realized₁ ++ realized₂) = .ok (terms, vvs)) ↔
      (∃ terms vvs, conditionalM hasCdf S₁ defs rvs₁ clones₁ realized₁ = .ok (terms, vvs)) ∧ (∃ terms vvs, conditionalM hasCdf S₂ defs rvs₂ clones₂ realized₂ = .ok (terms, vvs)) ∧
      ∀ v w e f, v ∈ rvs₁ ∨ v ∈ Dict.keys realized₁ → w ∈ rvs₂ ∨ w ∈ Dict.keys realized₂ → defs v = some e → defs w = some f →
        ¬ SameNode (fun u => (u ∈ rvs₁ ∨ u ∈ Dict.keys realized₁) ∨ (u ∈ rvs₂ ∨ u ∈ Dict.keys realized₂)) e f := by
  have q := q₁.both q₂ hs.disjoint
  have m := both_mem (rvs₂ := rvs₂) (realized₂ := realized₂) q₁
  have hAB : (fun w => w ∈ rvs₁ ++ rvs₂ ∨ w ∈ Dict.keys (realized₁ ++ realized₂)) = fun u => (u ∈ rvs₁ ∨ u ∈ Dict.keys realized₁) ∨ (u ∈ rvs₂ ∨ u ∈ Dict.keys realized₂) := funext fun w => propext (m w)
  have hout := C129_separate_outcome_partial (hasCdf := hasCdf) hN hwf q₁ q₂ hs h h₁ h₂
  rw [(C99_outcome hN hwf q.len q.defined h).1, (C99_outcome hN hwf q₁.len q₁.defined h₁).1, (C99_outcome hN hwf q₂.len q₂.defined h₂).1] at hout
  rw [C121_outcome hN hwf q.len q.defined h, C121_outcome hN hwf q₁.len q₁.defined h₁, C121_outcome hN hwf q₂.len q₂.defined h₂, hout, hAB, noTwins_more hs fun _ => Iff.rfl]
  tauto

/-- **C129** (separate parts, with merging of equal nodes) The joint log-probability of two separate requests together is the sum of those of the two, if no variable of one is made in the same way as one of the other. -/
theorem C129_merged_sum (reg : Registry Di) (ω : ℕ → Di → List FVal → FVal) (hN : ∀ dist, IR.Normals.isNormal dist = true → hasCdf dist = true) (hwf : WellFormed defs)
    (q₁ : Request defs rvs₁ clones₁ realized₁) (q₂ : Request defs rvs₂ clones₂ realized₂)
    (hs : Separate defs (fun w => w ∈ rvs₁ ∨ w ∈ Dict.keys realized₁) fun w => w ∈ rvs₂ ∨ w ∈ Dict.keys realized₂)
    (hno : ∀ v w e f, v ∈ rvs₁ ∨ v ∈ Dict.keys realized₁ → w ∈ rvs₂ ∨ w ∈ Dict.keys realized₂ → defs v = some e → defs w = some f →
      ¬ SameNode (fun u => (u ∈ rvs₁ ∨ u ∈ Dict.keys realized₁) ∨ (u ∈ rvs₂ ∨ u ∈ Dict.keys realized₂)) e f) {S : ℕ → Bool}
    (h : Run kd (outputs defs (rvValues (rvs₁ ++ rvs₂) (clones₁ ++ clones₂) (realized₁ ++ realized₂))) S) (h₁ : Run kd (outputs defs (rvValues rvs₁ clones₁ realized₁)) S₁)
    (h₂ : Run kd (outputs defs (rvValues rvs₂ clones₂ realized₂)) S₂) {j₁ j₂ : JointExpr (Term Di)} {vvs₁ vvs₂ : List ℕ} (hj₁ : jointM hasCdf S₁ defs rvs₁ clones₁ realized₁ = .ok (some (j₁, vvs₁)))
    (hj₂ : jointM hasCdf S₂ defs rvs₂ clones₂ realized₂ = .ok (some (j₂, vvs₂))) :
    ∃ j vvs, jointM hasCdf S defs (rvs₁ ++ rvs₂) (clones₁ ++ clones₂) (realized₁ ++ realized₂) = .ok (some (j, vvs)) ∧
      ∀ ρ z, evalJoint reg kd ρ ω j = .ok z ↔ ∃ x y, evalJoint reg kd ρ ω j₁ = .ok x ∧ evalJoint reg kd ρ ω j₂ = .ok y ∧ z = x + y := by
  have hcond : ∀ {S : ℕ → Bool} {rvs clones : List ℕ} {realized : Dict ℕ ℕ} {r : JointExpr (Term Di) × List ℕ}, jointM hasCdf S defs rvs clones realized = .ok (some r) →
      ∃ r', conditionalM hasCdf S defs rvs clones realized = .ok r' := by
    intro S rvs clones realized r hj
    simp only [jointM, jointLogprob] at hj
    cases hc : conditionalLogprob (mergedBackend hasCdf S defs (rvValues rvs clones realized)) rvs clones realized with
    | error e => rw [hc] at hj; cases hj
    | ok r => exact ⟨r, hc⟩
  have q := q₁.both q₂ hs.disjoint
  obtain ⟨r₁, hr₁⟩ := hcond hj₁
  obtain ⟨r₂, hr₂⟩ := hcond hj₂
  obtain ⟨t, w, hr⟩ := (C129_merged_outcome hN hwf q₁ q₂ hs h h₁ h₂).2 ⟨⟨r₁.1, r₁.2, hr₁⟩, ⟨r₂.1, r₂.2, hr₂⟩, hno⟩
  rw [jointM, merged_eq hN hwf q₁ h₁ hr₁] at hj₁
  rw [jointM, merged_eq hN hwf q₂ h₂ hr₂] at hj₂
  rw [jointM, merged_eq hN hwf q h hr]
  exact C129_separate_sum_partial reg ω hN hwf q₁ q₂ hs h h₁ h₂ hj₁ hj₂

end

/-! ## Examples: the mixture `Z` and the variable `V` of `Props/Full.lean` -/

end Verif.Full

namespace Verif.Full.LocalDemo
open Verif Cond Demo

theorem request {rvs clones : List ℕ} (h : clones.length = rvs.length) (hn : rvs.Nodup) (hlt : ∀ v ∈ rvs, v < 11) : Request defs rvs clones [] := by
  refine ⟨h, hn, by simp [Dict.keys], fun v hv => ?_⟩
  have := hlt v (by simpa [Dict.keys] using hv)
  interval_cases v <;> rfl

theorem noReads {R : ℕ → Prop} {w : ℕ} (x : FVal) : ¬ Reads R w (.const x : Expr Bool) := by
  rintro (h | h | h)
  cases h

theorem reads_X {R : ℕ → Prop} {w : ℕ} (h : Reads R w X) : w = 0 := by
  cases h with
  | here h => cases h; rfl
  | rv i _ h => fin_cases i <;> exact absurd h (noReads _)

theorem reads_Z {R : ℕ → Prop} {w : ℕ} (h : Parent R w Z) : w ≤ 4 := by
  have hC : ∀ {w}, Reads R w C → w ≤ 1 := by
    intro w h
    cases h with
    | here h => cases h; rfl
    | app i _ h =>
      fin_cases i
      · rw [reads_X h]; omega
      · exact absurd h (noReads _)
      · exact absurd h (noReads _)
  have hY : ∀ {w}, Reads R w Y → w ≤ 3 := by
    intro w h
    cases h with
    | here h => cases h; rfl
    | rv i _ h =>
      fin_cases i
      · exact (hC h).trans (by omega)
      · exact absurd h (noReads _)
  obtain ⟨i, h⟩ := h
  fin_cases i
  · cases h with
    | here h => cases h; omega
    | rv i _ h =>
      fin_cases i
      exact absurd h (noReads _)
  · rw [reads_X h]; omega
  · cases h with
    | here h => cases h; rfl
    | app i _ h =>
      fin_cases i
      exact (hY h).trans (by omega)

theorem parent_V {R : ℕ → Prop} {w : ℕ} : ¬ Parent R w V := by
  rintro ⟨i, h⟩
  fin_cases i <;> exact absurd h (noReads _)

theorem separate : Separate defs (fun w => w ∈ [5] ∨ w ∈ Dict.keys ([] : Dict ℕ ℕ)) fun w => w ∈ [8] ∨ w ∈ Dict.keys ([] : Dict ℕ ℕ) := by
  simp only [Dict.keys, List.map_nil, List.not_mem_nil, or_false, List.mem_singleton]
  refine ⟨by omega, ?_, ?_⟩
  · rintro _ e _ rfl he rfl hp
    cases he
    have := reads_Z hp
    omega
  · rintro _ e _ rfl he rfl hp
    cases he
    exact parent_V hp

theorem made_Z : (∃ b, Derived (fun w => w ∈ [5] ∨ w ∈ Dict.keys ([] : Dict ℕ ℕ)) kd b Z) ∧ Buildable (fun w => w ∈ [5] ∨ w ∈ Dict.keys ([] : Dict ℕ ℕ)) (fun _ => true) Z := by
  refine ⟨⟨true, derived_Z (by simp [Dict.keys]) (by simp [Dict.keys]) (by simp [Dict.keys])⟩, .pick fun i => ?_⟩
  match i with
  | 0 => exact .rv ..
  | 1 => exact .elem 0 (fun h => by simp [Determined, Y, Dict.keys] at h) (.rv ..)

theorem one {v : ℕ} {e : Expr Bool} (he : defs v = some e) (hm : (∃ b, Derived (fun w => w ∈ [v] ∨ w ∈ Dict.keys ([] : Dict ℕ ℕ)) kd b e) ∧
    Buildable (fun w => w ∈ [v] ∨ w ∈ Dict.keys ([] : Dict ℕ ℕ)) (fun _ => true) e) {x : ℕ} (q : Request defs [v] [x] []) {S : ℕ → Bool} (hrun : Run kd (outputs defs (rvValues [v] [x] [])) S) :
    ∃ j vvs, joint (fun _ => true) S defs [v] [x] [] = .ok (some (j, vvs)) := by
  obtain ⟨terms, vvs, h⟩ := (C99_outcome (hasCdf := fun _ => true) (fun _ _ => rfl) wf q.len q.defined hrun).1.2 fun w f hw hf => by
    have hw : w = v := by simpa [Dict.keys] using hw
    subst hw
    rw [he] at hf
    cases hf
    exact hm
  have hk := (C02_one_term_each (backend_contract (fun _ => true) S defs _).1 q.len h).2 v
  have hne : terms ≠ [] := by
    rintro rfl
    simp [Dict.keys] at hk
  obtain ⟨j, hj, -⟩ := evalJoint_sum (kd := kd) ⟨fun _ _ _ => .error .notImplemented, fun _ _ _ => .error .notImplemented⟩ hne h
  exact ⟨j, vvs, hj⟩

theorem oneM {v : ℕ} {e : Expr Bool} (he : defs v = some e) (hm : (∃ b, Derived (fun w => w ∈ [v] ∨ w ∈ Dict.keys ([] : Dict ℕ ℕ)) kd b e) ∧
    Buildable (fun w => w ∈ [v] ∨ w ∈ Dict.keys ([] : Dict ℕ ℕ)) (fun _ => true) e) {x : ℕ} (q : Request defs [v] [x] []) {S : ℕ → Bool} (hrun : Run kd (outputs defs (rvValues [v] [x] [])) S) :
    ∃ j vvs, jointM (fun _ => true) S defs [v] [x] [] = .ok (some (j, vvs)) := by
  have hv : ∀ {w}, w ∈ [v] ∨ w ∈ Dict.keys ([] : Dict ℕ ℕ) → w = v := fun h => by simpa [Dict.keys] using h
  obtain ⟨terms, vvs, h⟩ := (C121_outcome (hasCdf := fun _ => true) (fun _ _ => rfl) wf q.len q.defined hrun).2 ⟨fun w f hw hf => by
    rw [hv hw, he] at hf
    cases hf
    exact hm, fun a b _ _ ha hb hab _ _ _ => hab ((hv ha).trans (hv hb).symm)⟩
  rw [jointM, merged_eq (fun _ _ => rfl) wf q hrun h]
  exact one he hm q hrun

/-- The joint log-probability of `Z` and `V`. -/
example (reg : Registry Bool) (ω : ℕ → Bool → List FVal → FVal) : ∃ S S₁ S₂ j vvs j₁ vvs₁ j₂ vvs₂, joint (fun _ => true) S defs [5, 8] [15, 18] [] = .ok (some (j, vvs)) ∧
    joint (fun _ => true) S₁ defs [5] [15] [] = .ok (some (j₁, vvs₁)) ∧ joint (fun _ => true) S₂ defs [8] [18] [] = .ok (some (j₂, vvs₂)) ∧
    ∀ ρ z, evalJoint reg kd ρ ω j = .ok z ↔ ∃ x y, evalJoint reg kd ρ ω j₁ = .ok x ∧ evalJoint reg kd ρ ω j₂ = .ok y ∧ z = x + y := by
  obtain ⟨S, h⟩ := exists_run kd (outputs defs (rvValues ([5] ++ [8]) ([15] ++ [18]) ([] ++ [])))
  obtain ⟨S₁, h₁⟩ := exists_run kd (outputs defs (rvValues [5] [15] []))
  obtain ⟨S₂, h₂⟩ := exists_run kd (outputs defs (rvValues [8] [18] []))
  have q₁ := request (rvs := [5]) (clones := [15]) rfl (by decide) (by simp)
  have q₂ := request (rvs := [8]) (clones := [18]) rfl (by decide) (by simp)
  obtain ⟨j₁, vvs₁, hj₁⟩ := one rfl made_Z q₁ h₁
  obtain ⟨j₂, vvs₂, hj₂⟩ := one (v := 8) rfl ⟨⟨false, .rv ..⟩, .rv ..⟩ q₂ h₂
  obtain ⟨j, vvs, hj, hx⟩ := C129_separate_sum_partial (hasCdf := fun _ => true) reg ω (fun _ _ => rfl) wf q₁ q₂ separate h h₁ h₂ hj₁ hj₂
  exact ⟨S, S₁, S₂, j, vvs, j₁, vvs₁, j₂, vvs₂, hj, hj₁, hj₂, hx⟩

/-- The joint log-probability of `Z` and `V`, with merging of equal nodes. -/
example (reg : Registry Bool) (ω : ℕ → Bool → List FVal → FVal) : ∃ S S₁ S₂ j vvs j₁ vvs₁ j₂ vvs₂, jointM (fun _ => true) S defs [5, 8] [15, 18] [] = .ok (some (j, vvs)) ∧
    jointM (fun _ => true) S₁ defs [5] [15] [] = .ok (some (j₁, vvs₁)) ∧ jointM (fun _ => true) S₂ defs [8] [18] [] = .ok (some (j₂, vvs₂)) ∧
    ∀ ρ z, evalJoint reg kd ρ ω j = .ok z ↔ ∃ x y, evalJoint reg kd ρ ω j₁ = .ok x ∧ evalJoint reg kd ρ ω j₂ = .ok y ∧ z = x + y := by
  obtain ⟨S, h⟩ := exists_run kd (outputs defs (rvValues ([5] ++ [8]) ([15] ++ [18]) ([] ++ [])))
  obtain ⟨S₁, h₁⟩ := exists_run kd (outputs defs (rvValues [5] [15] []))
  obtain ⟨S₂, h₂⟩ := exists_run kd (outputs defs (rvValues [8] [18] []))
  have q₁ := request (rvs := [5]) (clones := [15]) rfl (by decide) (by simp)
  have q₂ := request (rvs := [8]) (clones := [18]) rfl (by decide) (by simp)
  obtain ⟨j₁, vvs₁, hj₁⟩ := oneM rfl made_Z q₁ h₁
  obtain ⟨j₂, vvs₂, hj₂⟩ := oneM (v := 8) rfl ⟨⟨false, .rv ..⟩, .rv ..⟩ q₂ h₂
  obtain ⟨j, vvs, hj, hx⟩ := C129_merged_sum (hasCdf := fun _ => true) reg ω (fun _ _ => rfl) wf q₁ q₂ separate (fun v w e f hv hw he hf hn => by
    have hv : v = 5 := by simpa [Dict.keys] using hv
    have hw : w = 8 := by simpa [Dict.keys] using hw
    subst hv hw
    cases he
    cases hf
    cases hn) h h₁ h₂ hj₁ hj₂
  exact ⟨S, S₁, S₂, j, vvs, j₁, vvs₁, j₂, vvs₂, hj, hj₁, hj₂, hx⟩

/-- The term of `Z`, with and without `V`. -/
example (reg : Registry Bool) (ω : ℕ → Bool → List FVal → FVal) {S S₁ : ℕ → Bool} (h₁ : Run kd (outputs defs (rvValues [5] [15] [])) S₁) (h : Run kd (outputs defs (rvValues [5, 8] [15, 18] [])) S)
    {terms₁ terms : Dict ℕ (Term Bool)} {vvs₁ vvs : List ℕ} (hok₁ : conditional (fun _ => true) S₁ defs [5] [15] [] = .ok (terms₁, vvs₁)) (hok : conditional (fun _ => true) S defs [5, 8] [15, 18] [] = .ok (terms, vvs))
    (ρ : ℕ → FVal) : ∃ t₁ t, Dict.get? terms₁ 5 = some t₁ ∧ Dict.get? terms 5 = some t ∧ t₁.eval reg kd ρ ω = t.eval reg kd ρ ω := by
  have q₁ := request (rvs := [5]) (clones := [15]) rfl (by decide) (by simp)
  have q := request (rvs := [5, 8]) (clones := [15, 18]) rfl (by decide) (by simp)
  refine C129_term (v := 5) (e := Z) reg ω (fun _ _ => rfl) wf q₁ q h₁ h hok₁ hok rfl (.inl (by simp)) (fun y => ?_) (fun w hw y => ?_) (sameInputs_refl Z)
  · simp [Given]
  · have := reads_Z hw
    have h5 : w ≠ 5 := by omega
    have h8 : w ≠ 8 := by omega
    simp [Given, h5, h8]

/-- **C129** (wrong) Two variables made in the same way: each alone has a joint log-probability, together they raise `ValueError`. -/
theorem C129_twins_wrong {S S₁ S₂ : ℕ → Bool} (h : Run kd (outputs DemoTwins.defs (rvValues [1, 2] [11, 12] [])) S) (h₁ : Run kd (outputs DemoTwins.defs (rvValues [1] [11] [])) S₁)
    (h₂ : Run kd (outputs DemoTwins.defs (rvValues [2] [12] [])) S₂) :
    Separate DemoTwins.defs (· = 1) (· = 2) ∧ (∃ r, conditionalM (fun _ => true) S₁ DemoTwins.defs [1] [11] [] = .ok r) ∧ (∃ r, conditionalM (fun _ => true) S₂ DemoTwins.defs [2] [12] [] = .ok r) ∧
      conditionalM (fun _ => true) S DemoTwins.defs [1, 2] [11, 12] [] = .error .valueError := by
  have hX : ∀ {R : ℕ → Prop} {w}, Reads R w DemoTwins.X → w = 0 := by
    intro R w h
    cases h with
    | here h => cases h; rfl
    | rv i _ h => fin_cases i <;> exact absurd h (noReads _)
  have hP : ∀ {R : ℕ → Prop} {w}, (Parent R w DemoTwins.A → w = 0) ∧ (Parent R w DemoTwins.B → w = 0) := by
    intro R w
    constructor <;>
    · rintro ⟨i, h⟩
      fin_cases i
      · exact hX h
      · exact absurd h (noReads _)
      · exact absurd h (noReads _)
  refine ⟨⟨by omega, ?_, ?_⟩, ?_, ?_, ?_⟩
  · rintro _ e _ rfl he rfl hp
    cases he
    exact absurd (hP.1 hp) (by decide)
  · rintro _ e _ rfl he rfl hp
    cases he
    exact absurd (hP.2 hp) (by decide)
  · obtain ⟨t, w, h⟩ := (C121_outcome (hasCdf := fun _ => true) (fun _ _ => rfl) DemoTwins.wf (rvs := [1]) (clones := [11]) (realized := []) rfl (by simp [Dict.keys, DemoTwins.defs, Dict.get?]) h₁).2
      ⟨fun v e hv he => DemoTwins.made _ (by simp [Dict.keys]) (.inl (by simpa [Dict.keys] using hv)) he, fun v w e f hv hw hvw _ _ _ => hvw (by
        simp only [List.mem_singleton, Dict.keys, List.map_nil, List.not_mem_nil, or_false] at hv hw
        rw [hv, hw])⟩
    exact ⟨_, h⟩
  · obtain ⟨t, w, h⟩ := (C121_outcome (hasCdf := fun _ => true) (fun _ _ => rfl) DemoTwins.wf (rvs := [2]) (clones := [12]) (realized := []) rfl (by simp [Dict.keys, DemoTwins.defs, Dict.get?]) h₂).2
      ⟨fun v e hv he => DemoTwins.made _ (by simp [Dict.keys]) (.inr (by simpa [Dict.keys] using hv)) he, fun v w e f hv hw hvw _ _ _ => hvw (by
        simp only [List.mem_singleton, Dict.keys, List.map_nil, List.not_mem_nil, or_false] at hv hw
        rw [hv, hw])⟩
    exact ⟨_, h⟩
  · refine C121_value_error (fun _ _ => rfl) DemoTwins.wf (rvs := [1, 2]) (clones := [11, 12]) (realized := []) rfl (by simp [Dict.keys, DemoTwins.defs, Dict.get?]) h
      (fun v e hv he => DemoTwins.made _ (by simp [Dict.keys]) (by simpa [Dict.keys] using hv) he) fun h => ?_
    exact h 1 2 DemoTwins.A DemoTwins.B (.inl (by simp)) (.inl (by simp)) (by decide) rfl rfl (.app fun i => .refl _)

end Verif.Full.LocalDemo
