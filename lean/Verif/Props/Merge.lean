import Verif.Model.Merge
import Verif.Spec.Merge
import Verif.Props.FullDensity

/-! # C121: two requested variables that are made in the same way -/

namespace Verif.Full
open Verif Cond MeasureTheory

variable {Di : Type} [IR.Normals Di]

section
variable {defs : ℕ → Option (Expr Di)} {d : Dict ℕ ℕ}

theorem get?_none_iff {v : ℕ} : Dict.get? d v = none ↔ v ∉ Dict.keys d := by
  rw [← Dict.get?_isSome]
  cases Dict.get? d v <;> simp

theorem sameIn_bare {a b : Expr Di} (h : SameIn (· ∈ Dict.keys d) a b) : bare (replaceValued d a) = bare (replaceValued d b) := by
  induction h with
  | refl => rfl
  | app h1 h2 _ ih =>
    simp only [replaceValued, get?_none_iff.mpr h1, get?_none_iff.mpr h2, bare]
    rw [funext ih]

theorem bare_sameIn {a : Expr Di} (ha : Closed defs a) : ∀ {b : Expr Di}, Closed defs b → bare (replaceValued d a) = bare (replaceValued d b) → SameIn (· ∈ Dict.keys d) a b := by
  induction a with
  | const x =>
    intro b hb h
    cases b with
    | const y => simp only [replaceValued, bare, Expr.const.injEq] at h; subst h; exact .refl _
    | inp i => simp [replaceValued, bare] at h
    | app id k op n args => cases hg : Dict.get? d id <;> simp [replaceValued, bare, hg] at h
    | rv id dist n args => cases hg : Dict.get? d id <;> simp [replaceValued, bare, hg] at h
    | valued r v => exact hb.elim
  | inp i =>
    intro b hb h
    cases b with
    | const y => simp [replaceValued, bare] at h
    | inp i => simp only [replaceValued, bare, Expr.inp.injEq] at h; subst h; exact .refl _
    | app id k op n args => cases hg : Dict.get? d id <;> simp [replaceValued, bare, hg] at h
    | rv id dist n args => cases hg : Dict.get? d id <;> simp [replaceValued, bare, hg] at h
    | valued r v => exact hb.elim
  | app id k op n args ih =>
    intro b hb h
    cases b with
    | const y => cases hg : Dict.get? d id <;> simp [replaceValued, bare, hg] at h
    | inp i => cases hg : Dict.get? d id <;> simp [replaceValued, bare, hg] at h
    | app id' k' op' n' args' =>
      cases hg : Dict.get? d id with
      | some x =>
        cases hg' : Dict.get? d id' with
        | some y =>
          simp only [replaceValued, hg, hg', bare, Expr.valued.injEq] at h
          rw [h.1]
          exact .refl _
        | none => simp [replaceValued, bare, hg, hg'] at h
      | none =>
        cases hg' : Dict.get? d id' with
        | some y => simp [replaceValued, bare, hg, hg'] at h
        | none =>
          simp only [replaceValued, hg, hg', bare, Expr.app.injEq, true_and] at h
          obtain ⟨rfl, rfl, rfl, h⟩ := h
          exact .app (get?_none_iff.mp hg) (get?_none_iff.mp hg') fun i => ih i (ha.2 i) (hb.2 i) (congrFun (eq_of_heq h) i)
    | rv id' dist n args => cases hg : Dict.get? d id <;> cases hg' : Dict.get? d id' <;> simp [replaceValued, bare, hg, hg'] at h
    | valued r v => exact hb.elim
  | rv id dist n args ih =>
    intro b hb h
    cases b with
    | const y => cases hg : Dict.get? d id <;> simp [replaceValued, bare, hg] at h
    | inp i => cases hg : Dict.get? d id <;> simp [replaceValued, bare, hg] at h
    | app id' k op n args => cases hg : Dict.get? d id <;> cases hg' : Dict.get? d id' <;> simp [replaceValued, bare, hg, hg'] at h
    | rv id' dist' n' args' =>
      have hid : id = id' := by
        cases hg : Dict.get? d id <;> cases hg' : Dict.get? d id' <;> simp [replaceValued, bare, hg, hg'] at h
        · exact h.1
        · exact h.1.1
      subst hid
      have := Option.some.inj (ha.1.symm.trans hb.1)
      rw [this]
      exact .refl _
    | valued r v => exact hb.elim
  | valued r v => exact ha.elim

theorem bare_clone {v w : ℕ} {e f : Expr Di} (hwf : WellFormed defs) (he : defs v = some e) (hf : defs w = some f) (hvw : v ≠ w) :
    bare (cloneOf d e) = bare (cloneOf d f) ↔ SameNode (· ∈ Dict.keys d) e f := by
  obtain ⟨e1, e2⟩ := hwf _ _ he
  obtain ⟨f1, f2⟩ := hwf _ _ hf
  constructor
  · intro h
    cases e with
    | const x => simp [nodeId] at e1
    | inp i => simp [nodeId] at e1
    | valued r x => exact e2.elim
    | app id k op n args =>
      cases f with
      | const x => simp [nodeId] at f1
      | inp i => simp [nodeId] at f1
      | valued r x => exact f2.elim
      | rv id' dist n' args' => simp [cloneOf, bare] at h
      | app id' k' op' n' args' =>
        simp only [cloneOf, bare, Expr.app.injEq, true_and] at h
        obtain ⟨rfl, rfl, rfl, h⟩ := h
        exact .app fun i => bare_sameIn (e2.2 i) (f2.2 i) (congrFun (eq_of_heq h) i)
    | rv id dist n args =>
      cases f with
      | const x => simp [nodeId] at f1
      | inp i => simp [nodeId] at f1
      | valued r x => exact f2.elim
      | app id' k' op' n' args' => simp [cloneOf, bare] at h
      | rv id' dist' n' args' =>
        simp only [cloneOf, bare, Expr.rv.injEq] at h
        simp only [nodeId, Option.some.injEq] at e1 f1
        exact absurd (e1.symm.trans (h.1.trans f1)) hvw
  · rintro ⟨h⟩
    simp only [cloneOf, bare]
    rw [funext fun i => sameIn_bare (h i)]

theorem merged_iff {v w : ℕ} {e f : Expr Di} (hwf : WellFormed defs) (he : defs v = some e) (hf : defs w = some f) (hvw : v ≠ w) :
    Merged defs d v w ↔ SameNode (· ∈ Dict.keys d) e f := by
  rw [Merged, he, hf, Option.map_some, Option.map_some, Option.some.injEq, bare_clone hwf he hf hvw]

theorem rep_key {v : ℕ} (hv : v ∈ Dict.keys d) : rep defs d v ∈ Dict.keys d ∧ Merged defs d v (rep defs d v) := by
  classical
  rw [rep, if_pos hv]
  cases h : (Dict.keys d).find? fun w => decide (Merged defs d v w) with
  | none => exact absurd (show Merged defs d v v from rfl) (by simpa using List.find?_eq_none.mp h v hv)
  | some w => exact ⟨List.mem_of_find?_eq_some h, by simpa using List.find?_some h⟩

theorem rep_eq {v w : ℕ} (hv : v ∈ Dict.keys d) (hw : w ∈ Dict.keys d) (h : Merged defs d v w) : rep defs d v = rep defs d w := by
  classical
  have hp : (fun u => decide (Merged defs d v u)) = fun u => decide (Merged defs d w u) := by
    funext u
    have : Merged defs d v u ↔ Merged defs d w u := by
      simp only [Merged] at h ⊢
      rw [h]
    simp only [this]
  cases hf : (Dict.keys d).find? fun u => decide (Merged defs d w u) with
  | none => exact absurd (show Merged defs d w w from rfl) (by simpa using List.find?_eq_none.mp hf w hw)
  | some u => rw [rep, rep, if_pos hv, if_pos hw, hp, hf]; rfl

theorem rep_id (hwf : WellFormed defs) (hdef : ∀ v ∈ Dict.keys d, (defs v).isSome) (hnt : NoTwins defs (· ∈ Dict.keys d)) : rep defs d = id := by
  funext v
  by_cases hv : v ∈ Dict.keys d
  · obtain ⟨h1, h2⟩ := rep_key (defs := defs) hv
    by_contra hne
    obtain ⟨e, he⟩ := Option.isSome_iff_exists.1 (hdef v hv)
    obtain ⟨f, hf⟩ := Option.isSome_iff_exists.1 (hdef _ h1)
    exact hnt v _ e f hv h1 (Ne.symm hne) he hf ((merged_iff hwf he hf (Ne.symm hne)).mp h2)
  · rw [rep, if_neg hv]; rfl

theorem mergedBackend_eq (hasCdf : Di → Bool) (S : ℕ → Bool) (h : rep defs d = id) : mergedBackend hasCdf S defs d = backend hasCdf S defs d := by
  rw [mergedBackend, h]
  rfl

theorem merged_contract (hasCdf : Di → Bool) (S : ℕ → Bool) (defs : ℕ → Option (Expr Di)) (d : Dict ℕ ℕ) : Contract (mergedBackend hasCdf S defs d) := by
  obtain ⟨⟨h1, h2, h3, -⟩, -, -⟩ := backend_contract hasCdf S defs d
  refine ⟨h1, h2, h3, fun d' outs vals h => ?_⟩
  simp only [mergedBackend, Except.ok.injEq, Prod.mk.injEq] at h
  rw [← h.1, ← h.2]; simp

end

/-- **C121** For every graph, every request and every order of rewriting, with merging of equal nodes: `conditional_logprob` returns exactly when every variable with a value is made as described by
`Derived` and `Buildable`, and no two of them are made in the same way. -/
theorem C121_outcome {kd : Di → Kind} {hasCdf : Di → Bool} (hN : ∀ dist, IR.Normals.isNormal dist = true → hasCdf dist = true) {defs : ℕ → Option (Expr Di)} (hwf : WellFormed defs) {rvs clones : List ℕ} (hc : clones.length = rvs.length) {realized : Dict ℕ ℕ}
    (hdef : ∀ v, v ∈ rvs ∨ v ∈ Dict.keys realized → (defs v).isSome) {S : ℕ → Bool} (hrun : Run kd (outputs defs (rvValues rvs clones realized)) S) :
    (∃ terms vvs, conditionalM hasCdf S defs rvs clones realized = .ok (terms, vvs)) ↔
      (∀ v e, v ∈ rvs ∨ v ∈ Dict.keys realized → defs v = some e →
        (∃ b, Derived (fun w => w ∈ rvs ∨ w ∈ Dict.keys realized) kd b e) ∧ Buildable (fun w => w ∈ rvs ∨ w ∈ Dict.keys realized) hasCdf e) ∧
      NoTwins defs (fun w => w ∈ rvs ∨ w ∈ Dict.keys realized) := by
  have hkd : (fun w => w ∈ rvs ∨ w ∈ Dict.keys realized) = (· ∈ Dict.keys (rvValues rvs clones realized)) := by
    funext v
    rw [rvValues, Dict.mem_keys_update, Dict.mem_keys_ofList, List.map_fst_zip hc.ge]
  have hk : ∀ v, v ∈ Dict.keys (rvValues rvs clones realized) ↔ v ∈ rvs ∨ v ∈ Dict.keys realized := fun v => iff_of_eq (congrFun hkd v).symm
  have hkey : ∀ v ∈ Dict.keys (rvValues rvs clones realized), (defs v).isSome := fun v hv => hdef v ((hk v).1 hv)
  by_cases hnt : NoTwins defs (fun w => w ∈ rvs ∨ w ∈ Dict.keys realized)
  · have e : conditionalM hasCdf S defs rvs clones realized = conditional hasCdf S defs rvs clones realized := by
      rw [conditionalM, mergedBackend_eq hasCdf S (rep_id hwf hkey (hkd ▸ hnt))]
      rfl
    rw [e, (C99_outcome hN hwf hc hdef hrun).1]
    simp only [hnt, and_true]
  · refine iff_of_false ?_ fun h => hnt h.2
    rintro ⟨terms, vvs, h⟩
    rw [hkd] at hnt
    simp only [NoTwins, not_forall, not_not] at hnt
    obtain ⟨v, w, e, f, hv, hw, hvw, he, hf, hs⟩ := hnt
    have hrep := rep_eq hv hw ((merged_iff hwf he hf hvw).mpr hs)
    obtain ⟨hr, -⟩ := rep_key (defs := defs) hv
    have hsome := hkey _ hr
    have conv : ∀ u ∈ Dict.keys (rvValues rvs clones realized), ∃ x, Converts (mergedBackend hasCdf S defs (rvValues rvs clones realized)) (rvValues rvs clones realized) u
        (rep defs (rvValues rvs clones realized) u) x := by
      intro u hu
      obtain ⟨p, hp, rfl⟩ := List.mem_map.1 hu
      obtain ⟨i, hi⟩ := List.mem_iff_getElem?.1 hp
      exact ⟨p.2, _, _, rfl, i, by rw [List.getElem?_map, hi]; rfl, by rw [List.getElem?_map, hi]; rfl⟩
    obtain ⟨x, hx⟩ := conv v hv
    obtain ⟨y, hy⟩ := conv w hw
    have hown : (mergedBackend hasCdf S defs (rvValues rvs clones realized)).owner (rep defs (rvValues rvs clones realized) v) = some (rep defs (rvValues rvs clones realized) v) := by
      simp [mergedBackend, backend, hsome]
    have hbad := C06_never_omits (merged_contract hasCdf S defs (rvValues rvs clones realized)) hx hown (by
      obtain ⟨g, hg⟩ := Option.isSome_iff_exists.1 hsome
      cases hm : isMeas S (cloneOf (rvValues rvs clones realized) g) with
      | false => left; simp [mergedBackend, backend, hg, hm]
      | true => exact .inr ⟨by simp [mergedBackend, backend, hg, hm], w, _, y, hvw.symm, hy, by rw [← hrep]; exact hown⟩)
    obtain ⟨err, herr⟩ := hbad
    rw [conditionalM, herr] at h
    cases h

/-! ## Which error is raised -/

/-- When every node has one measurable output and a graph, the loop returns or finds too many values for a node. -/
theorem nodeLoop_single {B : Backend ℕ ℕ Unit (Term Di)} {st : St ℕ ℕ} : ∀ (l : List (ℕ × List (ℕ × ℕ))) (acc),
    (∀ q ∈ l, B.measurableOutputs q.1 = [q.1] ∧ q.2 ≠ [] ∧ (∀ x, ∃ t, B.logprob q.1 [x] = .ok [t]) ∧ ∃ old, Dict.get? st.newToOld q.1 = some old) →
    (∃ res, nodeLoop B st l acc = .ok res) ∨ nodeLoop B st l acc = .error .valueError
  | [], acc, _ => .inl ⟨acc, rfl⟩
  | (n, pairs) :: l, (a1, a2), h => by
    obtain ⟨h1, h2, h3, old, h4⟩ := h _ (List.mem_cons_self ..)
    simp only at h1 h2 h3 h4
    match pairs, h2 with
    | [(x, y)], _ =>
      obtain ⟨t, ht⟩ := h3 x
      have := nodeLoop_single (B := B) (st := st) l (Dict.set a1 old t, if n ∈ st.realizedVars then a2 else a2 ++ [y]) fun q hq => h q (List.mem_cons_of_mem _ hq)
      simp only [nodeLoop, h1, List.map_cons, List.map_nil, ht, List.length_singleton, lt_irrefl, if_false, ne_eq, not_true_eq_false, List.cons_ne_nil, List.zip_cons_cons, List.zip_nil_right, termLoop, h4]
      exact this
    | _ :: _ :: _, _ => exact .inr (by simp [nodeLoop, h1])

theorem checkValued_merged {hasCdf : Di → Bool} {S : ℕ → Bool} {defs : ℕ → Option (Expr Di)} {d' d : Dict ℕ ℕ} (h : ∀ v ∈ Dict.keys d, (defs v).isSome) :
    checkValued (mergedBackend hasCdf S defs d') d = .ok () := by
  rw [← checkValued_ok hasCdf S defs d' d h]
  induction d with
  | nil => rfl
  | cons p d ih =>
    simp only [checkValued]
    rw [ih fun w hw => h w (by simp only [Dict.keys, List.map_cons, List.mem_cons] at hw ⊢; exact Or.inr hw)]
    rfl

/-- **C121** When every variable with a value is derived and has a graph, but two of them are made in the same way, `conditional_logprob` raises `ValueError`. -/
theorem C121_value_error {kd : Di → Kind} {hasCdf : Di → Bool} (hN : ∀ dist, IR.Normals.isNormal dist = true → hasCdf dist = true) {defs : ℕ → Option (Expr Di)} (hwf : WellFormed defs) {rvs clones : List ℕ} (hc : clones.length = rvs.length) {realized : Dict ℕ ℕ}
    (hdef : ∀ v, v ∈ rvs ∨ v ∈ Dict.keys realized → (defs v).isSome) {S : ℕ → Bool} (hrun : Run kd (outputs defs (rvValues rvs clones realized)) S)
    (hder : ∀ v e, v ∈ rvs ∨ v ∈ Dict.keys realized → defs v = some e →
      (∃ b, Derived (fun w => w ∈ rvs ∨ w ∈ Dict.keys realized) kd b e) ∧ Buildable (fun w => w ∈ rvs ∨ w ∈ Dict.keys realized) hasCdf e)
    (htw : ¬ NoTwins defs (fun w => w ∈ rvs ∨ w ∈ Dict.keys realized)) : conditionalM hasCdf S defs rvs clones realized = .error .valueError := by
  have hno : ¬ ∃ res, conditionalM hasCdf S defs rvs clones realized = .ok res := by
    rintro ⟨⟨terms, vvs⟩, h⟩
    exact htw ((C121_outcome hN hwf hc hdef hrun).1 ⟨terms, vvs, h⟩).2
  have hkd : (fun w => w ∈ rvs ∨ w ∈ Dict.keys realized) = (· ∈ Dict.keys (rvValues rvs clones realized)) := by
    funext v
    rw [rvValues, Dict.mem_keys_update, Dict.mem_keys_ofList, List.map_fst_zip hc.ge]
  have hk : ∀ v, v ∈ Dict.keys (rvValues rvs clones realized) ↔ v ∈ rvs ∨ v ∈ Dict.keys realized := fun v => iff_of_eq (congrFun hkd v).symm
  have hkey : ∀ v ∈ Dict.keys (rvValues rvs clones realized), (defs v).isSome := fun v hv => hdef v ((hk v).1 hv)
  have hnd : (Dict.keys (rvValues rvs clones realized)).Nodup := rvValues_nodup rvs clones realized
  have hD := hrun.done hwf
  rw [hkd] at hder
  revert hno
  rw [conditionalM]
  generalize hd : rvValues rvs clones realized = d at *
  intro hno
  let es : List (Entry ℕ ℕ) := d.map fun p => ⟨rep defs d p.1, p.2, p.1, p.2, rep defs d p.1⟩
  have hzip : List.zip (Dict.keys d) (d.map Prod.snd) = d := by
    have h : ∀ l : List (ℕ × ℕ), List.zip (l.map Prod.fst) (l.map Prod.snd) = l := by
      intro l
      induction l with
      | nil => rfl
      | cons a l ih => simp [ih]
    exact h d
  have hsrc : List.zip (d.map fun p => some (⟨rep defs d p.1, p.2⟩ : ValuedOut ℕ)) d = es.map Entry.src := by
    have h : ∀ l : List (ℕ × ℕ), List.zip (l.map fun p => some (⟨rep defs d p.1, p.2⟩ : ValuedOut ℕ)) l =
        (l.map fun p => (⟨rep defs d p.1, p.2, p.1, p.2, rep defs d p.1⟩ : Entry ℕ ℕ)).map Entry.src := by
      intro l
      induction l with
      | nil => rfl
      | cons a l ih => simp only [List.map_cons, List.zip_cons_cons, ih]; rfl
    exact h d
  have hmem : ∀ p ∈ d, rep defs d p.1 ∈ Dict.keys d := fun p hp => (rep_key (List.mem_map.2 ⟨p, hp, rfl⟩)).1
  have hown : ∀ e ∈ es, (mergedBackend hasCdf S defs d).owner e.rv = some e.node := by
    intro e he
    obtain ⟨p, hp, rfl⟩ := List.mem_map.1 he
    simp [mergedBackend, backend, hkey _ (hmem p hp)]
  have hcond : conditionalLogprob (mergedBackend hasCdf S defs d) rvs clones realized = nodeLoop (mergedBackend hasCdf S defs d) (run realized es) (run realized es).nodesToVals ([], []) := by
    rw [conditionalLogprob, constructIr, hd, checkValued_merged hkey, show (mergedBackend hasCdf S defs d).rewrite d = .ok (d.map (fun p => some ⟨rep defs d p.1, p.2⟩), d.map Prod.snd) from rfl]
    simp only
    rw [hzip, Dict.ofList_of_nodup hnd, hsrc, IR.bindLoop_entries hown]
    rfl
  rw [hcond] at hno ⊢
  refine (nodeLoop_single (B := mergedBackend hasCdf S defs d) (st := run realized es) (run realized es).nodesToVals ([], []) ?_).resolve_left hno
  · rintro ⟨n, p⟩ hq
    obtain ⟨⟨e, he, hen⟩, hp⟩ := (run_mem realized es).1 hq
    obtain ⟨p0, hp0, hpe⟩ := List.mem_map.1 he
    have hn : n = rep defs d p0.1 := by rw [← hen, ← hpe]
    have hnk : n ∈ Dict.keys d := hn ▸ hmem p0 hp0
    obtain ⟨g, hg⟩ := Option.isSome_iff_exists.1 (hkey n hnk)
    obtain ⟨⟨b, hb⟩, hbu⟩ := hder n g ((hk n).1 hnk) hg
    obtain ⟨x, hx⟩ := Dict.get?_isSome.2 hnk
    have hcl : Closed defs g := (hwf _ _ hg).2
    have ho : cloneOf d g ∈ outputs defs d := List.mem_filterMap.2 ⟨_, Dict.mem_of_get? hx, by rw [hg]; rfl⟩
    have hm : isMeas S (cloneOf d g) = true := hD.complete hcl ho (.refl _) hb
    obtain ⟨m, hmm, hmb, -⟩ := hD.meas hN hcl ho (.refl _) hb
    refine ⟨by simp [mergedBackend, backend, hg, hm], ?_, fun x => ⟨⟨x, m⟩, by simp [mergedBackend, backend, hg, hmm, hmb.2 hbu]⟩, ?_⟩
    · show p ≠ []
      rw [hp]
      intro h0
      have : e ∈ es.filter (·.node = n) := List.mem_filter.2 ⟨he, by simpa using hen⟩
      rw [List.map_eq_nil_iff.1 h0] at this
      simp at this
    · obtain ⟨old, hold⟩ := run_newToOld_of_mem realized es he
      refine ⟨old, ?_⟩
      rw [← hpe] at hold
      rw [hn]
      exact hold

/-! ## The joint density -/

/-- The random variables without values that a graph is computed from, not looking beyond variables with values. -/
def free (R : ℕ → Prop) : Expr Di → Set ℕ
  | .const _ => ∅
  | .inp _ => ∅
  | .app id _ _ _ args => {w | ¬ R id ∧ ∃ i, w ∈ free R (args i)}
  | .rv id _ _ _ => {w | ¬ R id ∧ w = id}
  | .valued _ _ => ∅

/-- As `free`, whether or not the variable itself has a value. -/
def freeTop (R : ℕ → Prop) : Expr Di → Set ℕ
  | .app _ _ _ _ args => {w | ∃ i, w ∈ free R (args i)}
  | .rv id _ _ _ => {id}
  | _ => ∅

theorem SameIn.free_eq {R : ℕ → Prop} {a b : Expr Di} (h : SameIn R a b) : free R a = free R b := by
  induction h with
  | refl => rfl
  | app h1 h2 _ ih => simp only [free, h1, h2, ih]

theorem SameNode.free_eq {R : ℕ → Prop} {a b : Expr Di} (h : SameNode R a b) : freeTop R a = freeTop R b := by
  obtain ⟨h⟩ := h
  simp only [freeTop, fun i => (h i).free_eq]

theorem DetBy.free_eq {R E : ℕ → Prop} {a : Expr Di} (h : DetBy R E a) : free R a = ∅ := by
  induction a with
  | const | inp | valued => rfl
  | rv id dist n args ih => simp [free, h.1]
  | app id k op n args ih =>
    rcases h with h | h
    · simp [free, h.1]
    · simp [free, fun i => ih i (h.2 i)]

theorem free_of_noValue {R : ℕ → Prop} {a : Expr Di} (h : ¬ HasValue R a) : free R a = freeTop R a := by
  cases a with
  | const | inp | valued => rfl
  | rv id dist n args =>
    have : ¬ R id := fun hr => h ⟨id, rfl, hr⟩
    ext w; simp [free, freeTop, this]
  | app id k op n args =>
    have : ¬ R id := fun hr => h ⟨id, rfl, hr⟩
    ext w; simp [free, freeTop, this]

/-- The sources of a tree are the random variables without values that it is computed from. -/
theorem IsTree.free_eq {R E : ℕ → Prop} {kd : Di → Kind} {hasCdf : Di → Bool} {defs : ℕ → Option (Expr Di)} {e : Expr Di} {t : RTree Di} (h : IsTree R kd hasCdf e t) (hc : Closed defs e)
    (hin : t.AllInputs (DetBy R E)) : freeTop R e = {w | w ∈ t.sources.map (·.id)} ∧ t.sources ≠ [] := by
  induction h with
  | rv id dist n args => exact ⟨by ext w; simp [freeTop, RTree.sources], by simp [RTree.sources]⟩
  | @elem id k op n args t i a1 a2 a3 a4 a5 ih =>
    obtain ⟨h1, h2⟩ := ih (hc.2 i) hin.2
    refine ⟨?_, h2⟩
    ext w
    rw [show (RTree.elem op n i args t).sources = t.sources from rfl, ← h1]
    simp only [freeTop, Set.mem_setOf_eq]
    constructor
    · rintro ⟨j, hj⟩
      by_cases hji : j = i
      · rw [hji, free_of_noValue a2] at hj; exact hj
      · rw [(hin.1 j hji).free_eq] at hj; exact hj.elim
    · exact fun hw => ⟨i, by rw [free_of_noValue a2]; exact hw⟩
  | @clip id k args id' dist n' args' a1 a2 a3 =>
    refine ⟨?_, by simp [RTree.sources]⟩
    have hb : ∀ i : Fin 3, (∀ b ∈ boundOf id' (args i), DetBy R E b) → ∀ w ∈ free R (args i), w = id' := by
      intro i hi w hw
      by_cases hid : nodeId (args i) = some id'
      · have hci := hc.2 i
        have h0 : defs id' = some (args 0) := by have := hc.2 0; rw [a1] at this; rw [a1]; exact this.1
        have : args i = .rv id' dist n' args' := by
          cases ha : args i with
          | const x => rw [ha] at hid; simp [nodeId] at hid
          | inp x => rw [ha] at hid; simp [nodeId] at hid
          | valued r x => rw [ha] at hci; exact hci.elim
          | rv i2 d2 n2 ar2 =>
            rw [ha] at hid hci
            simp only [nodeId, Option.some.injEq] at hid
            subst hid
            rw [← a1]
            exact Option.some.inj (hci.1.symm.trans h0)
          | app i2 d2 n2 ar2 =>
            rw [ha] at hid hci
            simp only [nodeId, Option.some.injEq] at hid
            subst hid
            rw [← a1]
            exact Option.some.inj (hci.1.symm.trans h0)
        rw [this] at hw
        exact hw.2
      · rw [boundOf, if_neg hid] at hi
        rw [(hi _ rfl).free_eq] at hw
        exact hw.elim
    ext w
    simp only [freeTop, RTree.sources, List.map_cons, List.map_nil, List.mem_singleton, Set.mem_setOf_eq]
    constructor
    · rintro ⟨i, hi⟩
      match i with
      | 0 => rw [a1] at hi; exact hi.2
      | 1 => exact hb 1 hin.1 w hi
      | 2 => exact hb 2 hin.2.1 w hi
    · rintro rfl
      exact ⟨0, by rw [a1]; exact ⟨a2, rfl⟩⟩
  | @round id k r args id' dist n' args' a1 a2 a3 a4 =>
    refine ⟨?_, by simp [RTree.sources]⟩
    ext w
    simp only [freeTop, RTree.sources, List.map_cons, List.map_nil, List.mem_singleton, Set.mem_setOf_eq]
    constructor
    · rintro ⟨i, hi⟩
      match i with
      | 0 => rw [a1] at hi; exact hi.2
    · rintro rfl
      exact ⟨0, by rw [a1]; exact ⟨a2, rfl⟩⟩
  | @pick id k m args ts a1 a2 a3 ih =>
    have h' := fun i => ih i (hc.2 i.succ) (hin.2 i)
    constructor
    · ext w
      simp only [freeTop, RTree.sources, List.map_flatMap, List.mem_flatMap, List.mem_finRange, true_and, Set.mem_setOf_eq]
      constructor
      · rintro ⟨i, hi⟩
        refine Fin.cases (fun hi => ?_) (fun i hi => ?_) i hi
        · rw [hin.1.free_eq] at hi; exact hi.elim
        · rw [free_of_noValue (a2 i), (h' i).1] at hi; exact ⟨i, hi⟩
      · rintro ⟨i, hi⟩
        exact ⟨i.succ, by rw [free_of_noValue (a2 i), (h' i).1]; exact hi⟩
    · intro h0
      rw [RTree.sources, List.flatMap_eq_nil_iff] at h0
      exact (h' ⟨0, a1⟩).2 (h0 ⟨0, a1⟩ (List.mem_finRange _))

/-- Variables that share no sources are not made in the same way. -/
theorem Listed.noTwins {kd : Di → Kind} {hasCdf : Di → Bool} {defs : ℕ → Option (Expr Di)} (hwf : WellFormed defs) {l : List (Item Di)}
    (hsrc : ((l.flatMap (·.tree.sources)).map (·.id)).Nodup) (hlist : Listed defs kd hasCdf (· ∈ l.map (·.v)) l []) : NoTwins defs (· ∈ l.map (·.v)) := by
  intro v w e f hv hw hvw he hf hs
  obtain ⟨a, ha, rfl⟩ := List.mem_map.1 hv
  obtain ⟨b, hb, rfl⟩ := List.mem_map.1 hw
  obtain ⟨E, ⟨e', he', ht⟩, hdt⟩ := hlist.item ha
  obtain ⟨E', ⟨f', hf', ht'⟩, hdt'⟩ := hlist.item hb
  rw [he] at he'; rw [hf] at hf'
  cases he'; cases hf'
  obtain ⟨h1, h2⟩ := ht.free_eq (hwf _ _ he).2 hdt
  obtain ⟨h3, -⟩ := ht'.free_eq (hwf _ _ hf).2 hdt'
  obtain ⟨s, hs0⟩ := List.exists_mem_of_ne_nil _ h2
  have hm : s.id ∈ b.tree.sources.map (·.id) := by
    have : s.id ∈ freeTop (· ∈ l.map (·.v)) e := by rw [h1]; exact List.mem_map.2 ⟨s, hs0, rfl⟩
    rw [hs.free_eq, h3] at this
    exact this
  rw [List.map_flatMap, List.nodup_flatMap] at hsrc
  have hab : a ≠ b := fun h => hvw (by rw [h])
  have : Std.Symm fun a b : Item Di => a ≠ b → List.Disjoint (a.tree.sources.map (·.id)) (b.tree.sources.map (·.id)) :=
    ⟨fun x y h hxy => List.disjoint_symm (h (Ne.symm hxy))⟩
  have hall := List.Pairwise.forall_of_forall (R := fun a b : Item Di => a ≠ b → List.Disjoint (a.tree.sources.map (·.id)) (b.tree.sources.map (·.id)))
    (l := l) (fun x _ h => absurd rfl h) (hsrc.2.imp (by intro a b h _; exact h))
  exact hall ha hb hab (List.mem_map.2 ⟨s, hs0, rfl⟩) hm

/-- **C121** The joint density (C100), with merging: requested variables that share no random variables are not made in the same way, so nothing is merged. -/
theorem C121_joint_density (reg : Registry Di) (W : World Di) (hasCdf : Di → Bool) (hN : ∀ dist, IR.Normals.isNormal dist = true → hasCdf dist = true) (ρ : ℕ → FVal) (ω : ℕ → Di → List FVal → FVal) {defs : ℕ → Option (Expr Di)} (hwf : WellFormed defs)
    {l : List (Item Di)} (hne : l ≠ []) (hnd : (l.map (·.v)).Nodup) (hsrc : ((l.flatMap (·.tree.sources)).map (·.id)).Nodup) (hlist : Listed defs W.kd hasCdf (· ∈ l.map (·.v)) l [])
    {rvs clones : List ℕ} (hc : clones.length = rvs.length) (hperm : rvs.Perm (l.map (·.v))) {S : ℕ → Bool} (hrun : Run W.kd (outputs defs (rvValues rvs clones [])) S)
    (env : (ℕ → ℝ) → ℕ → FVal) (henv : ∀ τ v x, Dict.get? (rvValues rvs clones []) v = some x → env τ x = .fin (τ v))
    (hinp : ∀ τ v e, v ∈ rvs → defs v = some e → ∀ i, UsesInput i e → env τ i = ρ i) :
    ∃ j vvs, jointM hasCdf S defs rvs clones [] = .ok (some (j, vvs)) ∧
      ∀ σ₀ τ₀ : ℕ → ℝ, Valid reg W (· ∈ l.map (·.v)) ρ l τ₀ → ∀ ψ : (ℕ → ℝ) → ENNReal,
        refE W (· ∈ l.map (·.v)) ρ l τ₀ (fun τ => dens (evalJoint reg W.kd (env τ) ω j) * ψ τ) =
          sampleE W.law ρ (l.flatMap (·.tree.sources)) σ₀ fun σ => ψ (values defs ρ (l.map (·.v)) τ₀ σ) := by
  have hR : (· ∈ Dict.keys (rvValues rvs clones [])) = (· ∈ l.map (·.v)) := by
    funext v
    rw [rvValues, Dict.mem_keys_update, Dict.mem_keys_ofList, List.map_fst_zip hc.ge, hperm.mem_iff]
    simp [Dict.keys]
  have hkey : ∀ v ∈ Dict.keys (rvValues rvs clones []), (defs v).isSome := by
    intro v hv
    obtain ⟨it, hit, rfl⟩ := List.mem_map.1 ((iff_of_eq (congrFun hR v)).1 hv)
    obtain ⟨E, ⟨e, he, -⟩, -⟩ := hlist.item hit
    rw [he]; rfl
  have e : jointM hasCdf S defs rvs clones [] = joint hasCdf S defs rvs clones [] := by
    rw [jointM, mergedBackend_eq hasCdf S (rep_id hwf hkey (by rw [hR]; exact hlist.noTwins hwf hsrc))]
    rfl
  rw [e]
  exact C100_joint_density reg W hasCdf hN ρ ω hwf hne hnd hsrc hlist hc hperm hrun env henv hinp

/-! ## Examples -/

namespace DemoJoint

/-- The model of the example of C100, with merging. -/
example : ∃ S, Run world.kd (outputs defs (rvValues [9, 7, 3, 1] [19, 17, 13, 11] [])) S ∧ ∃ j vvs, jointM (fun _ => true) S defs [9, 7, 3, 1] [19, 17, 13, 11] [] = .ok (some (j, vvs)) ∧
    ∀ σ₀ τ₀ : ℕ → ℝ, ∀ ψ : (ℕ → ℝ) → ENNReal,
      refE world (· ∈ items.map (·.v)) (fun _ => .nan) items τ₀ (fun τ => dens (evalJoint reg world.kd (env τ) (fun _ _ _ => .nan) j) * ψ τ) =
        sampleE world.law (fun _ => .nan) (items.flatMap (·.tree.sources)) σ₀ fun σ => ψ (values defs (fun _ => .nan) (items.map (·.v)) τ₀ σ) := by
  obtain ⟨S, hrun⟩ := exists_run world.kd (outputs defs (rvValues [9, 7, 3, 1] [19, 17, 13, 11] []))
  obtain ⟨j, vvs, h1, h2⟩ := C121_joint_density reg world (fun _ => true) (fun _ _ => rfl) (fun _ => .nan) (fun _ _ _ => .nan) wf (l := items) (by simp [items])
    (by simp [items]) (by simp [items, RTree.sources, tC, tJ, tZ, tF, List.finRange_succ]) listed (rvs := [9, 7, 3, 1]) (clones := [19, 17, 13, 11]) rfl (by show List.Perm [9, 7, 3, 1] [1, 3, 7, 9]; decide) hrun env (by
      intro τ v x h
      have e : rvValues [9, 7, 3, 1] [19, 17, 13, 11] [] = [(9, 19), (7, 17), (3, 13), (1, 11)] := by decide
      rw [e] at h
      simp only [Dict.get?] at h
      split_ifs at h with h1 h2 h3 h4
      · cases h; subst h1; rfl
      · cases h; subst h2; rfl
      · cases h; subst h3; rfl
      · cases h; subst h4; rfl) (by
      intro τ v e hv he i hi
      simp only [List.mem_cons, List.not_mem_nil, or_false] at hv
      have hX : ∀ i, ¬ UsesInput i X := by simp [X, UsesInput, Fin.exists_fin_two]
      have hC : ∀ i, ¬ UsesInput i C := by simp [C, UsesInput, Fin.exists_fin_succ, hX]
      have hP : ∀ i, ¬ UsesInput i P := by simp [P, UsesInput, Fin.exists_fin_succ]
      have hJ : ∀ i, ¬ UsesInput i J := by simp [J, UsesInput, Fin.exists_fin_succ, hP]
      have hY : ∀ i, ¬ UsesInput i Y := by simp [Y, UsesInput, Fin.exists_fin_succ, hC]
      have hE : ∀ i, ¬ UsesInput i E := by simp [E, V, UsesInput, Fin.exists_fin_succ]
      have hZ : ∀ i, ¬ UsesInput i Z := by simp [Z, UsesInput, Fin.exists_fin_succ, hJ, hY, hE]
      have hF : ∀ i, ¬ UsesInput i F := by simp [F, U, UsesInput, Fin.exists_fin_succ, hZ]
      rcases hv with rfl | rfl | rfl | rfl
      · cases he; exact absurd hi (hF i)
      · cases he; exact absurd hi (hZ i)
      · cases he; exact absurd hi (hJ i)
      · cases he; exact absurd hi (hC i))
  exact ⟨S, hrun, j, vvs, h1, fun σ₀ τ₀ => h2 σ₀ τ₀ (valid _ _)⟩

end DemoJoint

/-! `X ~ N(0, 1)`, `A = clip(X, -1, 1)`, `B = clip(X, -1, 1)` -/

namespace DemoTwins

noncomputable def X : Expr Bool := .rv 0 true 2 ![.const (.fin 0), .const (.fin 1)]
noncomputable def A : Expr Bool := .app 1 .float .clip 3 ![X, .const (.fin (-1)), .const (.fin 1)]
noncomputable def B : Expr Bool := .app 2 .float .clip 3 ![X, .const (.fin (-1)), .const (.fin 1)]

noncomputable def defs : ℕ → Option (Expr Bool) := Dict.get? [(0, X), (1, A), (2, B)]

theorem wf : WellFormed defs := by
  have hX : Closed defs X := ⟨rfl, by simp [Fin.forall_fin_two, Closed]⟩
  have hA : Closed defs A := ⟨rfl, fun i => by fin_cases i; exacts [hX, trivial, trivial]⟩
  have hB : Closed defs B := ⟨rfl, fun i => by fin_cases i; exacts [hX, trivial, trivial]⟩
  intro v e h
  have := Dict.mem_of_get? h
  simp only [List.mem_cons, Prod.mk.injEq, List.not_mem_nil, or_false] at this
  rcases this with ⟨rfl, rfl⟩ | ⟨rfl, rfl⟩ | ⟨rfl, rfl⟩
  exacts [⟨rfl, hX⟩, ⟨rfl, hA⟩, ⟨rfl, hB⟩]

theorem made {v : ℕ} {e : Expr Bool} (R : ℕ → Prop) (hR : ¬ R 0) (hv : v = 1 ∨ v = 2) (he : defs v = some e) : (∃ b, Derived R Demo.kd b e) ∧ Buildable R (fun _ => true) e := by
  rcases hv with rfl | rfl
  all_goals
    cases he
    exact ⟨⟨false, .clip (.rv ..) (Demo.noValue rfl hR)⟩, .clip (args := ![X, .const (.fin (-1)), .const (.fin 1)]) (.rv rfl)⟩

/-- The same variable clipped twice in the same way (tests/test_censoring.py:130): `ValueError`. -/
example {S : ℕ → Bool} (hrun : Run Demo.kd (outputs defs (rvValues [1, 2] [11, 12] [])) S) : conditionalM (fun _ => true) S defs [1, 2] [11, 12] [] = .error .valueError := by
  refine C121_value_error (fun _ _ => rfl) wf (rvs := [1, 2]) (clones := [11, 12]) (realized := []) rfl (by simp [Dict.keys, defs, Dict.get?]) hrun (fun v e hv he => made _ (by simp [Dict.keys]) (by simpa [Dict.keys] using hv) he) fun h => ?_
  exact h 1 2 A B (.inl (by simp)) (.inl (by simp)) (by decide) rfl rfl (.app fun i => .refl _)

/-- One of them alone has a density. -/
example {S : ℕ → Bool} (hrun : Run Demo.kd (outputs defs (rvValues [2] [12] [])) S) : ∃ terms vvs, conditionalM (fun _ => true) S defs [2] [12] [] = .ok (terms, vvs) := by
  refine (C121_outcome (fun _ _ => rfl) wf (rvs := [2]) (clones := [12]) (realized := []) rfl (by simp [Dict.keys, defs, Dict.get?]) hrun).2
    ⟨fun v e hv he => made _ (by simp [Dict.keys]) (.inr (by simpa [Dict.keys] using hv)) he, fun v w e f hv hw hvw _ _ _ => hvw ?_⟩
  simp only [List.mem_singleton, Dict.keys, List.map_nil, List.not_mem_nil, or_false] at hv hw
  rw [hv, hw]

end DemoTwins

end Verif.Full
