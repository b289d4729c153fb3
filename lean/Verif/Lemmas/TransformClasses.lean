import Verif.Spec.TransformClasses
import Verif.Lemmas.Dict

/-!
# Lemmas for the classes of transformed variables
-/

namespace Verif.TClass
open Verif

variable {K P T A α : Type}

/-- Parents are older. -/
def Older (classes : List (ClassInfo T)) : Prop := ∀ (c : ℕ) (i : ClassInfo T) (p : ℕ), classes[c]? = some i → i.parent = some p → p < c

theorem chain_fuel {classes : List (ClassInfo T)} (h : Older classes) (c : ℕ) : ∀ f, c + 1 ≤ f → chain classes f c = chain classes (c + 1) c := by
  induction c using Nat.strong_induction_on with
  | _ c ih =>
    intro f hf
    obtain ⟨f, rfl⟩ : ∃ g, f = g + 1 := ⟨f - 1, by omega⟩
    simp only [chain]
    cases hi : classes[c]? with
    | none => rfl
    | some i =>
      cases hp : i.parent with
      | none => simp [hp]
      | some p =>
        have hlt := h c i p hi hp
        simp only [Option.bind_some, hp]
        rw [ih p hlt f (by omega), ih p hlt c (by omega)]

theorem derived_of_mem {classes : List (ClassInfo T)} {c' : ℕ} : ∀ (f c : ℕ), c' ∈ chain classes f c → Derived classes c' c
  | 0, _, h => by simp [chain] at h
  | f + 1, c, h => by
    simp only [chain, List.mem_cons] at h
    rcases h with rfl | h
    · exact .self
    · cases hi : classes[c]? with
      | none => simp [hi] at h
      | some i =>
        cases hp : i.parent with
        | none => simp [hi, hp] at h
        | some p =>
          simp only [hi, Option.bind_some, hp] at h
          exact .up hi hp (derived_of_mem f p h)

theorem findSome_congr {l : List ℕ} {f g : ℕ → Option α} (h : ∀ c ∈ l, f c = g c) : l.findSome? f = l.findSome? g := by
  induction l with
  | nil => rfl
  | cons a l ih => rw [List.findSome?_cons, List.findSome?_cons, h a List.mem_cons_self, ih fun c hc => h c (List.mem_cons_of_mem _ hc)]

theorem dispatch_eq {classes : List (ClassInfo T)} (h : Older classes) (reg : ℕ → Option α) (c : ℕ) :
    dispatch classes reg c = match reg c with
      | some x => some x
      | none => match (classes[c]?).bind ClassInfo.parent with
        | some p => dispatch classes reg p
        | none => none := by
  unfold dispatch
  rw [chain]
  rw [List.findSome?_cons]
  cases hr : reg c with
  | some x => rfl
  | none =>
    cases hi : classes[c]? with
    | none => rfl
    | some i =>
      cases hp : i.parent with
      | none => simp [hp]
      | some p =>
        simp only [Option.bind_some, hp]
        rw [chain_fuel h p c (h c i p hi hp)]

theorem dispatch_of_nearest {classes : List (ClassInfo T)} (h : Older classes) {reg : ℕ → Option α} {c : ℕ} {x : α} (hx : Nearest classes reg c x) : dispatch classes reg c = some x := by
  induction hx with
  | here hr => rw [dispatch_eq h, hr]
  | up hr hi hp _ ih => rw [dispatch_eq h, hr, hi]; simp only [Option.bind_some, hp, ih]

theorem nearest_of_dispatch {classes : List (ClassInfo T)} (h : Older classes) {reg : ℕ → Option α} {x : α} (c : ℕ) (hx : dispatch classes reg c = some x) : Nearest classes reg c x := by
  induction c using Nat.strong_induction_on with
  | _ c ih =>
    rw [dispatch_eq h] at hx
    cases hr : reg c with
    | some y =>
      rw [hr] at hx
      exact .here (by rw [hr]; exact hx)
    | none =>
      rw [hr] at hx
      cases hi : classes[c]? with
      | none => simp [hi] at hx
      | some i =>
        cases hp : i.parent with
        | none => simp [hi, hp] at hx
        | some p =>
          simp only [hi, Option.bind_some, hp] at hx
          exact .up hr hi hp (ih p (h c i p hi hp) hx)

theorem dispatch_inherits {classes : List (ClassInfo T)} (h : Older classes) {reg : ℕ → Option α} {c c' : ℕ} (hc : Inherits classes reg c' c) : dispatch classes reg c = dispatch classes reg c' := by
  induction hc with
  | self => rfl
  | up hr hi hp _ ih => rw [dispatch_eq h, hr, hi]; simp only [Option.bind_some, hp, ih]

/-- `s'` has more classes, and the same entries for the classes of `s`. -/
structure Ext (s s' : St K P T) : Prop where
  classes : ∃ e, s'.classes = s.classes ++ e
  lp : ∀ c < s.classes.length, Dict.get? s'.lp c = Dict.get? s.lp c
  df : ∀ c < s.classes.length, Dict.get? s'.df c = Dict.get? s.df c

theorem Ext.le {s s' : St K P T} (h : Ext s s') : s.classes.length ≤ s'.classes.length := by
  obtain ⟨e, he⟩ := h.classes
  simp [he]

theorem Ext.refl (s : St K P T) : Ext s s := ⟨⟨[], by simp⟩, fun _ _ => rfl, fun _ _ => rfl⟩

theorem Ext.trans {s s' s'' : St K P T} (h : Ext s s') (h' : Ext s' s'') : Ext s s'' := by
  obtain ⟨e, he⟩ := h.classes
  obtain ⟨e', he'⟩ := h'.classes
  exact ⟨⟨e ++ e', by rw [he', he, List.append_assoc]⟩, fun c hc => (h'.lp c (hc.trans_le h.le)).trans (h.lp c hc), fun c hc => (h'.df c (hc.trans_le h.le)).trans (h.df c hc)⟩

theorem Ext.get {s s' : St K P T} (h : Ext s s') {c : ℕ} (hc : c < s.classes.length) : s'.classes[c]? = s.classes[c]? := by
  obtain ⟨e, he⟩ := h.classes
  rw [he, List.getElem?_append_left hc]

theorem dispatch_frame {classes classes' : List (ClassInfo T)} (h : Older classes) (h' : Older classes') {n : ℕ} (hget : ∀ c < n, classes'[c]? = classes[c]?) {reg reg' : ℕ → Option α}
    (hreg : ∀ c < n, reg' c = reg c) (c : ℕ) (hc : c < n) : dispatch classes' reg' c = dispatch classes reg c := by
  induction c using Nat.strong_induction_on with
  | _ c ih =>
    rw [dispatch_eq h, dispatch_eq h', hget c hc, hreg c hc]
    cases hr : reg c with
    | some x => rfl
    | none =>
      cases hi : classes[c]? with
      | none => rfl
      | some i =>
        cases hp : i.parent with
        | none => simp [hp]
        | some p =>
          simp only [Option.bind_some, hp]
          have := h c i p hi hp
          exact ih p this (by omega)

theorem Ext.dispatch_lp {s s' : St K P T} (h : Ext s s') (hs : WF s) (hs' : WF s') {c : ℕ} (hc : c < s.classes.length) :
    dispatch s'.classes (Dict.get? s'.lp) c = dispatch s.classes (Dict.get? s.lp) c :=
  dispatch_frame hs.parent hs'.parent (fun _ hc => h.get hc) h.lp c hc

theorem Ext.dispatch_df {s s' : St K P T} (h : Ext s s') (hs : WF s) (hs' : WF s') {c : ℕ} (hc : c < s.classes.length) :
    dispatch s'.classes (Dict.get? s'.df) c = dispatch s.classes (Dict.get? s.df) c :=
  dispatch_frame hs.parent hs'.parent (fun _ hc => h.get hc) h.df c hc

theorem Ext.transformOf {s s' : St K P T} (h : Ext s s') (hs : WF s) (hs' : WF s') {c : ℕ} (hc : c < s.classes.length) : s'.transformOf c = s.transformOf c :=
  dispatch_frame hs.parent hs'.parent (fun _ hc => h.get hc) (fun c hc => by rw [h.get hc]) c hc

theorem Ext.plain (F : Funs K P T A) {s s' : St K P T} (h : Ext s s') (hs : WF s) (hs' : WF s') {op : Op P} (hc : op.cls < s.classes.length) (a : A) :
    s'.logprobPlain F op a = s.logprobPlain F op a := by
  unfold St.logprobPlain
  rw [h.dispatch_lp hs hs' hc]

theorem older_append {classes : List (ClassInfo T)} (h : Older classes) {p : ℕ} (hp : p < classes.length) (t : Option T) : Older (classes ++ [⟨some p, t⟩]) := by
  intro c i q hi hq
  by_cases hc : c < classes.length
  · rw [List.getElem?_append_left hc] at hi
    exact h c i q hi hq
  · by_cases hc' : c = classes.length
    · subst hc'
      simp at hi
      subst hi
      simp at hq
      omega
    · rw [List.getElem?_eq_none (by simp; omega)] at hi
      cases hi

theorem create_wf {s : St K P T} (hs : WF s) {op : Op P} (hc : op.cls < s.classes.length) (t : T) (b : Bool) : WF (s.create op t b).2 where
  parent := older_append hs.parent hc _
  lp := by
    intro c hc'
    simp only [St.create, List.length_append, List.length_singleton] at hc' ⊢
    rw [Dict.get?_set, if_neg (by omega)]
    exact hs.lp c (by omega)
  df := by
    intro c hc'
    simp only [St.create, List.length_append, List.length_singleton] at hc' ⊢
    rw [Dict.get?_set, if_neg (by split <;> omega)]
    exact hs.df c (by omega)
  made := by
    intro c d hd
    simp only [St.create, List.length_append, List.length_singleton] at hd ⊢
    rw [Dict.get?_set] at hd
    by_cases he : (if b then op.cls else s.classes.length) = c
    · rw [if_pos he] at hd
      cases hd
      refine ⟨by omega, ⟨⟨some op.cls, some t⟩, t, by simp, rfl⟩, op, ?_, hc⟩
      rw [Dict.get?_set, if_pos rfl]
    · rw [if_neg he] at hd
      obtain ⟨h1, ⟨i, t', hi, ht⟩, rv, hrv, hlt⟩ := hs.made c d hd
      refine ⟨by omega, ⟨i, t', ?_, ht⟩, rv, ?_, hlt⟩
      · rw [List.getElem?_append_left h1]
        exact hi
      · rw [Dict.get?_set, if_neg (by omega)]
        exact hrv

theorem create_ext {s : St K P T} (op : Op P) (t : T) : Ext s (s.create op t false).2 where
  classes := ⟨_, rfl⟩
  lp := by
    intro c hc
    simp only [St.create]
    rw [Dict.get?_set, if_neg (by omega)]
  df := by
    intro c hc
    simp only [St.create]
    rw [Dict.get?_set, if_neg (by simp; omega)]

theorem derive_wf {s : St K P T} (hs : WF s) {p : ℕ} (hp : p < s.classes.length) (own : Option K) : WF (s.derive p own) where
  parent := older_append hs.parent hp _
  lp := by
    intro c hc
    simp only [St.derive, List.length_append, List.length_singleton] at hc ⊢
    cases own with
    | none => exact hs.lp c (by omega)
    | some k =>
      simp only []
      rw [Dict.get?_set, if_neg (by omega)]
      exact hs.lp c (by omega)
  df := by
    intro c hc
    simp only [St.derive, List.length_append, List.length_singleton] at hc ⊢
    exact hs.df c (by omega)
  made := by
    intro c d hd
    obtain ⟨h1, ⟨i, t', hi, ht⟩, rv, hrv, hlt⟩ := hs.made c d hd
    simp only [St.derive, List.length_append, List.length_singleton]
    refine ⟨by omega, ⟨i, t', ?_, ht⟩, rv, ?_, hlt⟩
    · rw [List.getElem?_append_left h1]
      exact hi
    · cases own with
      | none => exact hrv
      | some k =>
        simp only []
        rw [Dict.get?_set, if_neg (by omega)]
        exact hrv

theorem derive_ext {s : St K P T} (p : ℕ) (own : Option K) : Ext s (s.derive p own) where
  classes := ⟨_, rfl⟩
  lp := by
    intro c hc
    cases own with
    | none => rfl
    | some k =>
      simp only [St.derive]
      rw [Dict.get?_set, if_neg (by omega)]
  df := fun _ _ => rfl

theorem request_wf_ext {fresh : P} {s : St K P T} (hs : WF s) {op : Op P} (hc : op.cls < s.classes.length) (req : Req T) : WF (s.request fresh op req).2 ∧ Ext s (s.request fresh op req).2 := by
  cases req with
  | explicit t => exact ⟨create_wf hs hc t false, create_ext op t⟩
  | default =>
    simp only [St.request]
    cases dispatch s.classes (Dict.get? s.df) op.cls <;> exact ⟨hs, .refl s⟩

theorem Later.wf_ext {fresh : P} {s s' : St K P T} (hs : WF s) (h : Later fresh s s') : WF s' ∧ Ext s s' := by
  induction h with
  | refl => exact ⟨hs, .refl s⟩
  | request op req _ hc ih =>
    obtain ⟨h1, h2⟩ := request_wf_ext (fresh := fresh) ih.1 hc req
    exact ⟨h1, ih.2.trans h2⟩
  | derive p own _ hp ih => exact ⟨derive_wf ih.1 hp own, ih.2.trans (derive_ext p own)⟩

/-- Making a class, also for a default transform, leaves log-probabilities as they are. -/
theorem create_plain (F : Funs K P T A) {s : St K P T} (hs : WF s) {op : Op P} (hc : op.cls < s.classes.length) (t : T) (b : Bool) {o : Op P} (ho : o.cls < s.classes.length) (a : A) :
    (s.create op t b).2.logprobPlain F o a = s.logprobPlain F o a := by
  unfold St.logprobPlain
  rw [dispatch_frame hs.parent (create_wf hs hc t b).parent (n := s.classes.length) (fun c hc => by simp only [St.create]; rw [List.getElem?_append_left hc])
    (fun c hc => by simp only [St.create]; rw [Dict.get?_set, if_neg (by omega)]) o.cls ho]

theorem transformOf_here {s : St K P T} (hs : WF s) {d : ℕ} {i : ClassInfo T} {t : T} (hi : s.classes[d]? = some i) (ht : i.transform = some t) : s.transformOf d = some t := by
  unfold St.transformOf
  rw [dispatch_eq hs.parent, hi]
  simp [ht]

theorem dispatch_here {s : St K P T} (hs : WF s) {d : ℕ} {x : Impl K P} (h : Dict.get? s.lp d = some x) : dispatch s.classes (Dict.get? s.lp) d = some x := by
  rw [dispatch_eq hs.parent, h]

/-- The log-probability of a class made by `_create_transformed_rv_op`. -/
theorem logprobTrans_made (F : Funs K P T A) {s : St K P T} (hs : WF s) {d : ℕ} {i : ClassInfo T} {t : T} (hi : s.classes[d]? = some i) (ht : i.transform = some t) {rvOp : Op P}
    (h : Dict.get? s.lp d = some (.trans rvOp)) (x : P) (z : A) :
    s.logprobTrans F ⟨d, x⟩ (F.back t z) z = changed F t (s.logprobPlain F rvOp) z := by
  unfold St.logprobTrans changed
  simp only [dispatch_here hs h, transformOf_here hs hi ht]
  cases s.logprobPlain F rvOp (F.back t z) <;> rfl

theorem plain_own {F : Funs K P T A} {s : St K P T} (hs : WF s) {op : Op P} {f : A → Except Err A} (h : Own F s op f) : s.logprobPlain F op = f := by
  obtain ⟨k, hk, rfl⟩ := h
  funext a
  unfold St.logprobPlain
  rw [dispatch_of_nearest hs.parent hk]

/-- A request for a given transform. -/
theorem ask_explicit (F : Funs K P T A) (fresh : P) {s : St K P T} (hs : WF s) {op : Op P} (hc : op.cls < s.classes.length) (t : T) (z : A) :
    s.ask F fresh op (.explicit t) z = changed F t (s.logprobPlain F op) z := by
  have hw := create_wf hs hc t false
  have he := create_ext (s := s) op t
  have h1 : (s.create op t false).2.classes[s.classes.length]? = some ⟨some op.cls, some t⟩ := by simp [St.create]
  have h2 : Dict.get? (s.create op t false).2.lp s.classes.length = some (.trans op) := by
    simp only [St.create]
    rw [Dict.get?_set, if_pos rfl]
  have := logprobTrans_made F hw h1 rfl h2 op.attrs z
  have e : (s.create op t false).2.logprobPlain F op = s.logprobPlain F op := funext fun a => he.plain F hs hw hc a
  rw [e] at this
  exact this

/-- A request for the default transform. -/
theorem ask_default (F : Funs K P T A) (fresh : P) {s : St K P T} (hs : WF s) {op : Op P} (z : A) {d : ℕ} (hd : dispatch s.classes (Dict.get? s.df) op.cls = some d) {i : ClassInfo T} {t : T}
    (hi : s.classes[d]? = some i) (ht : i.transform = some t) {rvOp : Op P} (h : Dict.get? s.lp d = some (.trans rvOp)) :
    s.ask F fresh op .default z = changed F t (s.logprobPlain F rvOp) z := by
  unfold St.ask
  simp only [St.request, hd, transformOf_here hs hi ht, Option.map_some]
  exact logprobTrans_made F hs hi ht h fresh z

theorem made_of_dispatch {s : St K P T} (hs : WF s) {c d : ℕ} (hd : dispatch s.classes (Dict.get? s.df) c = some d) :
    d < s.classes.length ∧ (∃ (i : ClassInfo T) (t : T), s.classes[d]? = some i ∧ i.transform = some t) ∧ ∃ rvOp : Op P, Dict.get? s.lp d = some (.trans rvOp) ∧ rvOp.cls < d := by
  have := nearest_of_dispatch hs.parent c hd
  clear hd
  induction this with
  | here h => exact hs.made _ _ h
  | up _ _ _ _ ih => exact ih

end Verif.TClass
