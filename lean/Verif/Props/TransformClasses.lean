import Verif.Lemmas.TransformClasses

/-!
# C149: transforms requested in one call and other variables
-/

namespace Verif.TClass
open Verif

variable {K P T A : Type}

/-- **C149** Whatever transforms are requested for whatever variables, in whatever number of calls, and whatever classes users derive: the log-probability of a variable stays as it was, and so does the
answer to every request for its value, with the default transform or with any given one. -/
theorem C149_history (F : Funs K P T A) (fresh : P) {s s' : St K P T} (hs : WF s) (h : Later fresh s s') {op : Op P} (hc : op.cls < s.classes.length) :
    (∀ a, s'.logprobPlain F op a = s.logprobPlain F op a) ∧ ∀ (req : Req T) (z : A), s'.ask F fresh op req z = s.ask F fresh op req z := by
  obtain ⟨hs', he⟩ := h.wf_ext hs
  have hp : s'.logprobPlain F op = s.logprobPlain F op := funext fun a => he.plain F hs hs' hc a
  refine ⟨fun a => congrFun hp a, fun req z => ?_⟩
  cases req with
  | explicit t => rw [ask_explicit F fresh hs hc, ask_explicit F fresh hs' (hc.trans_le he.le), hp]
  | default =>
    have hd := he.dispatch_df hs hs' hc
    cases hn : dispatch s.classes (Dict.get? s.df) op.cls with
    | none =>
      rw [hn] at hd
      simp only [St.ask, St.request, hd, hn]
      exact congrFun hp z
    | some d =>
      rw [hn] at hd
      obtain ⟨hlt, ⟨i, t, hi, ht⟩, rv, hrv, hr⟩ := made_of_dispatch hs hn
      rw [ask_default F fresh hs z hn hi ht hrv, ask_default F fresh hs' z hd ((he.get hlt).trans hi) ht ((he.lp d hlt).trans hrv)]
      unfold changed
      rw [he.plain F hs hs' (hr.trans hlt)]

/-- **C149** A given transform: the op's own log-probability at the value taken back, with the Jacobian term of this transform. -/
theorem C149_explicit (F : Funs K P T A) (fresh : P) {s : St K P T} (hs : WF s) {op : Op P} (hc : op.cls < s.classes.length) {f : A → Except Err A} (hf : Own F s op f) (t : T) (z : A) :
    s.ask F fresh op (.explicit t) z = changed F t f z := by
  rw [ask_explicit F fresh hs hc, plain_own hs hf]

/-- **C149** The op made for a request keeps its log-probability, whatever happens later. -/
theorem C149_made (F : Funs K P T A) (fresh : P) {s s' : St K P T} (hs : WF s) {op : Op P} (hc : op.cls < s.classes.length) {f : A → Except Err A} (hf : Own F s op f) (t : T)
    (h : Later fresh (s.create op t false).2 s') (z : A) : s'.logprobTrans F (s.create op t false).1 (F.back t z) z = changed F t f z := by
  have hw := create_wf hs hc t false
  obtain ⟨hs', he⟩ := h.wf_ext hw
  have hlen : s.classes.length < (s.create op t false).2.classes.length := by simp [St.create]
  have h1 : (s.create op t false).2.classes[s.classes.length]? = some ⟨some op.cls, some t⟩ := by simp [St.create]
  have h2 : Dict.get? (s.create op t false).2.lp s.classes.length = some (.trans op) := by
    simp only [St.create]
    rw [Dict.get?_set, if_pos rfl]
  have e : s'.logprobPlain F op = f := by
    rw [← plain_own hs hf]
    funext a
    rw [he.plain F hw hs' (hc.trans hlen), (create_ext op t).plain F hs hw hc]
  rw [← e]
  exact logprobTrans_made F hs' ((he.get hlen).trans h1) rfl ((he.lp _ hlen).trans h2) op.attrs z

/-- **C149** Transforms of values are not stacked: a variable that has been transformed has no log-probability at a value that is not. -/
theorem C149_stacked_raises (F : Funs K P T A) {s : St K P T} (hs : WF s) {op : Op P} (hc : op.cls < s.classes.length) (t t' : T) (fresh : P) (z : A) :
    (s.create op t false).2.ask F fresh (s.create op t false).1 (.explicit t') z = .error .assertion := by
  have hw := create_wf hs hc t false
  have hlen : (s.create op t false).1.cls < (s.create op t false).2.classes.length := by simp [St.create]
  have h2 : Dict.get? (s.create op t false).2.lp s.classes.length = some (.trans op) := by
    simp only [St.create]
    rw [Dict.get?_set, if_pos rfl]
  rw [ask_explicit F fresh hw hlen]
  have : ∀ a, (s.create op t false).2.logprobPlain F (s.create op t false).1 a = .error .assertion := fun a => by
    unfold St.logprobPlain
    rw [show (s.create op t false).1.cls = s.classes.length from rfl, dispatch_here hw h2]
  simp [changed, this]

/-- **C149** What a default transform does, in general: `create_default_transformed_rv_op(rv_op, t)` counts for the class of `rv_op` and the classes derived from it that have no default of their own; the
log-probability is that of `rv_op` itself. -/
theorem C149_default (F : Funs K P T A) (fresh : P) {s s' : St K P T} (hs : WF s) {rvOp : Op P} (hc : rvOp.cls < s.classes.length) {f : A → Except Err A} (hf : Own F s rvOp f) (t : T)
    (h : Later fresh (s.create rvOp t true).2 s') {op : Op P} (hop : Inherits s'.classes (Dict.get? s'.df) rvOp.cls op.cls) (z : A) :
    s'.ask F fresh op .default z = changed F t f z := by
  have hw := create_wf hs hc t true
  obtain ⟨hs', he⟩ := h.wf_ext hw
  have hlen : s.classes.length < (s.create rvOp t true).2.classes.length := by simp [St.create]
  have h1 : (s.create rvOp t true).2.classes[s.classes.length]? = some ⟨some rvOp.cls, some t⟩ := by simp [St.create]
  have h2 : Dict.get? (s.create rvOp t true).2.lp s.classes.length = some (.trans rvOp) := by
    simp only [St.create]
    rw [Dict.get?_set, if_pos rfl]
  have h3 : Dict.get? (s.create rvOp t true).2.df rvOp.cls = some s.classes.length := by
    simp [St.create, Dict.get?_set]
  have hd : dispatch s'.classes (Dict.get? s'.df) op.cls = some s.classes.length := by
    rw [dispatch_inherits hs'.parent hop, dispatch_eq hs'.parent, he.df _ (hc.trans hlen), h3]
  rw [ask_default F fresh hs' z hd ((he.get hlen).trans h1) rfl ((he.lp _ hlen).trans h2)]
  have e : s'.logprobPlain F rvOp = f := by
    rw [← plain_own hs hf]
    exact funext fun a => (he.plain F hw hs' (hc.trans hlen) a).trans (create_plain F hs hc t true hc a)
  rw [e]

/-- **C149** A default transform registered for one class leaves the classes alone that are not derived from it, and all log-probabilities. -/
theorem C149_default_others (F : Funs K P T A) (fresh : P) {s : St K P T} (hs : WF s) {rvOp : Op P} (hc : rvOp.cls < s.classes.length) (t : T) {op : Op P} (ho : op.cls < s.classes.length)
    (hne : ¬ Derived s.classes rvOp.cls op.cls) :
    (∀ a, (s.create rvOp t true).2.logprobPlain F op a = s.logprobPlain F op a) ∧ ∀ z, (s.create rvOp t true).2.ask F fresh op .default z = s.ask F fresh op .default z := by
  have hw := create_wf hs hc t true
  have hget : ∀ c < s.classes.length, (s.create rvOp t true).2.classes[c]? = s.classes[c]? := fun c hc => by
    simp only [St.create]
    rw [List.getElem?_append_left hc]
  refine ⟨fun a => create_plain F hs hc t true ho a, fun z => ?_⟩
  have hd : dispatch (s.create rvOp t true).2.classes (Dict.get? (s.create rvOp t true).2.df) op.cls = dispatch s.classes (Dict.get? s.df) op.cls := by
    rw [dispatch_frame hs.parent hw.parent (n := s.classes.length) hget (reg := Dict.get? (s.create rvOp t true).2.df) (fun _ _ => rfl) op.cls ho]
    unfold dispatch
    refine findSome_congr fun c hcm => ?_
    have : rvOp.cls ≠ c := fun e => hne (derived_of_mem _ _ (e ▸ hcm))
    simp [St.create, Dict.get?_set, this]
  cases hn : dispatch s.classes (Dict.get? s.df) op.cls with
  | none =>
    rw [hn] at hd
    simp only [St.ask, St.request, hd, hn]
    exact create_plain F hs hc t true ho z
  | some d =>
    rw [hn] at hd
    obtain ⟨hlt, ⟨i, t', hi, ht⟩, rv, hrv, hr⟩ := made_of_dispatch hs hn
    rw [ask_default F fresh hs z hn hi ht hrv, ask_default F fresh hw z hd ((hget d hlt).trans hi) ht (by
      simp only [St.create]
      rw [Dict.get?_set, if_neg (by omega)]
      exact hrv)]
    unfold changed
    rw [create_plain F hs hc t true (hr.trans hlt)]

/-- **C149** (partial: classes that also inherit the log-probability, with functions that do not look at the attributes of the op.) With the default transform, too, the log-probability is the op's own one at
the value taken back, with the Jacobian term. -/
theorem C149_default_own_partial (F : Funs K P T A) (fresh : P) {s s' : St K P T} (hs : WF s) {rvOp : Op P} (hc : rvOp.cls < s.classes.length) {g : A → Except Err A} (hg : Own F s rvOp g) (t : T)
    (h : Later fresh (s.create rvOp t true).2 s') {op : Op P} (hop : Inherits s'.classes (Dict.get? s'.df) rvOp.cls op.cls) (hop' : Inherits s'.classes (Dict.get? s'.lp) rvOp.cls op.cls)
    (hattrs : ∀ k, F.kernel k op.attrs = F.kernel k rvOp.attrs) {f : A → Except Err A} (hf : Own F s' op f) (z : A) : s'.ask F fresh op .default z = changed F t f z := by
  have hw := create_wf hs hc t true
  obtain ⟨hs', he⟩ := h.wf_ext hw
  have hlen : s.classes.length < (s.create rvOp t true).2.classes.length := by simp [St.create]
  rw [C149_default F fresh hs hc hg t h hop]
  have e : f = g := by
    rw [← plain_own hs' hf, ← plain_own hs hg]
    funext a
    rw [← create_plain F hs hc t true hc a, ← he.plain F hw hs' (hc.trans hlen) a]
    unfold St.logprobPlain
    rw [dispatch_inherits hs'.parent hop']
    simp only [hattrs]
  rw [e]

/-- **C149** (false in general) A class derived from one with a default transform, with a log-probability of its own: with the default transform its own log-probability is not used. -/
theorem C149_default_subclass (F : Funs K P T A) (fresh : P) {s : St K P T} (hs : WF s) {rvOp : Op P} (hc : rvOp.cls < s.classes.length) {g : A → Except Err A} (hg : Own F s rvOp g) (t : T) (k : K) (p : P) :
    let s' := (s.create rvOp t true).2.derive rvOp.cls (some k)
    let op : Op P := ⟨s.classes.length + 1, p⟩
    Own F s' op (F.kernel k p) ∧ ∀ z, s'.ask F fresh op .default z = changed F t g z := by
  intro s' op
  have hw := create_wf hs hc t true
  have hcl : (s.create rvOp t true).2.classes.length = s.classes.length + 1 := by simp [St.create]
  refine ⟨⟨k, .here ?_, rfl⟩, fun z => ?_⟩
  · simp only [s', op, St.derive]
    rw [hcl, Dict.get?_set, if_pos rfl]
  · refine C149_default F fresh hs hc hg t (.derive rvOp.cls (some k) .refl (by omega)) (.up (p := rvOp.cls) (i := ⟨some rvOp.cls, none⟩) ?_ ?_ rfl .self) z
    · exact hw.df _ (by simp [op, hcl])
    · have : s'.classes = (s.create rvOp t true).2.classes ++ [⟨some rvOp.cls, none⟩] := rfl
      rw [this]
      have e : op.cls = (s.create rvOp t true).2.classes.length := hcl.symm
      simp [e]

/-- Two distributions: the log-probability is minus the value, or minus twice the value; the scale transform doubles. -/
def twoFuns : Funs ℕ Unit Unit ℤ where
  kernel k _ a := .ok (-(k : ℤ) * a)
  back _ z := 2 * z
  jac _ z := z
  add := (· + ·)

/-- One class with a log-probability. -/
def oneClass : St ℕ Unit Unit := ⟨[⟨none, none⟩], [(0, .fn 1)], []⟩

theorem oneClass_wf : WF oneClass where
  parent := by
    intro c i p hi hp
    match c with
    | 0 => simp [oneClass] at hi; subst hi; cases hp
    | c + 1 => simp [oneClass] at hi
  lp := by
    intro c hc
    simp only [oneClass, List.length_singleton] at hc
    simp [oneClass, Dict.get?]
    omega
  df := fun _ _ => rfl
  made := by
    intro c d hd
    simp [oneClass, Dict.get?] at hd

theorem oneClass_own : Own twoFuns oneClass ⟨0, ()⟩ (twoFuns.kernel 1 ()) := ⟨1, .here rfl, rfl⟩

/-- **C149** So the log-probability is another one than that of the variable on the transformed scale. -/
theorem C149_default_wrong : ∃ (s : St ℕ Unit Unit) (op : Op Unit) (f : ℤ → Except Err ℤ) (z : ℤ), WF s ∧ Own twoFuns s op f ∧ s.ask twoFuns () op (.explicit ()) z = changed twoFuns () f z ∧
    s.ask twoFuns () op .default z ≠ changed twoFuns () f z := by
  have h := C149_default_subclass twoFuns () oneClass_wf (rvOp := ⟨0, ()⟩) (by simp [oneClass]) oneClass_own () 2 ()
  refine ⟨_, _, _, 1, ?_, h.1, ?_, ?_⟩
  · exact derive_wf (create_wf oneClass_wf (by simp [oneClass]) () true) (by simp [oneClass, St.create]) (some 2)
  · exact C149_explicit twoFuns () (derive_wf (create_wf oneClass_wf (by simp [oneClass]) () true) (by simp [oneClass, St.create]) (some 2)) (by simp [oneClass, St.create, St.derive]) h.1 () 1
  · rw [h.2 1]
    simp [changed, twoFuns]

/-- A default transform, then a request with a given transform and a derived class. -/
example := C149_history twoFuns () (create_wf oneClass_wf (op := ⟨0, ()⟩) (by simp [oneClass]) () true)
  (.derive 0 (some 3) (.request ⟨0, ()⟩ (.explicit ()) .refl (by simp [oneClass, St.create])) (by simp [oneClass, St.create, St.request])) (op := ⟨0, ()⟩) (by simp [oneClass, St.create])

example := C149_made twoFuns () oneClass_wf (op := ⟨0, ()⟩) (by simp [oneClass]) oneClass_own () (.request ⟨0, ()⟩ (.explicit ()) .refl (by simp [oneClass, St.create])) 5

example := C149_stacked_raises twoFuns oneClass_wf (op := ⟨0, ()⟩) (by simp [oneClass]) () () () 5

example := C149_default_own_partial twoFuns () oneClass_wf (rvOp := ⟨0, ()⟩) (by simp [oneClass]) oneClass_own () .refl (op := ⟨0, ()⟩) .self .self (fun _ => rfl) ⟨1, .here rfl, rfl⟩ 5

/-- A second class next to the one with the default transform. -/
example := C149_default_others twoFuns () (s := oneClass.derive 0 (some 2)) (derive_wf oneClass_wf (by simp [oneClass]) (some 2)) (rvOp := ⟨1, ()⟩) (by simp [oneClass, St.derive]) () (op := ⟨0, ()⟩)
  (by simp [oneClass, St.derive]) (by
    intro h
    cases h with
    | up hi hp _ => simp [oneClass, St.derive] at hi; subst hi; cases hp)

end Verif.TClass
