import Verif.Model.Dirac
import Verif.Props.Indices
import Mathlib.Logic.Relation
import Mathlib.Algebra.BigOperators.Fin
import Mathlib.Algebra.Order.BigOperators.Group.Finset

/-! # C70: deterministic values commute with basic operations -/

namespace Verif
open FVal DExpr Relation

/-- The operators that lifting is meant for: one output; broadcasts, dimension shuffles and indexing with any number of inputs, elementwise
operators with one. -/
def DOp.Liftable {n : ℕ} (op : DOp n) : Prop := op.nout ≤ 1 ∧ match op.kind with
  | .elemwise => n = 0
  | .broadcastTo | .dimShuffle | .subtensor => True
  | .other => False

/-- Such operators, one after the other, applied to a Dirac delta with the given tolerances. -/
inductive Tower (r a : ℝ) : DExpr → Prop
  | dirac (x : DExpr) : Tower r a (.dirac r a x)
  | app {n : ℕ} (op : DOp n) (h : op.Liftable) {x : DExpr} (hx : Tower r a x) (rest : Fin n → DExpr) : Tower r a (.app op x rest)

/-- No rewrite applies. -/
def Irreducible (rewrite : DExpr → Option DExpr) (e : DExpr) : Prop := ∀ e', ¬ Step rewrite e e'

theorem lift_some {e e' : DExpr} (h : localLift e = some e') :
    ∃ (n : ℕ) (op : DOp n) (r a : ℝ) (x : DExpr) (rest : Fin n → DExpr), op.Liftable ∧ e = .app op (.dirac r a x) rest ∧ e' = .dirac r a (.app op x rest) := by
  rcases e with v | ⟨r, a, x⟩ | ⟨op, first, rest⟩
  · cases h
  · cases h
  · rename_i n
    simp only [localLift] at h
    split_ifs at h with h1 h2 h3
    rcases first with v | ⟨r, a, x⟩ | ⟨op', f, r'⟩
    · cases h
    · cases h
      refine ⟨n, op, r, a, x, rest, ⟨not_lt.1 h2, ?_⟩, rfl, rfl⟩
      rcases hk : op.kind with _ | _ | _ | _ | _ <;> simp_all
    · cases h

theorem lift_liftable {n : ℕ} {op : DOp n} (h : op.Liftable) (r a : ℝ) (x : DExpr) (rest : Fin n → DExpr) :
    localLift (.app op (.dirac r a x) rest) = some (.dirac r a (.app op x rest)) := by
  obtain ⟨h1, h2⟩ := h
  simp only [localLift]
  rcases hk : op.kind with _ | _ | _ | _ | _ <;> simp_all

theorem step_eval {rw' : DExpr → Option DExpr} (hrw : ∀ e e', rw' e = some e' → e'.eval = e.eval) {e e' : DExpr} (h : Step rw' e e') : e'.eval = e.eval := by
  induction h with
  | here h => exact hrw _ _ h
  | dirac h ih => exact ih
  | first h ih => simp only [eval, ih]
  | @rest n op x rest i y h ih =>
    simp only [eval]
    congr 1
    funext j
    by_cases hj : j = i
    · subst hj; rw [Function.update_self, ih]
    · rw [Function.update_of_ne hj]

theorem lift_eval (e e' : DExpr) (h : localLift e = some e') : e'.eval = e.eval := by
  obtain ⟨n, op, r, a, x, rest, -, rfl, rfl⟩ := lift_some h
  rfl

theorem remove_eval (e e' : DExpr) (h : localRemove e = some e') : e'.eval = e.eval := by
  rcases e with v | ⟨r, a, x⟩ | ⟨op, first, rest⟩ <;> cases h
  rfl

/-- **C70** (values) However often and wherever in the expression Dirac deltas are lifted, what the expression evaluates to does not change. -/
theorem C70_lift_value {e e' : DExpr} (h : ReflTransGen (Step localLift) e e') : e'.eval = e.eval := by
  induction h with
  | refl => rfl
  | tail _ h ih => rw [step_eval lift_eval h, ih]

/-- **C70** (values) The same for the removal of Dirac deltas. -/
theorem C70_remove_value {e e' : DExpr} (h : ReflTransGen (Step localRemove) e e') : e'.eval = e.eval := by
  induction h with
  | refl => rfl
  | tail _ h ih => rw [step_eval remove_eval h, ih]

theorem tower_step {r a : ℝ} {e e' : DExpr} (ht : Tower r a e) (h : Step localLift e e') : Tower r a e' := by
  induction h generalizing r a with
  | here h =>
    obtain ⟨n, op, r', a', x, rest, hl, rfl, rfl⟩ := lift_some h
    cases ht with
    | app _ hl hx => cases hx; exact .dirac _
  | dirac h ih => cases ht; exact .dirac _
  | first h ih => cases ht with | app _ hl hx => exact .app _ hl (ih hx) _
  | rest i h ih => cases ht with | app _ hl hx => exact .app _ hl hx _

theorem tower_irreducible {r a : ℝ} {e : DExpr} (ht : Tower r a e) (h : Irreducible localLift e) : ∃ x, e = .dirac r a x := by
  induction ht with
  | dirac x => exact ⟨x, rfl⟩
  | app op hl hx rest ih =>
    obtain ⟨x, rfl⟩ := ih fun e' he' => h _ (.first he')
    exact absurd (Step.here (lift_liftable hl r a x rest)) (h _)

/-- **C70** (log-probabilities) Any number of unary elementwise operations, broadcasts, dimension shuffles and indexing operations on a Dirac delta: whatever the
order in which lifting is applied, when it applies no more the expression is a Dirac delta with the same tolerances at the value of the
original expression, so its log-probability is the Dirac log-probability of that value. -/
theorem C70_lift_logprob {r a : ℝ} {e e' : DExpr} (ht : Tower r a e) (h : ReflTransGen (Step localLift) e e') (hirr : Irreducible localLift e') (values : Arr FVal) :
    e'.logprob values = diracArrayLogprob r a values e.eval := by
  have ht' : Tower r a e' := by
    clear hirr
    induction h with
    | refl => exact ht
    | tail _ h ih => exact tower_step ih h
  obtain ⟨x, rfl⟩ := tower_irreducible ht' hirr
  rw [← C70_lift_value h]
  rfl

/-- The number of Dirac deltas. -/
def diracs : DExpr → ℕ
  | .leaf _ => 0
  | .dirac _ _ x => diracs x + 1
  | .app _ first rest => diracs first + ∑ i, diracs (rest i)

/-- The number of pairs of a Dirac delta and an operator above it. -/
def height : DExpr → ℕ
  | .leaf _ => 0
  | .dirac _ _ x => height x
  | .app _ first rest => height first + ∑ i, height (rest i) + (diracs first + ∑ i, diracs (rest i))

theorem sum_update {n : ℕ} (f : DExpr → ℕ) (rest : Fin n → DExpr) (i : Fin n) (y : DExpr) :
    (∑ j, f (Function.update rest i y j)) + f (rest i) = (∑ j, f (rest j)) + f y := by
  have h1 := Finset.add_sum_erase Finset.univ (fun j => f (Function.update rest i y j)) (Finset.mem_univ i)
  have h2 := Finset.add_sum_erase Finset.univ (fun j => f (rest j)) (Finset.mem_univ i)
  have h3 : ∑ j ∈ Finset.univ.erase i, f (Function.update rest i y j) = ∑ j ∈ Finset.univ.erase i, f (rest j) :=
    Finset.sum_congr rfl fun j hj => by rw [Function.update_of_ne (Finset.ne_of_mem_erase hj)]
  simp only [Function.update_self] at h1
  omega

theorem step_height {e e' : DExpr} (h : Step localLift e e') : diracs e' = diracs e ∧ height e' < height e := by
  induction h with
  | here h =>
    obtain ⟨n, op, r', a', x, rest, hl, rfl, rfl⟩ := lift_some h
    simp only [diracs, height]
    omega
  | dirac h ih => simp only [diracs, height]; omega
  | first h ih => simp only [diracs, height]; omega
  | @rest n op x rest i y h ih =>
    have h1 := sum_update diracs rest i y
    have h2 := sum_update height rest i y
    simp only [diracs, height]
    omega

/-- **C70** (termination) Lifting stops: from every expression an expression that cannot be lifted further is reached, and there is no infinite sequence. -/
theorem C70_lift_terminates : WellFounded (fun e' e => Step localLift e e') ∧ ∀ e, ∃ e', ReflTransGen (Step localLift) e e' ∧ Irreducible localLift e' := by
  have hwf : WellFounded (fun e' e => Step localLift e e') :=
    Subrelation.wf (fun h => (step_height h).2) (InvImage.wf height Nat.lt_wfRel.wf)
  refine ⟨hwf, fun e => ?_⟩
  induction e using hwf.induction with
  | _ e ih =>
    by_cases h : Irreducible localLift e
    · exact ⟨e, .refl, h⟩
    · simp only [Irreducible, not_forall, not_not] at h
      obtain ⟨e1, h1⟩ := h
      obtain ⟨e', h2, h3⟩ := ih e1 h1
      exact ⟨e', .head h1 h2, h3⟩

/-- **C70** (other operations) An elementwise operation with several inputs, an operation with several outputs or of any other kind stays where it is. -/
theorem C70_not_lifted {n : ℕ} {op : DOp n} (hop : ¬ op.Liftable) {x : DExpr} {rest : Fin n → DExpr} {e' : DExpr} (h : ReflTransGen (Step localLift) (.app op x rest) e') :
    ∃ x' rest', e' = .app op x' rest' := by
  induction h with
  | refl => exact ⟨_, _, rfl⟩
  | tail _ h ih =>
    obtain ⟨x', rest', rfl⟩ := ih
    cases h with
    | here h =>
      obtain ⟨n, op', r', a', x, rest, hl, h1, rfl⟩ := lift_some h
      cases h1
      exact absurd hl hop
    | first h => exact ⟨_, _, rfl⟩
    | rest i h => exact ⟨_, _, rfl⟩

theorem removed {e : DExpr} (h : Irreducible localRemove e) : diracs e = 0 := by
  induction e with
  | leaf v => rfl
  | dirac r a x _ => exact absurd (Step.here (rewrite := localRemove) (e := .dirac r a x) rfl) (h x)
  | app op first rest ih1 ih2 =>
    simp only [diracs, ih1 fun e' he' => h _ (.first he'), zero_add, Finset.sum_eq_zero_iff, Finset.mem_univ, true_implies]
    exact fun i => ih2 i fun e' he' => h _ (.rest i he')

theorem remove_fewer {e e' : DExpr} (h : Step localRemove e e') : diracs e' < diracs e := by
  induction h with
  | @here e e' h =>
    rcases e with v | ⟨r, a, x⟩ | ⟨op, first, rest⟩ <;> cases h
    simp only [diracs]; omega
  | dirac h ih => simp only [diracs]; omega
  | first h ih => simp only [diracs]; omega
  | @rest n op x rest i y h ih =>
    have h1 := sum_update diracs rest i y
    simp only [diracs]
    omega

/-- **C70** (removal) Removal stops, in whatever order, and then no Dirac delta is left. -/
theorem C70_removed : WellFounded (fun e' e => Step localRemove e e') ∧ (∀ e, Irreducible localRemove e → diracs e = 0) ∧
    ∀ e, ∃ e', ReflTransGen (Step localRemove) e e' ∧ diracs e' = 0 ∧ e'.eval = e.eval := by
  have hwf : WellFounded (fun e' e => Step localRemove e e') :=
    Subrelation.wf (fun h => remove_fewer h) (InvImage.wf diracs Nat.lt_wfRel.wf)
  refine ⟨hwf, fun e => removed, fun e => ?_⟩
  induction e using hwf.induction with
  | _ e ih =>
    by_cases h : Irreducible localRemove e
    · exact ⟨e, .refl, removed h, rfl⟩
    · simp only [Irreducible, not_forall, not_not] at h
      obtain ⟨e1, h1⟩ := h
      obtain ⟨e', h2, h3, h4⟩ := ih e1 h1
      exact ⟨e', .head h1 h2, h3, C70_remove_value (.head h1 h2)⟩

/-- **C70** (point mass) The Dirac log-probability of the value of an expression, at this value (all elements finite, tolerances not negative): zero everywhere. -/
theorem C70_point_mass {r a : ℝ} (hr : 0 ≤ r) (ha : 0 ≤ a) {v : Arr FVal} {x : List ℕ → ℝ} (hv : ∀ c, InRange c v.shape → v.get c = fin (x c)) :
    ∃ l, diracArrayLogprob r a v v = .ok l ∧ l.shape = v.shape ∧ ∀ c, InRange c v.shape → l.get c = 0 := by
  have hb : bshape [v.shape, v.shape] = some v.shape := bshape_replicate (by simp) (by simp)
  refine ⟨⟨v.shape, fun c => diracLogprob r a ((v.bcastTo v.shape).get c) ((v.bcastTo v.shape).get c)⟩, by simp only [diracArrayLogprob, hb]; rfl, rfl, fun c hc => ?_⟩
  have : isclose r a (v.get (project c v.shape)) (v.get (project c v.shape)) := by
    rw [project_self hc, hv c hc]
    simp only [isclose, sub_self, abs_zero]
    positivity
  exact if_pos this

/-- **C70** (point mass) At a value that differs by more than the tolerance in some element: minus infinity there. -/
theorem C70_off_mass {r a : ℝ} {v w : Arr FVal} (hs : w.shape = v.shape) {c : List ℕ} (hc : InRange c v.shape) {x y : ℝ} (hv : v.get c = fin x) (hw : w.get c = fin y)
    (hd : a + r * |x| < |y - x|) : ∃ l, diracArrayLogprob r a w v = .ok l ∧ l.get c = ninf := by
  have hb : bshape [w.shape, v.shape] = some v.shape := bshape_replicate (by simp [hs]) (by simp)
  refine ⟨⟨v.shape, fun c => diracLogprob r a ((w.bcastTo v.shape).get c) ((v.bcastTo v.shape).get c)⟩, by simp only [diracArrayLogprob, hb]; rfl, ?_⟩
  have hp : project c w.shape = c := by rw [hs]; exact project_self hc
  have : ¬ isclose r a (w.get (project c w.shape)) (v.get (project c v.shape)) := by
    rw [project_self hc, hp, hv, hw]
    simpa [isclose] using hd
  exact if_neg this

namespace DiracDemo

/-- The elementwise exponential and an operation that takes the element at an index. -/
noncomputable def expOp : DOp 0 := ⟨.elemwise, 1, fun x _ => ⟨x.shape, fun c => FVal.exp (x.get c)⟩⟩
def takeOp : DOp 1 := ⟨.subtensor, 1, fun x i => ⟨[], fun _ => x.get ((i 0).shape)⟩⟩
noncomputable def addOp : DOp 1 := ⟨.elemwise, 1, fun x y => ⟨x.shape, fun c => x.get c + (y 0).get c⟩⟩

/-- `exp(dirac(v))[i]` -/
noncomputable def e (v i : Arr FVal) : DExpr := .app takeOp (.app expOp (.dirac 1e-5 1e-8 (.leaf v)) Fin.elim0) fun _ => .leaf i

theorem tower (v i : Arr FVal) : Tower 1e-5 1e-8 (e v i) := .app _ ⟨le_rfl, trivial⟩ (.app _ ⟨le_rfl, rfl⟩ (.dirac _) _) _

end DiracDemo

open DiracDemo in
example (v i w : Arr FVal) := C70_lift_logprob (tower v i) (C70_lift_terminates.2 _).choose_spec.1 (C70_lift_terminates.2 _).choose_spec.2 w

open DiracDemo in
example (v i : Arr FVal) := C70_lift_value (e := e v i) (C70_lift_terminates.2 _).choose_spec.1

open DiracDemo in
example (v i : Arr FVal) := C70_remove_value (e := e v i) (C70_removed.2.2 _).choose_spec.1

open DiracDemo in
example (v i : Arr FVal) := C70_not_lifted (op := addOp) (fun h => absurd h.2 (by simp [addOp])) (x := e v i) (rest := fun _ => .leaf i) (C70_lift_terminates.2 _).choose_spec.1

example := C70_point_mass (r := 1e-5) (a := 1e-8) (by norm_num) (by norm_num) (v := ⟨[2, 2], fun _ => fin 3⟩) (x := fun _ => 3) (fun _ _ => rfl)

example := C70_off_mass (r := 1e-5) (a := 1e-8) (v := ⟨[2], fun _ => fin 3⟩) (w := ⟨[2], fun _ => fin 4⟩) rfl (c := [1]) (.cons (by norm_num) .nil) rfl rfl (by norm_num)

end Verif
