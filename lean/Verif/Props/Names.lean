import Verif.Spec.Names
import Verif.Props.Local

/-! # C131, C132: `logprob` called on its own, and the names of log-probabilities and values -/

namespace Verif.Full
open Verif Cond

variable {Di : Type} {ρ : ℕ → FVal} {ω : ℕ → Di → List FVal → FVal} {defs : ℕ → Option (Expr Di)} {d : Dict ℕ ℕ}

/-! ## `logprob` -/

theorem eval_given {R : ℕ → Prop} (hR : ∀ w, R w ↔ w ∈ Dict.keys d) {e : Expr Di} (hc : Closed defs e) (h : ∀ w x f, Reads R w e → Dict.get? d w = some x → defs w = some f → eval ρ ω f = ρ x) :
    eval ρ ω (cleanup (replaceValued d e)) = eval ρ ω e := by
  induction e with
  | const => rfl
  | inp => rfl
  | app id k op n args ih =>
    cases hx : Dict.get? d id with
    | some x =>
      simp only [replaceValued, hx, cleanup]
      exact (h id x _ (.here rfl) hx hc.1).symm
    | none =>
      have hn : ¬ R id := fun hr => by
        obtain ⟨y, hy⟩ := Dict.get?_isSome.2 ((hR id).1 hr)
        rw [hx] at hy; cases hy
      simp only [replaceValued, hx, cleanup, eval]
      congr 2
      funext i
      exact ih i (hc.2 i) fun w x f hr => h w x f (.app i hn hr)
  | rv id dist n args ih =>
    cases hx : Dict.get? d id with
    | some x =>
      simp only [replaceValued, hx, cleanup]
      exact (h id x _ (.here rfl) hx hc.1).symm
    | none =>
      have hn : ¬ R id := fun hr => by
        obtain ⟨y, hy⟩ := Dict.get?_isSome.2 ((hR id).1 hr)
        rw [hx] at hy; cases hy
      simp only [replaceValued, hx, cleanup, eval]
      congr 2
      funext i
      exact ih i (hc.2 i) fun w x f hr => h w x f (.rv i hn hr)
  | valued r v => exact hc.elim

section

variable [IR.Normals Di] {kd : Di → Kind} {hasCdf : Di → Bool}

/-- **C131** For a random variable, `logprob` at its value is the same number as its term in `conditional_logprob`, provided that the draws of its parents in the former are the values they have in the latter.
Missing: functions of random variables, for which `logprob` raises (`C131_function_wrong`). -/
theorem C131_logprob_partial (reg : Registry Di) (hN : ∀ dist, IR.Normals.isNormal dist = true → hasCdf dist = true) (hwf : WellFormed defs) {rvs clones : List ℕ} {realized : Dict ℕ ℕ}
    (q : Request defs rvs clones realized) {S : ℕ → Bool} (hrun : Run kd (outputs defs (rvValues rvs clones realized)) S) {terms : Dict ℕ (Term Di)} {vvs : List ℕ}
    (hok : conditional hasCdf S defs rvs clones realized = .ok (terms, vvs)) {v x : ℕ} (hv : Given rvs clones realized v x) {dist : Di} {n : ℕ} {args : Fin n → Expr Di}
    (he : defs v = some (.rv v dist n args)) (hdr : DrawsAgree ρ ω defs rvs clones realized (.rv v dist n args)) :
    ∃ t t', Dict.get? terms v = some t ∧ logprobCall (.rv v dist n args) x = .ok t' ∧ callEval reg kd ρ ω t' = t.eval reg kd ρ ω := by
  have hx := (given_iff q.nodup q.keys v x).2 hv
  have hk := (q.mem v).1 (Dict.get?_isSome.1 ⟨x, hx⟩)
  obtain ⟨x', e', m, hx', he', hm, ht⟩ := term_of hN hwf q.len q.defined hrun hok hk
  rw [hx] at hx'
  rw [he] at he'
  cases hx'
  cases he'
  simp only [cloneOf, measOf] at hm
  cases hm
  refine ⟨_, _, ht, rfl, ?_⟩
  simp only [callEval, Term.eval, MVar.lp]
  congr 2
  funext i
  exact (eval_given (R := fun w => w ∈ rvs ∨ w ∈ Dict.keys realized) (fun w => (q.mem w).symm) ((hwf _ _ he).2.2 i) fun w y f hr hy hf =>
    hdr w y f ⟨i, hr⟩ ((given_iff q.nodup q.keys w y).1 hy) hf).symm

/-- **C131** (functions) `logprob` raises `NotImplementedError` for every function of random variables, although `conditional_logprob` gives its term. -/
theorem C131_function_wrong (hN : ∀ dist, IR.Normals.isNormal dist = true → hasCdf dist = true) (hwf : WellFormed defs) {rvs clones : List ℕ} {realized : Dict ℕ ℕ} (q : Request defs rvs clones realized) {S : ℕ → Bool}
    (hrun : Run kd (outputs defs (rvValues rvs clones realized)) S) {terms : Dict ℕ (Term Di)} {vvs : List ℕ} (hok : conditional hasCdf S defs rvs clones realized = .ok (terms, vvs)) {v x : ℕ}
    (hv : Given rvs clones realized v x) {k : Kind} {op : Op} {n : ℕ} {args : Fin n → Expr Di} (he : defs v = some (.app v k op n args)) :
    (∃ t, Dict.get? terms v = some t) ∧ logprobCall (.app v k op n args) x = .error .notImplemented := by
  have hx := (given_iff q.nodup q.keys v x).2 hv
  obtain ⟨x', e', m, -, -, -, ht⟩ := term_of hN hwf q.len q.defined hrun hok ((q.mem v).1 (Dict.get?_isSome.1 ⟨x, hx⟩))
  exact ⟨⟨_, ht⟩, rfl⟩

/-! ## Names -/

omit [IR.Normals Di] in
theorem get_named {β γ : Type} (terms : Dict ℕ β) (g : ℕ → γ) (v : ℕ) : Dict.get? (terms.map fun p => (p.1, p.2, g p.1)) v = (Dict.get? terms v).map fun t => (t, g v) := by
  induction terms with
  | nil => rfl
  | cons p l ih =>
    obtain ⟨a, b⟩ := p
    simp only [List.map_cons, Dict.get?]
    split_ifs with h
    · rw [h]; rfl
    · exact ih

/-- What the name of a log-probability is, for every way in which a variable can be made. -/
theorem name_of (hN : ∀ dist, IR.Normals.isNormal dist = true → hasCdf dist = true) (hwf : WellFormed defs) {rvs clones : List ℕ} {realized : Dict ℕ ℕ} (q : Request defs rvs clones realized)
    {S : ℕ → Bool} (hrun : Run kd (outputs defs (rvValues rvs clones realized)) S) (nm : ℕ → Option Text) {names : Dict ℕ (Term Di × Option Text)}
    (hok : conditionalNamed hasCdf S nm defs rvs clones realized = .ok names) {v : ℕ} (hv : v ∈ rvs ∨ v ∈ Dict.keys realized) {e : Expr Di} (he : defs v = some e) :
    ∃ t, Dict.get? names v = some (t, termName nm S defs (rvValues rvs clones realized) v) := by
  cases hc : conditional hasCdf S defs rvs clones realized with
  | error err => simp only [conditionalNamed, hc] at hok; cases hok
  | ok r =>
    obtain ⟨terms, vvs⟩ := r
    simp only [conditionalNamed, hc] at hok
    cases hok
    obtain ⟨x, e', m, -, he', -, ht⟩ := term_of hN hwf q.len q.defined hrun hc hv
    exact ⟨_, by rw [get_named, ht]; rfl⟩

/-- **C132** (log-probabilities) The log-probability of a variable `s` is named `s_logprob` when the variable is a random variable or an elementwise function, clip or rounding of one.
Missing: mixtures and sums of normal variables, for which it is false (`C132_mixture_name`, `C132_sum_name`). -/
theorem C132_term_partial (hN : ∀ dist, IR.Normals.isNormal dist = true → hasCdf dist = true) (hwf : WellFormed defs) {rvs clones : List ℕ} {realized : Dict ℕ ℕ} (q : Request defs rvs clones realized)
    {S : ℕ → Bool} (hrun : Run kd (outputs defs (rvValues rvs clones realized)) S) (nm : ℕ → Option Text) {names : Dict ℕ (Term Di × Option Text)}
    (hok : conditionalNamed hasCdf S nm defs rvs clones realized = .ok names) {v : ℕ} (hv : v ∈ rvs ∨ v ∈ Dict.keys realized) {e : Expr Di} (he : defs v = some e)
    (hd : Derived (fun w => w ∈ rvs ∨ w ∈ Dict.keys realized) kd false e) (hsum : ¬ IsNormalSum (fun w => w ∈ rvs ∨ w ∈ Dict.keys realized) e) {s : Text} (hs : nm v = some s) (hne : s ≠ []) :
    ∃ t, Dict.get? names v = some (t, some (docTerm s)) := by
  obtain ⟨t, ht⟩ := name_of hN hwf q hrun nm hok hv he
  refine ⟨t, ht.trans ?_⟩
  have hid := (hwf _ _ he).1
  have hkd : (fun w => w ∈ rvs ∨ w ∈ Dict.keys realized) = (· ∈ Dict.keys (rvValues rvs clones realized)) := funext fun v => propext (q.mem v).symm
  rw [hkd] at hd hsum
  obtain ⟨c, cs, rfl⟩ := List.exists_cons_of_ne_nil hne
  have hm : measName nm S (cloneOf (rvValues rvs clones realized) e) = some (c :: cs) := by
    have hD := hrun.done hwf
    have ho : cloneOf (rvValues rvs clones realized) e ∈ outputs defs (rvValues rvs clones realized) := by
      obtain ⟨p, hp, rfl⟩ := List.mem_map.1 ((q.mem v).2 hv)
      exact List.mem_filterMap.2 ⟨p, hp, by rw [he]; rfl⟩
    have hc := (hwf _ _ he).2
    have hS := hD.complete hc ho (.refl _) hd
    cases hd with
    | rv id dist n args => cases hid; exact hs
    | @elem id k op n args i a1 a2 a3 a4 a5 =>
      cases hid
      have hr := a2.replace_eq a3
      have hf := hD.inv.filter hc.2 (i := i) (by rw [hr]; exact hD.complete (hc.2 i) ho (sub_arg (.refl _) i hr) a2) a5
      have hS' : S v = true := hS
      simp only [cloneOf, measName, hS', if_true, hf, hs]
    | @normals id k op n args hop ha => exact absurd ⟨id, k, op, n, args, rfl, hop, ha⟩ hsum
    | clip => cases hid; exact hs
    | round => cases hid; exact hs
  simp only [termName, hs, truthy, he, hm, nameText, docTerm]

/-- **C132** (mixtures) The log-probability of a mixture `s` is named `s-mixture_logprob`. -/
theorem C132_mixture_name (hN : ∀ dist, IR.Normals.isNormal dist = true → hasCdf dist = true) (hwf : WellFormed defs) {rvs clones : List ℕ} {realized : Dict ℕ ℕ} (q : Request defs rvs clones realized)
    {S : ℕ → Bool} (hrun : Run kd (outputs defs (rvValues rvs clones realized)) S) (nm : ℕ → Option Text) {names : Dict ℕ (Term Di × Option Text)}
    (hok : conditionalNamed hasCdf S nm defs rvs clones realized = .ok names) {v : ℕ} (hv : v ∈ rvs ∨ v ∈ Dict.keys realized) {e : Expr Di} (he : defs v = some e)
    (hd : Derived (fun w => w ∈ rvs ∨ w ∈ Dict.keys realized) kd true e) {s : Text} (hs : nm v = some s) (hne : s ≠ []) :
    ∃ t, Dict.get? names v = some (t, some (s ++ "-mixture_logprob".toList)) := by
  obtain ⟨t, ht⟩ := name_of hN hwf q hrun nm hok hv he
  refine ⟨t, ht.trans ?_⟩
  have hid := (hwf _ _ he).1
  have hkd : (fun w => w ∈ rvs ∨ w ∈ Dict.keys realized) = (· ∈ Dict.keys (rvValues rvs clones realized)) := funext fun v => propext (q.mem v).symm
  rw [hkd] at hd
  obtain ⟨c, cs, rfl⟩ := List.exists_cons_of_ne_nil hne
  have hm : measName nm S (cloneOf (rvValues rvs clones realized) e) = some ((c :: cs) ++ "-mixture".toList) := by
    have hD := hrun.done hwf
    have ho : cloneOf (rvValues rvs clones realized) e ∈ outputs defs (rvValues rvs clones realized) := by
      obtain ⟨p, hp, rfl⟩ := List.mem_map.1 ((q.mem v).2 hv)
      exact List.mem_filterMap.2 ⟨p, hp, by rw [he]; rfl⟩
    have hS := hD.complete (hwf _ _ he).2 ho (.refl _) hd
    cases hd with
    | switch =>
      cases hid
      have hS' : S v = true := hS
      simp only [cloneOf, measName, hS', if_true, hs, mixtureName, truthy]
    | pick =>
      cases hid
      have hS' : S v = true := hS
      simp only [cloneOf, measName, hS', if_true, hs, mixtureName, truthy]
  simp only [termName, hs, truthy, he, hm, nameText, List.append_assoc]
  rfl

/-- **C132** (sums of normal variables) The log-probability of a named sum or difference of normal variables is named `None_logprob`, whatever its name. -/
theorem C132_sum_name (hN : ∀ dist, IR.Normals.isNormal dist = true → hasCdf dist = true) (hwf : WellFormed defs) {rvs clones : List ℕ} {realized : Dict ℕ ℕ} (q : Request defs rvs clones realized)
    {S : ℕ → Bool} (hrun : Run kd (outputs defs (rvValues rvs clones realized)) S) (nm : ℕ → Option Text) {names : Dict ℕ (Term Di × Option Text)}
    (hok : conditionalNamed hasCdf S nm defs rvs clones realized = .ok names) {v : ℕ} (hv : v ∈ rvs ∨ v ∈ Dict.keys realized) {e : Expr Di} (he : defs v = some e)
    (hsum : IsNormalSum (fun w => w ∈ rvs ∨ w ∈ Dict.keys realized) e) {s : Text} (hs : nm v = some s) (hne : s ≠ []) :
    ∃ t, Dict.get? names v = some (t, some "None_logprob".toList) := by
  obtain ⟨t, ht⟩ := name_of hN hwf q hrun nm hok hv he
  refine ⟨t, ht.trans ?_⟩
  have hid := (hwf _ _ he).1
  have hkd : (fun w => w ∈ rvs ∨ w ∈ Dict.keys realized) = (· ∈ Dict.keys (rvValues rvs clones realized)) := funext fun v => propext (q.mem v).symm
  rw [hkd] at hsum
  obtain ⟨c, cs, rfl⟩ := List.exists_cons_of_ne_nil hne
  obtain ⟨id, k, op, n, args, rfl, hop, ha⟩ := hsum
  cases hid
  have hm : measName nm S (cloneOf (rvValues rvs clones realized) (.app v k (.elem op) n args)) = none := by
    have hD := hrun.done hwf
    have ho : cloneOf (rvValues rvs clones realized) (.app v k (.elem op) n args) ∈ outputs defs (rvValues rvs clones realized) := by
      obtain ⟨p, hp, rfl⟩ := List.mem_map.1 ((q.mem v).2 hv)
      exact List.mem_filterMap.2 ⟨p, hp, by rw [he]; rfl⟩
    have hc := (hwf _ _ he).2
    have hS : S v = true := hD.complete (b := false) hc ho (.refl _) (.normals hop ha)
    have hma : ∀ i, isMeas S (replaceValued (rvValues rvs clones realized) (args i)) = true := fun i => by
      have hr := (ha i).replace_eq
      rw [hr]
      have hs' := sub_arg (.refl (cloneOf (rvValues rvs clones realized) (.app v k (.elem op) n args))) i hr
      have hn := ha i
      have hci := hc.2 i
      generalize args i = a at hs' hn hci ⊢
      cases hn with
      | rv => rfl
      | sum a1 a2 a3 => exact hD.complete (b := false) hci ho hs' (.normals a1 a3)
    simp only [cloneOf, measName, hS, if_true]
    split
    · rename_i i hf
      exact absurd hf (IR.filter_two hop.two hma i)
    · rfl
  simp only [termName, hs, truthy, he, hm, nameText]
  rfl

/-- **C132** (values) The value variable of a variable `s` is named `s_vv` if it has no transform, and a variable without name gets a value variable without name. -/
theorem C132_value_partial : (∀ s : Text, s ≠ [] → returnedName false (some s) = some (docValue s)) ∧ ∀ rv, rv = none ∨ rv = some [] → returnedName false rv = rv := by
  refine ⟨fun s hne => ?_, ?_⟩
  · obtain ⟨c, cs, rfl⟩ := List.exists_cons_of_ne_nil hne
    rfl
  · rintro rv (rfl | rfl) <;> rfl

/-- **C132** (transformed values) The value variable on the transformed scale is never named as documented: all of them have the same name. -/
theorem C132_trans_wrong (s : Text) : returnedName true (some s) = some "val_clone-trans".toList ∧ returnedName true (some s) ≠ some (docTrans s) := by
  refine ⟨rfl, fun h => ?_⟩
  have h' : ("val_clone-trans".toList).reverse = (docTrans s).reverse := congrArg List.reverse (Option.some.inj h)
  simp [docTrans] at h'

end

end Verif.Full

/-! ## Examples -/

namespace Verif.Full.NamesDemo
open Verif Cond Demo LocalDemo

/-- The clipped variable `C` and the variable `Y` that depends on it, the mixture `Z` and the sum `T`. -/
theorem ok13 {S : ℕ → Bool} (hrun : Run kd (outputs defs (rvValues [1, 3] [11, 13] [])) S) : ∃ terms vvs, conditional (fun _ => true) S defs [1, 3] [11, 13] [] = .ok (terms, vvs) := by
  refine (C99_outcome (fun _ _ => rfl) wf (rvs := [1, 3]) (clones := [11, 13]) (realized := []) rfl (by simp [Dict.keys, defs, Dict.get?]) hrun).1.2 fun v e hv he => ?_
  simp only [List.mem_cons, List.not_mem_nil, or_false, Dict.keys, List.map_nil] at hv ⊢
  rcases hv with rfl | rfl
  · cases he
    exact ⟨⟨false, .clip (.rv ..) (noValue rfl (by simp))⟩, .clip (args := ![X, .const (.fin (-1)), .const (.fin 1)]) (.rv rfl)⟩
  · cases he
    exact ⟨⟨false, .rv ..⟩, .rv ..⟩

theorem draws {ρ : ℕ → FVal} {ω : ℕ → Bool → List FVal → FVal} (hρ : eval ρ ω C = ρ 11) : DrawsAgree ρ ω defs [1, 3] [11, 13] [] Y := by
  intro w x f hp hx hf
  obtain ⟨i, hr⟩ := hp
  have hw : w = 1 := by
    fin_cases i
    · cases hr with
      | here h => cases h; rfl
      | app i h _ => exact absurd (by simp) h
    · exact absurd hr (noReads _)
  subst hw
  have hx' := (given_iff (rvs := [1, 3]) (clones := [11, 13]) (realized := []) (by simp) (by simp [Dict.keys]) 1 x).2 hx
  have : x = 11 := by
    have h2 : Dict.get? (rvValues [1, 3] [11, 13] []) 1 = some 11 := by decide
    rw [h2] at hx'
    cases hx'
    rfl
  subst this
  cases hf
  exact hρ

example (reg : Registry Bool) {ρ : ℕ → FVal} {ω : ℕ → Bool → List FVal → FVal} (hρ : eval ρ ω C = ρ 11) {S : ℕ → Bool} (hrun : Run kd (outputs defs (rvValues [1, 3] [11, 13] [])) S) :
    ∃ terms vvs t t', conditional (fun _ => true) S defs [1, 3] [11, 13] [] = .ok (terms, vvs) ∧ Dict.get? terms 3 = some t ∧ logprobCall Y 13 = .ok t' ∧ callEval reg kd ρ ω t' = t.eval reg kd ρ ω := by
  obtain ⟨terms, vvs, h⟩ := ok13 hrun
  have q := request (rvs := [1, 3]) (clones := [11, 13]) rfl (by simp) (by simp)
  obtain ⟨t, t', h1⟩ := C131_logprob_partial (v := 3) (x := 13) reg (fun _ _ => rfl) wf q hrun h ((given_iff q.nodup q.keys 3 13).1 (by decide)) (args := ![C, .const (.fin 1)]) (by rfl) (draws hρ)
  exact ⟨terms, vvs, t, t', h, h1⟩

/-- Such draws exist. -/
example : ∃ (ρ : ℕ → FVal) (ω : ℕ → Bool → List FVal → FVal), eval ρ ω C = ρ 11 := ⟨fun _ => eval (fun _ => .nan) (fun _ _ _ => .fin 0) C, fun _ _ _ => .fin 0, rfl⟩

/-- `logprob` of the clipped variable raises. -/
example {S : ℕ → Bool} (hrun : Run kd (outputs defs (rvValues [1, 3] [11, 13] [])) S) :
    ∃ terms vvs, conditional (fun _ => true) S defs [1, 3] [11, 13] [] = .ok (terms, vvs) ∧ (∃ t, Dict.get? terms 1 = some t) ∧ logprobCall C 11 = .error .notImplemented := by
  obtain ⟨terms, vvs, h⟩ := ok13 hrun
  have q := request (rvs := [1, 3]) (clones := [11, 13]) rfl (by simp) (by simp)
  exact ⟨terms, vvs, h, C131_function_wrong (v := 1) (x := 11) (fun _ _ => rfl) wf q hrun h ((given_iff q.nodup q.keys 1 11).1 (by decide)) (args := ![X, .const (.fin (-1)), .const (.fin 1)]) (by rfl)⟩

def nm : ℕ → Option Text := fun v => some (List.replicate (v + 1) 'X')

theorem named {rvs clones : List ℕ} {realized : Dict ℕ ℕ} {S : ℕ → Bool} {terms : Dict ℕ (Term Bool)} {vvs : List ℕ} (h : conditional (fun _ => true) S defs rvs clones realized = .ok (terms, vvs)) :
    ∃ names, conditionalNamed (fun _ => true) S nm defs rvs clones realized = .ok names := by
  rw [conditionalNamed, h]
  exact ⟨_, rfl⟩

/-- The clipped variable is named as documented. -/
example {S : ℕ → Bool} (hrun : Run kd (outputs defs (rvValues [1, 3] [11, 13] [])) S) :
    ∃ names t, conditionalNamed (fun _ => true) S nm defs [1, 3] [11, 13] [] = .ok names ∧ Dict.get? names 1 = some (t, some "XX_logprob".toList) := by
  obtain ⟨terms, vvs, h⟩ := ok13 hrun
  obtain ⟨names, hn⟩ := named h
  obtain ⟨t, ht⟩ := C132_term_partial (v := 1) (e := C) (s := "XX".toList) (fun _ _ => rfl) wf (request (rvs := [1, 3]) (clones := [11, 13]) rfl (by simp) (by simp)) hrun nm hn (by simp) rfl
    (.clip (.rv ..) (noValue rfl (by simp [Dict.keys]))) (by rintro ⟨id, k, op, n, args, h, -⟩; cases h) rfl (by decide)
  exact ⟨names, t, hn, ht⟩

/-- The mixture is not. -/
example {S : ℕ → Bool} (hrun : Run kd (outputs defs (rvValues [5] [15] [])) S) :
    ∃ names t, conditionalNamed (fun _ => true) S nm defs [5] [15] [] = .ok names ∧ Dict.get? names 5 = some (t, some "XXXXXX-mixture_logprob".toList) := by
  have q := request (rvs := [5]) (clones := [15]) rfl (by simp) (by simp)
  obtain ⟨terms, vvs, h⟩ := (C99_outcome (hasCdf := fun _ => true) (fun _ _ => rfl) wf q.len q.defined hrun).1.2 fun w f hw hf => by
    have hw : w = 5 := by simpa [Dict.keys] using hw
    subst hw
    cases hf
    exact made_Z
  obtain ⟨names, hn⟩ := named h
  obtain ⟨t, ht⟩ := C132_mixture_name (v := 5) (e := Z) (s := "XXXXXX".toList) (fun _ _ => rfl) wf q hrun nm hn (by simp) rfl
    (derived_Z (by simp [Dict.keys]) (by simp [Dict.keys]) (by simp [Dict.keys])) rfl (by decide)
  exact ⟨names, t, hn, ht⟩

/-- Neither is the difference of two normal variables. -/
example {S : ℕ → Bool} (hrun : Run kd (outputs defs (rvValues [9] [19] [])) S) :
    ∃ names t, conditionalNamed (fun _ => true) S nm defs [9] [19] [] = .ok names ∧ Dict.get? names 9 = some (t, some "None_logprob".toList) := by
  have q := request (rvs := [9]) (clones := [19]) rfl (by simp) (by simp)
  have hT : ∀ i : Fin 2, NormalVar (fun w => w ∈ [9] ∨ w ∈ Dict.keys ([] : Dict ℕ ℕ)) (![X, V] i) := fun i => by fin_cases i; exacts [.rv rfl (by simp [Dict.keys]), .rv rfl (by simp [Dict.keys])]
  obtain ⟨terms, vvs, h⟩ := (C99_outcome (hasCdf := fun _ => true) (fun _ _ => rfl) wf q.len q.defined hrun).1.2 fun w f hw hf => by
    have hw : w = 9 := by simpa [Dict.keys] using hw
    subst hw
    cases hf
    exact ⟨⟨false, .normals .sub hT⟩, .normals .sub hT⟩
  obtain ⟨names, hn⟩ := named h
  obtain ⟨t, ht⟩ := C132_sum_name (v := 9) (e := T) (s := "XXXXXXXXXX".toList) (fun _ _ => rfl) wf q hrun nm hn (by simp) rfl ⟨9, .float, .sub, 2, _, rfl, .sub, hT⟩ rfl (by decide)
  exact ⟨names, t, hn, ht⟩

/-- With a realized value the difference is a function of the other variable, and named as documented. -/
example : ¬ IsNormalSum (· = 8) T := by
  rintro ⟨id, k, op, n, args, h, -, hn⟩
  cases h
  cases hn 1 with
  | rv _ h => exact h rfl

example : returnedName true (some "X".toList) ≠ some "X_vv-trans".toList := (C132_trans_wrong _).2

example : returnedName false (some "X".toList) = some "X_vv".toList := C132_value_partial.1 _ (by decide)

example : returnedName false none = none := C132_value_partial.2 _ (.inl rfl)

end Verif.Full.NamesDemo
