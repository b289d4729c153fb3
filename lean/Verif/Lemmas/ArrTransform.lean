import Verif.Spec.ArrTransform
import Verif.Lemmas.ArrGraph
import Verif.Lemmas.IRTransform

/-! # Array models: replacing value variables by back-transformed ones -/

namespace Verif.ArrGraph
open Verif Cond MeasureTheory Set

variable {Di : Type} {X Z : ℕ → Type} [∀ i, MeasurableSpace (X i)] [∀ i, MeasurableSpace (Z i)]

/-! ## Which node is transformed -/

theorem mem_valuedIn {d : Dict ℕ ℕ} {v : ℕ} {e : Expr Di} (h : User e) (hc : ∀ id, Mentions id e → id ∈ Dict.keys d) : v ∈ valuedIn d e ↔ Mentions v e := by
  induction e with
  | const c => simp [valuedIn, Mentions]
  | inp i => simp [valuedIn, Mentions]
  | app n f args ih => simp [valuedIn, Mentions, fun i => ih i (h i) fun id hid => hc id ⟨i, hid⟩]
  | rv id dist n args ih =>
    rw [valuedIn, if_pos (by rw [Option.isSome_iff_exists, Dict.get?_isSome]; exact hc id rfl)]
    simp [Mentions, eq_comm]
  | valued r v => exact h.elim

theorem mem_valuedBelow {l : List (ℕ × RVDef Di)} {d : Dict ℕ ℕ} (hu : ∀ p ∈ l, ∀ i, User (p.2.args i)) (hc : ∀ p ∈ l, ∀ i id, Mentions id (p.2.args i) → id ∈ Dict.keys d) {v w : ℕ} :
    v ∈ valuedBelow (Dict.get? l) d w ↔ Parent l v w := by
  unfold valuedBelow Parent
  cases hw : Dict.get? l w with
  | none => simp
  | some r =>
    have hm := Dict.mem_of_get? hw
    simp [fun i => mem_valuedIn (v := v) (hu _ hm i) (hc _ hm i)]

theorem innerFirst_iff {l : List (ℕ × RVDef Di)} {d : Dict ℕ ℕ} (hd : (Dict.keys d).Nodup) (hu : ∀ p ∈ l, ∀ i, User (p.2.args i))
    (hc : ∀ p ∈ l, ∀ i id, Mentions id (p.2.args i) → id ∈ Dict.keys d) {v : ℕ} : innerFirst (Dict.get? l) d v = true ↔ ChildFirst l (Dict.keys d) v := by
  rw [innerFirst, Bool.and_eq_true, List.any_eq_true]
  refine and_congr ?_ ⟨?_, ?_⟩
  · rw [Bool.not_eq_true', List.isEmpty_eq_false_iff_exists_mem]
    exact exists_congr fun u => mem_valuedBelow hu hc
  · rintro ⟨w, hw, h⟩
    have h := (mem_valuedBelow hu hc).1 (by simpa using h)
    have hv : v ∈ Dict.keys d := by
      obtain ⟨r, hr, i, hi⟩ := h
      exact hc _ (Dict.mem_of_get? hr) i v hi
    obtain ⟨q, hq⟩ := IR.takeWhile_split hv
    exact ⟨_, q, w, hq, hw, h⟩
  · rintro ⟨p, q, w, hs, hw, h⟩
    refine ⟨w, ?_, by simpa using (mem_valuedBelow hu hc).2 h⟩
    rw [hs] at hd ⊢
    rw [IR.takeWhile_of_split fun h => (List.nodup_append.1 hd).2.2 _ h _ (by simp) rfl]
    exact hw

theorem visitAll_congr {want : ℕ → Option ATransform} {x tv : ℕ → ℕ} {ins ins' : ℕ → List (Expr Di)} (h : ∀ v, (want v).isSome → ins v = ins' v) (order : List ℕ) :
    visitAll want x tv ins order = visitAll want x tv ins' order := by
  have : visit want x tv ins = visit want x tv ins' := by
    funext rep v
    unfold visit
    cases hv : want v with
    | none => rfl
    | some t => rw [h v (by simp [hv])]
  rw [visitAll, visitAll, this]

/-! ## Substitution -/

/-- The variable occurs in the cleaned graph. -/
def Reads (y : ℕ) : Expr Di → Prop
  | .const _ => False
  | .inp i => i = y
  | .app _ _ args => ∃ j, Reads y (args j)
  | .rv _ _ _ args => ∃ j, Reads y (args j)
  | .valued _ v => Reads y v

theorem eval_reads {ρ ρ' : ℕ → Arr FVal} {ω : ℕ → Di → List (Arr FVal) → Arr FVal} {e : Expr Di} (h : ∀ y, Reads y e → ρ y = ρ' y) : eval ρ ω (cleanup e) = eval ρ' ω (cleanup e) := by
  induction e with
  | const c => rfl
  | inp i => exact h i rfl
  | app n f args ih =>
    simp only [cleanup, eval]
    congr 1
    funext i
    exact ih i fun y hy => h y ⟨i, hy⟩
  | rv id dist n args ih =>
    simp only [cleanup, eval]
    congr 2
    funext i
    exact ih i fun y hy => h y ⟨i, hy⟩
  | valued r v _ ih => exact ih h

theorem eval_subst {ρ : ℕ → Arr FVal} {ω : ℕ → Di → List (Arr FVal) → Arr FVal} {x : ℕ} {u : Expr Di} (h : eval ρ ω (cleanup u) = ρ x) (e : Expr Di) :
    eval ρ ω (cleanup (subst x u e)) = eval ρ ω (cleanup e) := by
  induction e with
  | const c => rfl
  | inp i =>
    simp only [subst]
    split_ifs with hi
    · rw [h, hi]; rfl
    · rfl
  | app n f args ih => simp only [subst, cleanup, eval, ih]
  | rv id dist n args ih => simp only [subst, cleanup, eval, ih]
  | valued r v _ ih => exact ih

theorem reads_subst {x y : ℕ} {u e : Expr Di} (h : Reads y (subst x u e)) : (Reads y e ∧ y ≠ x) ∨ (Reads x e ∧ Reads y u) := by
  induction e with
  | const c => exact h.elim
  | inp i =>
    simp only [subst] at h
    split_ifs at h with hi
    · exact .inr ⟨hi, h⟩
    · exact .inl ⟨h, fun hh => hi (Eq.trans h hh)⟩
  | app n f args ih =>
    obtain ⟨j, hj⟩ := h
    rcases ih j hj with h | h
    · exact .inl ⟨⟨j, h.1⟩, h.2⟩
    · exact .inr ⟨⟨j, h.1⟩, h.2⟩
  | rv id dist n args ih =>
    obtain ⟨j, hj⟩ := h
    rcases ih j hj with h | h
    · exact .inl ⟨⟨j, h.1⟩, h.2⟩
    · exact .inr ⟨⟨j, h.1⟩, h.2⟩
  | valued r v _ ih => exact ih h

theorem reads_untransformed {t : ATransform} {tv y : ℕ} {ins : List (Expr Di)} (h : Reads y (untransformed t tv ins)) : y = tv ∨ ∃ a ∈ ins, Reads y a := by
  obtain ⟨j, hj⟩ := h
  cases j using Fin.cases with
  | zero => exact .inl (Eq.symm hj)
  | succ j => exact .inr ⟨ins[j], List.getElem_mem _, hj⟩

theorem eval_untransformed {ρ : ℕ → Arr FVal} {ω : ℕ → Di → List (Arr FVal) → Arr FVal} (t : ATransform) (tv : ℕ) (ins : List (Expr Di)) :
    eval ρ ω (cleanup (untransformed t tv ins)) = t.backward (ρ tv) (ins.map fun a => eval ρ ω (cleanup a)) := by
  simp only [untransformed, cleanup, eval, Fin.cons_zero, Fin.cons_succ]
  congr 1
  refine List.ext_getElem (by simp) fun i h1 h2 => ?_
  simp

/-! ## The rewriter -/

section
variable {want : ℕ → Option ATransform} {x tv : ℕ → ℕ} {ins : ℕ → List (Expr Di)}

/-- What holds of the replacements made so far: `dom` are the nodes of the graph, `done` those visited. -/
structure VInv (want : ℕ → Option ATransform) (x tv : ℕ → ℕ) (ins : ℕ → List (Expr Di)) (rank : ℕ → ℕ) (dom done : List ℕ) (s : Expr Di → Expr Di) : Prop where
  low : ∀ r e, (∀ w ∈ dom, (want w).isSome → Reads (x w) e → rank w < r) → ∀ w ∈ dom, (want w).isSome → Reads (x w) (s e) → rank w < r
  gone : ∀ e, ∀ w ∈ done, (want w).isSome → ¬ Reads (x w) (s e)
  eval : ∀ (ρ : ℕ → Arr FVal) (ω : ℕ → Di → List (Arr FVal) → Arr FVal),
    (∀ v ∈ dom, ∀ t, want v = some t → ρ (x v) = t.backward (ρ (tv v)) ((ins v).map fun a => eval ρ ω (cleanup a))) →
    ∀ e, eval ρ ω (cleanup (s e)) = eval ρ ω (cleanup e)

theorem VInv.visit {rank : ℕ → ℕ} {dom done : List ℕ} {s : Expr Di → Expr Di} (h : VInv want x tv ins rank dom done s)
    (hins : ∀ v ∈ dom, ∀ a ∈ ins v, ∀ w ∈ dom, (want w).isSome → Reads (x w) a → rank w < rank v) (htv : ∀ v ∈ dom, ∀ w ∈ dom, tv v ≠ x w) {v : ℕ} (hv : v ∈ dom) (hdone : ∀ w ∈ done, w ∈ dom) :
    VInv want x tv ins rank dom (v :: done) (ArrGraph.visit want x tv ins s v) := by
  cases hw : want v with
  | none =>
    simp only [ArrGraph.visit, hw]
    refine ⟨h.low, fun e w hw' ht => ?_, h.eval⟩
    rcases List.mem_cons.1 hw' with rfl | hw'
    · simp [hw] at ht
    · exact h.gone e w hw' ht
  | some t =>
    simp only [ArrGraph.visit, hw]
    have hU : ∀ w ∈ dom, (want w).isSome → Reads (x w) (untransformed t (tv v) ((ins v).map s)) → rank w < rank v := by
      intro w hwd hwt hm
      rcases reads_untransformed hm with hm | ⟨a, ha, hm⟩
      · exact absurd hm.symm (htv v hv w hwd)
      · obtain ⟨b, hb, rfl⟩ := List.mem_map.1 ha
        exact h.low (rank v) b (fun w' h1 h2 h3 => hins v hv b hb w' h1 h2 h3) w hwd hwt hm
    refine ⟨fun r e hr w hwd hwt hm => ?_, fun e w hwd hwt hm => ?_, fun ρ ω hρ e => ?_⟩
    · rcases reads_subst hm with hm | ⟨h1, h2⟩
      · exact h.low r e hr w hwd hwt hm.1
      · exact (hU w hwd hwt h2).trans (h.low r e hr v hv (by simp [hw]) h1)
    · rcases reads_subst hm with ⟨h1, h2⟩ | ⟨h1, h2⟩
      · rcases List.mem_cons.1 hwd with rfl | hwd
        · exact h2 rfl
        · exact h.gone e w hwd hwt h1
      · rcases List.mem_cons.1 hwd with rfl | hwd
        · exact absurd (hU w hv hwt h2) (lt_irrefl _)
        · rcases reads_untransformed h2 with h2 | ⟨a, ha, h2⟩
          · exact htv v hv w (hdone w hwd) h2.symm
          · obtain ⟨b, hb, rfl⟩ := List.mem_map.1 ha
            exact h.gone b w hwd hwt h2
    · rw [eval_subst, h.eval ρ ω hρ]
      rw [eval_untransformed, hρ v hv t hw, List.map_map]
      congr 1
      exact List.map_congr_left fun a _ => h.eval ρ ω hρ a

theorem vinv_all {rank : ℕ → ℕ} {dom : List ℕ} (hins : ∀ v ∈ dom, ∀ a ∈ ins v, ∀ w ∈ dom, (want w).isSome → Reads (x w) a → rank w < rank v)
    (htv : ∀ v ∈ dom, ∀ w ∈ dom, tv v ≠ x w) (order done : List ℕ) (s : Expr Di → Expr Di) (hs : VInv want x tv ins rank dom done s) (ho : ∀ v ∈ order, v ∈ dom) (hdone : ∀ v ∈ done, v ∈ dom) :
    VInv want x tv ins rank dom (order.reverse ++ done) (order.foldl (ArrGraph.visit want x tv ins) s) := by
  induction order generalizing done s with
  | nil => exact hs
  | cons v order ih =>
    rw [List.reverse_cons, List.append_assoc]
    exact ih (v :: done) _ (hs.visit hins htv (ho v (by simp)) hdone) (fun w hw => ho w (by simp [hw])) fun w hw => by
      rcases List.mem_cons.1 hw with rfl | hw
      · exact ho _ (by simp)
      · exact hdone w hw

/-- After all visits, in any order, every graph computes what the original one does when the value variables hold the values taken back. -/
theorem eval_visitAll {rank : ℕ → ℕ} {dom order : List ℕ} (hins : ∀ v ∈ dom, ∀ a ∈ ins v, ∀ w ∈ dom, (want w).isSome → Reads (x w) a → rank w < rank v)
    (htv : ∀ v ∈ dom, ∀ w ∈ dom, tv v ≠ x w) (hperm : order.Perm dom) {env env' : ℕ → Arr FVal} {ω : ℕ → Di → List (Arr FVal) → Arr FVal}
    (hagree : ∀ y, (∀ v ∈ dom, (want v).isSome → y ≠ x v) → env y = env' y)
    (heq : ∀ v ∈ dom, ∀ t, want v = some t → env' (x v) = t.backward (env' (tv v)) ((ins v).map fun a => eval env' ω (cleanup a))) (e : Expr Di) :
    eval env ω (cleanup (visitAll want x tv ins order e)) = eval env' ω (cleanup e) := by
  have h := vinv_all (rank := rank) (dom := dom) hins htv order [] id ⟨fun r e hr => hr, by simp, fun _ _ _ _ => rfl⟩ (fun v hv => hperm.subset hv) (by simp)
  rw [← h.eval env' ω heq e]
  refine eval_reads fun y hy => hagree y fun v hv ht hyv => ?_
  subst hyv
  exact h.gone e v (by simp [hperm.symm.subset hv]) ht hy

end

theorem reads_replace {d : Dict ℕ ℕ} {y : ℕ} {e : Expr Di} (hu : User e) (hall : ∀ id, Mentions id e → id ∈ Dict.keys d) (h : Reads y (replaceValued d e)) :
    UsesInput y e ∨ ∃ id, Mentions id e ∧ Dict.get? d id = some y := by
  induction e with
  | const c => exact h.elim
  | inp i => exact .inl h
  | app n f args ih =>
    obtain ⟨j, hj⟩ := h
    rcases ih j (hu j) (fun id hid => hall id ⟨j, hid⟩) hj with h | ⟨id, h1, h2⟩
    · exact .inl ⟨j, h⟩
    · exact .inr ⟨id, ⟨j, h1⟩, h2⟩
  | rv id dist n args ih =>
    obtain ⟨v, hv⟩ := Dict.get?_isSome.2 (hall id rfl)
    simp only [replaceValued, hv] at h
    have : v = y := h
    exact .inr ⟨id, rfl, this ▸ hv⟩
  | valued r v => exact hu.elim

/-! ## Values taken back -/

theorem evalAt_inputs {σ ρ ρ' : ℕ → Arr FVal} {e : Expr Di} (hu : User e) (h : ∀ k, UsesInput k e → ρ k = ρ' k) : evalAt σ ρ e = evalAt σ ρ' e := by
  induction e with
  | const c => rfl
  | inp i => exact h i rfl
  | app n f args ih =>
    simp only [evalAt]
    congr 1
    funext i
    exact ih i (hu i) fun k hk => h k ⟨i, hk⟩
  | rv => rfl
  | valued r v => exact hu.elim

theorem params_congr {A A' ρ : ℕ → Arr FVal} {r : RVDef Di} (h : ∀ i id, Mentions id (r.args i) → A id = A' id) : params A ρ r = params A' ρ r := by
  simp only [params]
  congr 1
  funext i
  exact evalAt_congr _ fun id hid => h i id hid

theorem DependencyOrder.nodup {l : List (ℕ × RVDef Di)} (h : DependencyOrder l) : (l.map Prod.fst).Nodup := by
  induction l with
  | nil => simp
  | cons p l ih =>
    obtain ⟨id, r⟩ := p
    refine List.nodup_cons.2 ⟨fun hmem => ?_, ih h.2.2⟩
    obtain ⟨p, hp, hpid⟩ := List.mem_map.1 hmem
    exact (h.2.1 p hp).1 hpid

/-- A parameter mentions only variables listed before. -/
theorem DependencyOrder.rank {l : List (ℕ × RVDef Di)} (h : DependencyOrder l) {p : ℕ × RVDef Di} (hp : p ∈ l) {i id} (hm : Mentions id (p.2.args i)) (hid : id ∈ l.map Prod.fst) :
    (l.map Prod.fst).idxOf id < (l.map Prod.fst).idxOf p.1 := by
  induction l with
  | nil => simp at hp
  | cons q l ih =>
    obtain ⟨v, r⟩ := q
    obtain ⟨h1, h2, h3⟩ := h
    simp only [List.map_cons]
    rcases List.mem_cons.1 hp with rfl | hp
    · exfalso
      rcases List.mem_cons.1 hid with rfl | hid
      · exact h1 i hm
      · obtain ⟨q, hq, rfl⟩ := List.mem_map.1 hid
        exact (h2 q hq).2 i hm
    · have hpv : v ≠ p.1 := fun hh => (h2 p hp).1 hh.symm
      rw [List.idxOf_cons_ne _ hpv]
      by_cases hv : v = id
      · subst hv; rw [List.idxOf_cons_self]; exact Nat.succ_pos _
      · rw [List.idxOf_cons_ne _ hv]
        refine Nat.succ_lt_succ (ih h3 hp ?_)
        rcases List.mem_cons.1 hid with h | h
        · exact absurd h.symm hv
        · exact h

section
variable {tr : ℕ → Option ATransform} {arrZ : ∀ i, Z i → Arr FVal} {ρ : ℕ → Arr FVal}

theorem takeBack_notMem {τ : ∀ i, Z i} {l : List (ℕ × RVDef Di)} {A : ℕ → Arr FVal} {v : ℕ} (h : v ∉ l.map Prod.fst) : takeBack tr arrZ ρ τ l A v = A v := by
  induction l generalizing A with
  | nil => rfl
  | cons it l ih =>
    simp only [List.map_cons, List.mem_cons, not_or] at h
    rw [takeBack, ih h.2, Function.update_of_ne h.1]

/-- The parameters of the first variable do not change. -/
theorem takeBack_params {τ : ∀ i, Z i} {l : List (ℕ × RVDef Di)} {id : ℕ} {r : RVDef Di} (h : DependencyOrder ((id, r) :: l)) {A : ℕ → Arr FVal} :
    params (takeBack tr arrZ ρ τ ((id, r) :: l) A) ρ r = params A ρ r := by
  refine params_congr fun i v hv => ?_
  have : v ∉ ((id, r) :: l).map Prod.fst := by
    simp only [List.map_cons, List.mem_cons, not_or]
    refine ⟨fun hh => h.1 i (hh ▸ hv), fun hmem => ?_⟩
    obtain ⟨p, hp, rfl⟩ := List.mem_map.1 hmem
    exact (h.2.1 p hp).2 i hv
  exact takeBack_notMem this

/-- Every variable's value is its value on the transformed scale, taken back at the parameters given by the values taken back. -/
theorem takeBack_item {τ : ∀ i, Z i} {l : List (ℕ × RVDef Di)} (h : DependencyOrder l) {A : ℕ → Arr FVal} {p : ℕ × RVDef Di} (hp : p ∈ l) :
    takeBack tr arrZ ρ τ l A p.1 = offScale (tr p.1) (arrZ p.1 (τ p.1)) (params (takeBack tr arrZ ρ τ l A) ρ p.2) := by
  induction l generalizing A with
  | nil => simp at hp
  | cons q l ih =>
    obtain ⟨id, r⟩ := q
    rcases List.mem_cons.1 hp with rfl | hp
    · rw [takeBack_params h, takeBack, takeBack_notMem (List.nodup_cons.1 h.nodup).1, Function.update_self]
    · exact ih h.2.2 hp

/-- The product of the densities of the variables, one after the other. -/
noncomputable def densT (kernel : Di → Arr FVal → List (Arr FVal) → Except Err (Arr FVal)) (tr : ℕ → Option ATransform) (uj : Bool) (arrZ : ∀ i, Z i → Arr FVal) (ρ : ℕ → Arr FVal) (τ : ∀ i, Z i) :
    List (ℕ × RVDef Di) → (ℕ → Arr FVal) → ENNReal
  | [], _ => 1
  | (id, r) :: l, A => dens (arrayJoint (termAt (kernel r.dist) (tr id) uj (arrZ id (τ id)) (params A ρ r))) *
      densT kernel tr uj arrZ ρ τ l (Function.update A id (offScale (tr id) (arrZ id (τ id)) (params A ρ r)))

theorem densT_eq (kernel : Di → Arr FVal → List (Arr FVal) → Except Err (Arr FVal)) (uj : Bool) (τ : ∀ i, Z i) {l : List (ℕ × RVDef Di)} (h : DependencyOrder l) (A : ℕ → Arr FVal) :
    densT kernel tr uj arrZ ρ τ l A =
      (l.map fun p => dens (arrayJoint (termAt (kernel p.2.dist) (tr p.1) uj (arrZ p.1 (τ p.1)) (params (takeBack tr arrZ ρ τ l A) ρ p.2)))).prod := by
  induction l generalizing A with
  | nil => rfl
  | cons q l ih =>
    obtain ⟨id, r⟩ := q
    rw [List.map_cons, List.prod_cons, takeBack_params h, densT, ih h.2.2]
    rfl

end

/-! ## Integrals -/

section
variable {tr : ℕ → Option ATransform} {arrZ : ∀ i, Z i → Arr FVal} {reg : ∀ i, Di → List (Arr FVal) → Set (Z i)} {ref : ∀ i, Measure (Z i)} {ρ : ℕ → Arr FVal}

theorem refT_congr (l : List (ℕ × RVDef Di)) (A : ℕ → Arr FVal) (τ : ∀ i, Z i) {φ ψ : (∀ i, Z i) → ENNReal} (h : ∀ τ', (∀ i, i ∉ l.map Prod.fst → τ' i = τ i) → φ τ' = ψ τ') :
    refT tr arrZ reg ref ρ l A τ φ = refT tr arrZ reg ref ρ l A τ ψ := by
  induction l generalizing A τ with
  | nil => exact h τ fun _ _ => rfl
  | cons p l ih =>
    obtain ⟨id, r⟩ := p
    simp only [refT]
    refine lintegral_congr fun x => ih _ _ fun τ' hτ' => h τ' fun i hi => ?_
    simp only [List.map_cons, List.mem_cons, not_or] at hi
    rw [hτ' i hi.2, Function.update_of_ne hi.1]

theorem refT_const_mul (l : List (ℕ × RVDef Di)) (A : ℕ → Arr FVal) (τ : ∀ i, Z i) {c : ENNReal} (hc : c ≠ ⊤) (φ : (∀ i, Z i) → ENNReal) :
    refT tr arrZ reg ref ρ l A τ (fun τ => c * φ τ) = c * refT tr arrZ reg ref ρ l A τ φ := by
  induction l generalizing A τ with
  | nil => rfl
  | cons p l ih =>
    obtain ⟨id, r⟩ := p
    simp only [refT, ih]
    rw [lintegral_const_mul' _ _ hc]

theorem sampleE_congr {arr : ∀ i, X i → Arr FVal} {law : ∀ i, Di → List (Arr FVal) → Measure (X i)} (l : List (ℕ × RVDef Di)) (σ : ∀ i, X i) {φ ψ : (∀ i, X i) → ENNReal}
    (h : ∀ σ', (∀ i, i ∉ l.map Prod.fst → σ' i = σ i) → φ σ' = ψ σ') : sampleE arr law ρ l σ φ = sampleE arr law ρ l σ ψ := by
  induction l generalizing σ with
  | nil => exact h σ fun _ _ => rfl
  | cons p l ih =>
    obtain ⟨id, r⟩ := p
    simp only [sampleE]
    refine lintegral_congr fun x => ih _ fun σ' hσ' => h σ' fun i hi => ?_
    simp only [List.map_cons, List.mem_cons, not_or] at hi
    rw [hσ' i hi.2, Function.update_of_ne hi.1]

theorem update_asg {arr : ∀ i, X i → Arr FVal} (σ : ∀ i, X i) (id : ℕ) (x : X id) : Function.update (asg arr σ) id (arr id x) = asg arr (Function.update σ id x) := by
  funext i
  by_cases h : i = id
  · subst h; simp [asg]
  · simp [asg, h]

/-- The draws on the transformed scales, one after the other. -/
noncomputable def scaleT (arr : ∀ i, X i → Arr FVal) (fwd : ∀ i, Di → List (Arr FVal) → X i → Z i) (ρ : ℕ → Arr FVal) (σ : ∀ i, X i) : List (ℕ × RVDef Di) → (∀ i, Z i) → ∀ i, Z i
  | [], τ => τ
  | (id, r) :: l, τ => scaleT arr fwd ρ σ l (Function.update τ id (fwd id r.dist (params (asg arr σ) ρ r) (σ id)))

theorem scaleT_eq {arr : ∀ i, X i → Arr FVal} {fwd : ∀ i, Di → List (Arr FVal) → X i → Z i} {σ : ∀ i, X i} {l : List (ℕ × RVDef Di)} (h : (l.map Prod.fst).Nodup) (τ : ∀ i, Z i) :
    scaleT arr fwd ρ σ l τ = scaled arr fwd ρ l τ σ := by
  induction l generalizing τ with
  | nil => rfl
  | cons p l ih =>
    obtain ⟨id, r⟩ := p
    have hnd := List.nodup_cons.1 h
    rw [scaleT, ih hnd.2]
    funext i
    simp only [scaled, Dict.get?]
    by_cases hi : id = i
    · subst hi
      rw [if_pos rfl, Dict.get?_eq_none.2 hnd.1, Function.update_self]
    · rw [if_neg hi]
      cases Dict.get? l i with
      | some r => rfl
      | none => simp only; rw [Function.update_of_ne (Ne.symm hi)]

/-- Integrals over the values on the transformed scales, weighted with the densities, are means over draws. -/
theorem ancestralT (arr : ∀ i, X i → Arr FVal) (kernel : Di → Arr FVal → List (Arr FVal) → Except Err (Arr FVal)) (fwd : ∀ i, Di → List (Arr FVal) → X i → Z i)
    (law : ∀ i, Di → List (Arr FVal) → Measure (X i)) (ψ : (∀ i, Z i) → ENNReal) {l : List (ℕ × RVDef Di)} (hord : DependencyOrder l) (σ : ∀ i, X i) (τ : ∀ i, Z i)
    (hvalid : ValidT arr arrZ kernel tr fwd reg law ref ρ l σ) :
    refT tr arrZ reg ref ρ l (asg arr σ) τ (fun τ' => densT kernel tr true arrZ ρ τ' l (asg arr σ) * ψ τ') =
      sampleE arr law ρ l σ fun σ' => ψ (scaleT arr fwd ρ σ' l τ) := by
  induction l generalizing σ τ with
  | nil => simp [refT, sampleE, densT, scaleT]
  | cons p l ih =>
    obtain ⟨id, r⟩ := p
    have hord0 := hord
    obtain ⟨h1, h2, hord'⟩ := hord0
    obtain ⟨good, hval'⟩ := hvalid
    have hnl : id ∉ l.map Prod.fst := (List.nodup_cons.1 hord.nodup).1
    set pr := params (asg arr σ) ρ r with hpr
    set f : Z id → ENNReal := fun z => dens (arrayJoint (termAt (kernel r.dist) (tr id) true (arrZ id z) pr)) with hf
    set H : Z id → ENNReal := fun z => refT tr arrZ reg ref ρ l (Function.update (asg arr σ) id (offScale (tr id) (arrZ id z) pr)) (Function.update τ id z)
      (fun τ' => densT kernel tr true arrZ ρ τ' l (Function.update (asg arr σ) id (offScale (tr id) (arrZ id z) pr)) * ψ τ') with hH
    have hfin : ∀ᵐ z ∂((ref id).restrict (reg id r.dist pr)), f z < ⊤ := by
      refine ae_lt_top' good.meas ?_
      have := good.dens fun _ => 1
      simp only [mul_one] at this
      rw [← this]
      have := good.prob
      simp
    have hparam : ∀ σ' : ∀ i, X i, (∀ i, i ∉ l.map Prod.fst → σ' i = Function.update σ id (σ' id) i) → params (asg arr σ') ρ r = pr := by
      intro σ' hσ'
      refine params_congr fun i v hv => ?_
      have hv1 : v ≠ id := fun hh => h1 i (hh ▸ hv)
      have hv2 : v ∉ l.map Prod.fst := fun hmem => by
        obtain ⟨p, hp, rfl⟩ := List.mem_map.1 hmem
        exact (h2 p hp).2 i hv
      simp only [asg]
      rw [hσ' v hv2, Function.update_of_ne hv1]
    calc refT tr arrZ reg ref ρ ((id, r) :: l) (asg arr σ) τ (fun τ' => densT kernel tr true arrZ ρ τ' ((id, r) :: l) (asg arr σ) * ψ τ')
        = ∫⁻ z in reg id r.dist pr, f z * H z ∂(ref id) := by
          simp only [refT]
          refine lintegral_congr_ae ?_
          filter_upwards [hfin] with z hz
          rw [hH]
          simp only
          rw [← refT_const_mul _ _ _ hz.ne]
          refine refT_congr _ _ _ fun τ' hτ' => ?_
          have hid : τ' id = z := by rw [hτ' id hnl, Function.update_self]
          simp only [densT, hid, hf, ← hpr]
          rw [mul_assoc]
      _ = ∫⁻ x, H (fwd id r.dist pr x) ∂(law id r.dist pr) := (good.dens H).symm
      _ = sampleE arr law ρ ((id, r) :: l) σ fun σ' => ψ (scaleT arr fwd ρ σ' ((id, r) :: l) τ) := by
          simp only [sampleE]
          refine lintegral_congr_ae ?_
          filter_upwards [good.backward, hval'] with x hx hv
          rw [hH]
          simp only
          rw [hx, update_asg, ih hord' _ _ hv]
          refine sampleE_congr _ _ fun σ' hσ' => ?_
          have hid : σ' id = x := by rw [hσ' id hnl, Function.update_self]
          simp only [scaleT]
          rw [hparam σ' fun i hi => by rw [hσ' i hi, hid], hid]

end

end Verif.ArrGraph
