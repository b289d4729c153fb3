import Verif.Spec.IRTransform
import Verif.Lemmas.SimpleBackend
import Verif.Props.IRDensity
import Mathlib.Analysis.Calculus.FDeriv.Measurable
import Mathlib.Data.List.Basic

/-! # Replacing value variables by back-transformed ones -/

namespace Verif.IR
open Verif Cond MeasureTheory Set

variable {Di : Type}

/-! ## Substitution -/

/-- The variable occurs in the cleaned graph. -/
def Mentions (y : ℕ) : Expr Di → Prop
  | .const _ => False
  | .inp i => i = y
  | .app _ _ _ args => ∃ j, Mentions y (args j)
  | .rv _ _ _ args => ∃ j, Mentions y (args j)
  | .valued _ v => Mentions y v

theorem eval_mentions {ρ ρ' : ℕ → FVal} {ω : ℕ → Di → List FVal → FVal} {e : Expr Di} (h : ∀ y, Mentions y e → ρ y = ρ' y) : eval ρ ω (cleanup e) = eval ρ' ω (cleanup e) := by
  induction e with
  | const c => rfl
  | inp i => exact h i rfl
  | app id op n args ih =>
    simp only [cleanup, eval]
    congr 2
    funext i
    exact ih i fun y hy => h y ⟨i, hy⟩
  | rv id dist n args ih =>
    simp only [cleanup, eval]
    congr 2
    funext i
    exact ih i fun y hy => h y ⟨i, hy⟩
  | valued r v _ ih => exact ih h

theorem eval_subst {ρ : ℕ → FVal} {ω : ℕ → Di → List FVal → FVal} {x : ℕ} {u : Expr Di} (h : eval ρ ω (cleanup u) = ρ x) (e : Expr Di) :
    eval ρ ω (cleanup (subst x u e)) = eval ρ ω (cleanup e) := by
  induction e with
  | const c => rfl
  | inp i =>
    simp only [subst]
    split_ifs with hi
    · rw [h, hi]; rfl
    · rfl
  | app id op n args ih => simp only [subst, cleanup, eval, ih]
  | rv id dist n args ih => simp only [subst, cleanup, eval, ih]
  | valued r v _ ih => exact ih

theorem mentions_subst {x y : ℕ} {u e : Expr Di} (h : Mentions y (subst x u e)) : (Mentions y e ∧ y ≠ x) ∨ (Mentions x e ∧ Mentions y u) := by
  induction e with
  | const c => exact h.elim
  | inp i =>
    simp only [subst] at h
    split_ifs at h with hi
    · exact .inr ⟨hi, h⟩
    · exact .inl ⟨h, fun hh => hi (Eq.trans h hh)⟩
  | app id op n args ih =>
    obtain ⟨j, hj⟩ := h
    rcases ih j hj with h | h
    · exact .inl ⟨⟨j, h.1⟩, h.2⟩
    · exact .inr ⟨⟨j, h.1⟩, h.2⟩
  | rv id dist n args ih =>
    obtain ⟨j, hj⟩ := h
    rcases ih j hj with h | h
    · exact .inl ⟨⟨j, h.1⟩, h.2⟩
    · exact .inr ⟨⟨j, h.1⟩, h.2⟩
  | valued r v _ ih => exact ih h

theorem mentions_untransformed {t : VTransform} {tv y : ℕ} {ins : List (Expr Di)} (h : Mentions y (untransformed t tv ins)) : y = tv ∨ ∃ a ∈ ins, Mentions y a := by
  obtain ⟨j, hj⟩ := h
  cases j using Fin.cases with
  | zero => exact .inl (Eq.symm hj)
  | succ j => exact .inr ⟨ins[j], List.getElem_mem _, hj⟩

theorem eval_untransformed {ρ : ℕ → FVal} {ω : ℕ → Di → List FVal → FVal} (t : VTransform) (tv : ℕ) (ins : List (Expr Di)) :
    eval ρ ω (cleanup (untransformed t tv ins)) = t.backward (ρ tv) (ins.map fun a => eval ρ ω (cleanup a)) := by
  simp only [untransformed, cleanup, eval, Op.eval, List.ofFn_succ, List.headD_cons, List.tail_cons, Fin.cons_zero, Fin.cons_succ]
  congr 1
  refine List.ext_getElem (by simp) fun i h1 h2 => ?_
  simp

/-! ## The rewriter -/

section
variable {want : ℕ → Option VTransform} {x tv : ℕ → ℕ} {ins : ℕ → List (Expr Di)}

/-- What holds of the replacements made so far: `dom` are the nodes of the graph, `done` those visited. -/
structure VInv (want : ℕ → Option VTransform) (x tv : ℕ → ℕ) (ins : ℕ → List (Expr Di)) (rank : ℕ → ℕ) (dom done : List ℕ) (s : Expr Di → Expr Di) : Prop where
  low : ∀ r e, (∀ w ∈ dom, (want w).isSome → Mentions (x w) e → rank w < r) → ∀ w ∈ dom, (want w).isSome → Mentions (x w) (s e) → rank w < r
  gone : ∀ e, ∀ w ∈ done, (want w).isSome → ¬ Mentions (x w) (s e)
  eval : ∀ (ρ : ℕ → FVal) (ω : ℕ → Di → List FVal → FVal),
    (∀ v ∈ dom, ∀ t, want v = some t → ρ (x v) = t.backward (ρ (tv v)) ((ins v).map fun a => eval ρ ω (cleanup a))) →
    ∀ e, eval ρ ω (cleanup (s e)) = eval ρ ω (cleanup e)

theorem VInv.visit {rank : ℕ → ℕ} {dom done : List ℕ} {s : Expr Di → Expr Di} (h : VInv want x tv ins rank dom done s)
    (hins : ∀ v ∈ dom, ∀ a ∈ ins v, ∀ w ∈ dom, (want w).isSome → Mentions (x w) a → rank w < rank v) (htv : ∀ v ∈ dom, ∀ w ∈ dom, tv v ≠ x w) {v : ℕ} (hv : v ∈ dom) (hdone : ∀ w ∈ done, w ∈ dom) :
    VInv want x tv ins rank dom (v :: done) (IR.visit want x tv ins s v) := by
  cases hw : want v with
  | none =>
    simp only [IR.visit, hw]
    refine ⟨h.low, fun e w hw' ht => ?_, h.eval⟩
    rcases List.mem_cons.1 hw' with rfl | hw'
    · simp [hw] at ht
    · exact h.gone e w hw' ht
  | some t =>
    simp only [IR.visit, hw]
    have hU : ∀ w ∈ dom, (want w).isSome → Mentions (x w) (untransformed t (tv v) ((ins v).map s)) → rank w < rank v := by
      intro w hwd hwt hm
      rcases mentions_untransformed hm with hm | ⟨a, ha, hm⟩
      · exact absurd hm.symm (htv v hv w hwd)
      · obtain ⟨b, hb, rfl⟩ := List.mem_map.1 ha
        exact h.low (rank v) b (fun w' h1 h2 h3 => hins v hv b hb w' h1 h2 h3) w hwd hwt hm
    refine ⟨fun r e hr w hwd hwt hm => ?_, fun e w hwd hwt hm => ?_, fun ρ ω hρ e => ?_⟩
    · rcases mentions_subst hm with hm | ⟨h1, h2⟩
      · exact h.low r e hr w hwd hwt hm.1
      · exact (hU w hwd hwt h2).trans (h.low r e hr v hv (by simp [hw]) h1)
    · rcases mentions_subst hm with ⟨h1, h2⟩ | ⟨h1, h2⟩
      · rcases List.mem_cons.1 hwd with rfl | hwd
        · exact h2 rfl
        · exact h.gone e w hwd hwt h1
      · rcases List.mem_cons.1 hwd with rfl | hwd
        · exact absurd (hU w hv hwt h2) (lt_irrefl _)
        · rcases mentions_untransformed h2 with h2 | ⟨a, ha, h2⟩
          · exact htv v hv w (hdone w hwd) h2.symm
          · obtain ⟨b, hb, rfl⟩ := List.mem_map.1 ha
            exact h.gone b w hwd hwt h2
    · rw [eval_subst, h.eval ρ ω hρ]
      rw [eval_untransformed, hρ v hv t hw, List.map_map]
      congr 1
      exact List.map_congr_left fun a _ => h.eval ρ ω hρ a

theorem vinv_all {rank : ℕ → ℕ} {dom : List ℕ} (hins : ∀ v ∈ dom, ∀ a ∈ ins v, ∀ w ∈ dom, (want w).isSome → Mentions (x w) a → rank w < rank v)
    (htv : ∀ v ∈ dom, ∀ w ∈ dom, tv v ≠ x w) (order done : List ℕ) (s : Expr Di → Expr Di) (hs : VInv want x tv ins rank dom done s) (ho : ∀ v ∈ order, v ∈ dom) (hdone : ∀ v ∈ done, v ∈ dom) :
    VInv want x tv ins rank dom (order.reverse ++ done) (order.foldl (IR.visit want x tv ins) s) := by
  induction order generalizing done s with
  | nil => exact hs
  | cons v order ih =>
    rw [List.reverse_cons, List.append_assoc]
    exact ih (v :: done) _ (hs.visit hins htv (ho v (by simp)) hdone) (fun w hw => ho w (by simp [hw])) fun w hw => by
      rcases List.mem_cons.1 hw with rfl | hw
      · exact ho _ (by simp)
      · exact hdone w hw

/-- After all visits, in any order, every graph computes what the original one does when the value variables hold the values taken back. -/
theorem eval_visitAll {rank : ℕ → ℕ} {dom order : List ℕ} (hins : ∀ v ∈ dom, ∀ a ∈ ins v, ∀ w ∈ dom, (want w).isSome → Mentions (x w) a → rank w < rank v)
    (htv : ∀ v ∈ dom, ∀ w ∈ dom, tv v ≠ x w) (hperm : order.Perm dom) {env env' : ℕ → FVal} {ω : ℕ → Di → List FVal → FVal}
    (hagree : ∀ y, (∀ v ∈ dom, (want v).isSome → y ≠ x v) → env y = env' y)
    (heq : ∀ v ∈ dom, ∀ t, want v = some t → env' (x v) = t.backward (env' (tv v)) ((ins v).map fun a => eval env' ω (cleanup a))) (e : Expr Di) :
    eval env ω (cleanup (visitAll want x tv ins order e)) = eval env' ω (cleanup e) := by
  have h := vinv_all (rank := rank) (dom := dom) hins htv order [] id ⟨fun r e hr => hr, by simp, fun _ _ _ _ => rfl⟩ (fun v hv => hperm.subset hv) (by simp)
  rw [← h.eval env' ω heq e]
  refine eval_mentions fun y hy => hagree y fun v hv ht hyv => ?_
  subst hyv
  exact h.gone e v (by simp [hperm.symm.subset hv]) ht hy

end

/-! ## Which node is transformed -/

theorem takeWhile_split {v : ℕ} {ks : List ℕ} (h : v ∈ ks) : ∃ q, ks = ks.takeWhile (· ≠ v) ++ v :: q := by
  induction ks with
  | nil => simp at h
  | cons k ks ih =>
    by_cases hk : k = v
    · subst hk; exact ⟨ks, by simp⟩
    · rcases List.mem_cons.1 h with h | h
      · exact absurd h.symm hk
      · obtain ⟨q, hq⟩ := ih h
        exact ⟨q, by rw [List.takeWhile_cons_of_pos (by simpa using hk), List.cons_append, ← hq]⟩

theorem takeWhile_of_split {v : ℕ} {p q : List ℕ} (h : v ∉ p) : (p ++ v :: q).takeWhile (· ≠ v) = p := by
  induction p with
  | nil => simp
  | cons k p ih =>
    simp only [List.mem_cons, not_or] at h
    rw [List.cons_append, List.takeWhile_cons_of_pos (by simpa using Ne.symm h.1), ih h.2]

theorem mem_valuedIn {d : Dict ℕ ℕ} {v : ℕ} {e : Expr Di} : v ∈ valuedIn d e ↔ Uses (· ∈ Dict.keys d) v e := by
  have hk : ∀ id, (Dict.get? d id).isSome = true ↔ id ∈ Dict.keys d := fun id => by rw [Option.isSome_iff_exists, Dict.get?_isSome]
  induction e with
  | const c => simp [valuedIn, Uses]
  | inp i => simp [valuedIn, Uses]
  | app id op n args ih =>
    simp only [valuedIn, Uses]
    by_cases h : id ∈ Dict.keys d
    · rw [if_pos ((hk id).2 h)]; simp [h, eq_comm]
    · rw [if_neg (fun h' => h ((hk id).1 h'))]
      simp [h, ih]
  | rv id dist n args ih =>
    simp only [valuedIn, Uses]
    by_cases h : id ∈ Dict.keys d
    · rw [if_pos ((hk id).2 h)]; simp [h, eq_comm]
    · rw [if_neg (fun h' => h ((hk id).1 h'))]
      simp [h, ih]
  | valued r v => simp [valuedIn, Uses]

theorem Uses.valued {R : ℕ → Prop} {v : ℕ} {e : Expr Di} (h : Uses R v e) : R v := by
  induction e with
  | app id op n args ih =>
    rcases h with ⟨h, rfl⟩ | ⟨-, i, h⟩
    exacts [h, ih i h]
  | rv id dist n args ih =>
    rcases h with ⟨h, rfl⟩ | ⟨-, i, h⟩
    exacts [h, ih i h]
  | _ => exact h.elim

theorem mem_valuedBelow {defs : ℕ → Option (Expr Di)} {d : Dict ℕ ℕ} {v w : ℕ} : v ∈ valuedBelow defs d w ↔ Parent defs (· ∈ Dict.keys d) v w := by
  unfold valuedBelow Parent
  cases defs w with
  | none => simp
  | some e =>
    have : nodeInputs e = inputsOf e := by cases e <;> rfl
    simp [this, mem_valuedIn]

theorem innerFirst_iff {defs : ℕ → Option (Expr Di)} {d : Dict ℕ ℕ} (hd : (Dict.keys d).Nodup) {v : ℕ} : innerFirst defs d v = true ↔ ChildFirst defs (Dict.keys d) v := by
  rw [innerFirst, Bool.and_eq_true, List.any_eq_true]
  refine and_congr ?_ ⟨?_, ?_⟩
  · rw [Bool.not_eq_true', List.isEmpty_eq_false_iff_exists_mem]
    exact exists_congr fun u => mem_valuedBelow
  · rintro ⟨w, hw, h⟩
    have h := mem_valuedBelow.1 (by simpa using h)
    obtain ⟨e, he, a, ha, hu⟩ := h
    obtain ⟨q, hq⟩ := takeWhile_split hu.valued
    exact ⟨_, q, w, hq, hw, e, he, a, ha, hu⟩
  · rintro ⟨p, q, w, hs, hw, h⟩
    refine ⟨w, ?_, by simpa using mem_valuedBelow.2 h⟩
    rw [hs] at hd ⊢
    rw [takeWhile_of_split fun h => (List.nodup_append.1 hd).2.2 _ h _ (by simp) rfl]
    exact hw

theorem Closed.usesInput {defs : ℕ → Option (Expr Di)} {e : Expr Di} (h : Closed defs e) {y : ℕ} (hm : Mentions y e) : UsesInput y e := by
  induction e with
  | const c => exact hm
  | inp i => exact hm
  | app id op n args ih => exact hm.imp fun j hj => ih j (h.2 j) hj
  | rv id dist n args ih => exact hm.imp fun j hj => ih j (h.2 j) hj
  | valued r v => exact h.elim

/-! ## Values taken back -/

theorem Listed.append {defs : ℕ → Option (Expr Di)} {isInt : Di → Bool} {R : ℕ → Prop} {p l : List (Item Di)} {seen : List ℕ} (h : Listed defs isInt R (p ++ l) seen) :
    Listed defs isInt R p seen ∧ Listed defs isInt R l (seen ++ p.map (·.v)) := by
  induction p generalizing seen with
  | nil => exact ⟨trivial, by simpa using h⟩
  | cons it p ih =>
    obtain ⟨h1, h2, h3, h4, h5⟩ := h
    obtain ⟨h6, h7⟩ := ih h5
    refine ⟨⟨h1, h2, h3, h4, h6⟩, ?_⟩
    simpa using h7

theorem params_congr {R E : ℕ → Prop} {X X' ρ : ℕ → FVal} {it : Item Di} (h : ∀ i, DetBy R E (it.source.args i)) (hE : ∀ v, E v → X v = X' v) : it.params R X ρ = it.params R X' ρ := by
  rw [Item.params, Item.params]
  congr 1
  funext i
  exact readAt_congr (h i) hE

section
variable {tr : ℕ → Option VTransform} {R : ℕ → Prop} {ρ : ℕ → FVal}

theorem takeBack_append (τ : ℕ → ℝ) (p l : List (Item Di)) (X : ℕ → FVal) : takeBack tr R ρ τ (p ++ l) X = takeBack tr R ρ τ l (takeBack tr R ρ τ p X) := by
  induction p generalizing X with
  | nil => rfl
  | cons it p ih => exact ih _

theorem takeBack_notMem {τ : ℕ → ℝ} {l : List (Item Di)} {X : ℕ → FVal} {v : ℕ} (h : v ∉ l.map (·.v)) : takeBack tr R ρ τ l X v = X v := by
  induction l generalizing X with
  | nil => rfl
  | cons it l ih =>
    simp only [List.map_cons, List.mem_cons, not_or] at h
    rw [takeBack, ih h.2, Function.update_of_ne h.1]

theorem takeBack_congr {defs : ℕ → Option (Expr Di)} {isInt : Di → Bool} {τ τ' : ℕ → ℝ} {p : List (Item Di)} {seen : List ℕ} (h : Listed defs isInt R p seen) {X X' : ℕ → FVal}
    (hX : ∀ v ∈ seen, X v = X' v) (hτ : ∀ v ∈ p.map (·.v), τ v = τ' v) : ∀ v ∈ seen ++ p.map (·.v), takeBack tr R ρ τ p X v = takeBack tr R ρ τ' p X' v := by
  induction p generalizing seen X X' with
  | nil => simpa [takeBack] using hX
  | cons it p ih =>
    obtain ⟨-, -, h3, -, h5⟩ := h
    have hp : it.params R X ρ = it.params R X' ρ := params_congr h3 hX
    have ht : τ it.v = τ' it.v := hτ _ (by simp)
    rw [List.map_cons, ← List.singleton_append, ← List.append_assoc]
    refine ih h5 (fun v hv => ?_) fun v hv => hτ v (by simp only [List.map_cons, List.mem_cons]; exact .inr hv)
    by_cases hvi : v = it.v
    · subst hvi
      rw [Function.update_self, Function.update_self, hp, ht]
    · rw [Function.update_of_ne hvi, Function.update_of_ne hvi]
      rcases List.mem_append.1 hv with hv | hv
      · exact hX v hv
      · exact absurd (List.mem_singleton.1 hv) hvi

/-- Every item's value is its value on the transformed scale, taken back at the parameters given by the values taken back. -/
theorem takeBack_item {defs : ℕ → Option (Expr Di)} {isInt : Di → Bool} {τ : ℕ → ℝ} {l : List (Item Di)} {seen : List ℕ} (h : Listed defs isInt R l seen) (hnd : (seen ++ l.map (·.v)).Nodup)
    {X : ℕ → FVal} {it : Item Di} (hit : it ∈ l) :
    takeBack tr R ρ τ l X it.v = match tr it.v with
      | none => .fin (τ it.v)
      | some t => t.backward (.fin (τ it.v)) (it.params R (takeBack tr R ρ τ l X) ρ) := by
  induction l generalizing seen X with
  | nil => simp at hit
  | cons a l ih =>
    obtain ⟨-, -, h3, -, h5⟩ := h
    rcases List.mem_cons.1 hit with rfl | hit
    · have hnd2 := List.nodup_append.1 hnd
      have hnl : it.v ∉ l.map (·.v) := (List.nodup_cons.1 hnd2.2.1).1
      rw [takeBack, takeBack_notMem hnl, Function.update_self]
      have hp : ∀ y, it.params R X ρ = it.params R (takeBack tr R ρ τ l (Function.update X it.v y)) ρ := by
        intro y
        refine params_congr h3 fun v hv => ?_
        have hvl : v ∉ l.map (·.v) := fun hm => hnd2.2.2 _ hv _ (by simp only [List.map_cons, List.mem_cons]; exact .inr hm) rfl
        have hvi : v ≠ it.v := fun hh => hnd2.2.2 _ hv _ (by simp) hh
        rw [takeBack_notMem hvl, Function.update_of_ne hvi]
      cases tr it.v with
      | none => rfl
      | some t => exact congrArg _ (hp _)
    · exact ih h5 (by rwa [List.append_assoc]) hit

end

/-! ## One variable -/

/-- The density of an item is a measurable function of its value. -/
theorem item_meas {kernel : Di → FVal → List FVal → Except Err FVal} {law : Di → List FVal → Measure ℝ} {ref : Di → Measure ℝ} {supp : Di → List FVal → Set ℝ} {ev : Expr Di → FVal}
    {it : Item Di} (hs : ∀ l ∈ it.layers, Supported l.op l.n)
    (hgood : GoodOn (kernel it.source.dist) (law it.source.dist) (ref it.source.dist) (supp it.source.dist) (List.ofFn fun i => ev (it.source.args i)))
    (hok : TowerOkOn ev it.layers (supp it.source.dist (List.ofFn fun i => ev (it.source.args i)))) :
    Measurable ((towerMap ev it.layers '' supp it.source.dist (List.ofFn fun i => ev (it.source.args i))).indicator fun y => dens (termAt kernel ev it (.fin y))) ∧
      MeasurableSet (towerMap ev it.layers '' supp it.source.dist (List.ofFn fun i => ev (it.source.args i))) := by
  set p := List.ofFn fun i => ev (it.source.args i) with hp
  set D := supp it.source.dist p with hDdef
  obtain ⟨ns, h1, h2, h3⟩ := nodes_ok hs hok
  obtain ⟨ts, h4, h5⟩ := tower_solid h2 hgood.set
  have et : ∀ y, termAt kernel ev it y = layersLogprob ts (fun v => kernel it.source.dist v p) y := fun y => by simp only [termAt, h1, h4, ← hp]
  have himg : towerMap ev it.layers '' D = towerFn ns '' D := image_congr h3
  have hm : MeasurableSet (towerFn ns '' D) := MeasurableSet.image_of_continuousOn_injOn hgood.set h5.cont h5.inj
  rw [himg]
  simp only [et]
  exact ⟨h5.meas (fun v => kernel it.source.dist v p) hm hgood.meas, hm⟩

/-- Change of variables for a value transform. -/
theorem trans_step {t : RVTransform} {D R : Set ℝ} (hinv : Inverts t D R) (hjac : LogJac t R) (hR : MeasurableSet R) {lp : FVal → Except Err FVal}
    (hm : Measurable (D.indicator fun x => dens (lp (.fin x)))) (hfin : ∫⁻ x in D, dens (lp (.fin x)) ≠ ⊤) :
    (∀ G : ℝ → ENNReal, ∫⁻ y in D, dens (lp (.fin y)) * G (realOf (t.forward (.fin y))) = ∫⁻ z in R, dens (transformedLogprob t lp true (.fin z)) * G z) ∧
      ∀ᵐ z ∂(volume.restrict R), dens (transformedLogprob t lp true (.fin z)) < ⊤ := by
  set φ : ℝ → ℝ := fun x => realOf (t.forward (.fin x)) with hφ
  set h : ℝ → ℝ := fun y => realOf (t.backward (.fin y)) with hh
  choose! h' hd hd0 hj using hjac
  have hbd : ∀ y ∈ R, h y ∈ D ∧ φ (h y) = y ∧ t.backward (.fin y) = .ok (.fin (h y)) := by
    intro y hy
    obtain ⟨x, hx, e1, e2⟩ := hinv.bwd y hy
    have : h y = x := by simp [hh, e1]
    rw [this]
    exact ⟨hx, by simp [hφ, e2], e1⟩
  have hfd : ∀ x ∈ D, φ x ∈ R ∧ h (φ x) = x := by
    intro x hx
    obtain ⟨y, hy, e1, e2⟩ := hinv.fwd x hx
    have : φ x = y := by simp [hφ, e1]
    rw [this]
    exact ⟨hy, by simp [hh, e2]⟩
  have hinj : InjOn h R := fun a ha b hb hab => by rw [← (hbd a ha).2.1, ← (hbd b hb).2.1, hab]
  have hDim : D = h '' R := by
    ext x
    exact ⟨fun hx => ⟨φ x, (hfd x hx).1, (hfd x hx).2⟩, fun ⟨y, hy, e⟩ => e ▸ (hbd y hy).1⟩
  have hdens : ∀ z ∈ R, dens (transformedLogprob t lp true (.fin z)) = ENNReal.ofReal |h' z| * dens (lp (.fin (h z))) := by
    intro z hz
    obtain ⟨-, -, hb⟩ := hbd z hz
    simp only [transformedLogprob, hb, hj z hz, bind, Except.bind, if_true]
    cases lp (.fin (h z)) with
    | error e => simp [dens]
    | ok v =>
      show dens (.ok (v + .fin _)) = _
      rw [dens_add_fin, Real.exp_log (abs_pos.2 (hd0 z hz)), mul_comm]
  have key : ∀ G : ℝ → ENNReal, ∫⁻ y in D, dens (lp (.fin y)) * G (φ y) = ∫⁻ z in R, dens (transformedLogprob t lp true (.fin z)) * G z := by
    intro G
    rw [hDim, lintegral_image_eq_lintegral_abs_deriv_mul hR (fun y hy => (hd y hy).hasDerivWithinAt) hinj]
    refine setLIntegral_congr_fun hR fun z hz => ?_
    show ENNReal.ofReal |h' z| * (dens (lp (.fin (h z))) * G (φ (h z))) = _
    rw [(hbd z hz).2.1, hdens z hz, mul_assoc]
  refine ⟨key, ?_⟩
  have hmh : Measurable (R.indicator h) := by
    classical
    rw [← piecewise_eq_indicator]
    exact ContinuousOn.measurable_piecewise (fun z hz => (hd z hz).continuousAt.continuousWithinAt) continuousOn_const hR
  have hmeas : Measurable (R.indicator fun z => dens (transformedLogprob t lp true (.fin z))) := by
    have e : (R.indicator fun z => dens (transformedLogprob t lp true (.fin z))) =
        R.indicator fun z => ENNReal.ofReal |deriv h z| * (D.indicator fun x => dens (lp (.fin x))) (R.indicator h z) := by
      funext z
      by_cases hz : z ∈ R
      · rw [indicator_of_mem hz, indicator_of_mem hz, hdens z hz, indicator_of_mem hz, indicator_of_mem (hbd z hz).1, (hd z hz).deriv]
      · rw [indicator_of_notMem hz, indicator_of_notMem hz]
    rw [e]
    exact ((ENNReal.measurable_ofReal.comp (measurable_deriv h).norm).mul (hm.comp hmh)).indicator hR
  have hlt : ∀ᵐ z, (R.indicator fun z => dens (transformedLogprob t lp true (.fin z))) z < ⊤ := by
    refine ae_lt_top hmeas ?_
    rw [lintegral_indicator hR]
    have := key fun _ => 1
    simp only [mul_one] at this
    rw [← this]
    exact hfin
  rw [ae_restrict_iff' hR]
  filter_upwards [hlt] with z hz hzR
  rwa [indicator_of_mem hzR] at hz

end Verif.IR
