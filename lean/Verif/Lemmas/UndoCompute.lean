import Verif.Lemmas.Undo

/-! # Computing replacements on graphs given by tables

Used for the concrete cases only. -/

namespace Verif.Undo
variable {α : Type}

/-- The heap of a table. -/
def table (l : List (ℕ × Node α)) : Heap α := fun v => (l.find? fun p => p.1 == v).map Prod.snd

/-- Ancestors up to some depth. -/
def reachL (h : Heap α) : ℕ → ℕ → List ℕ
  | 0, v => [v]
  | f + 1, v => v :: ((h v).map fun n => n.inputs.flatMap (reachL h f)).getD []

/-- The inputs of every member are members. -/
def closedL (h : Heap α) (L : List ℕ) : Bool := L.all fun v => ((h v).map fun n => n.inputs.all (L.contains ·)).getD true

theorem anc_of_mem_reachL (h : Heap α) (f v w : ℕ) (hw : w ∈ reachL h f v) : Anc h v w := by
  induction f generalizing v with
  | zero => simp only [reachL, List.mem_singleton] at hw; rw [hw]; exact .refl v
  | succ f ih =>
    simp only [reachL, List.mem_cons] at hw
    rcases hw with rfl | hw
    · exact .refl _
    · rcases e : h v with _ | n
      · simp [e] at hw
      · simp only [e, Option.map_some, Option.getD_some, List.mem_flatMap] at hw
        obtain ⟨i, hi, hw⟩ := hw
        exact .step e hi (ih i hw)

theorem mem_of_closedL {h : Heap α} {L : List ℕ} (hL : closedL h L = true) {v w : ℕ} (ha : Anc h v w) (hv : v ∈ L) :
    w ∈ L := by
  refine anc_closed (S := (· ∈ L)) ?_ ha hv
  intro v n i hv hn hi
  have := List.all_eq_true.mp hL v hv
  simp only [hn, Option.map_some, Option.getD_some] at this
  simpa using List.all_eq_true.mp this i hi

theorem mem_reachL_self (h : Heap α) (f v : ℕ) : v ∈ reachL h f v := by cases f <;> simp [reachL]

theorem anc_iff {h : Heap α} {f v : ℕ} (hc : closedL h (reachL h f v) = true) (w : ℕ) :
    Anc h v w ↔ w ∈ reachL h f v :=
  ⟨fun ha => mem_of_closedL hc ha (mem_reachL_self h f v), anc_of_mem_reachL h f v w⟩

/-- The variables in a graph. -/
def membersL (g : FGraph α) (f : ℕ) : List ℕ := g.outputs.flatMap (reachL g.owner f)

theorem has_iff {g : FGraph α} {f : ℕ} (hc : closedL g.owner (membersL g f) = true) (v : ℕ) :
    g.Has v ↔ v ∈ membersL g f := by
  constructor
  · rintro ⟨o, ho, ha⟩
    exact mem_of_closedL hc ha (List.mem_flatMap.mpr ⟨o, ho, mem_reachL_self _ _ _⟩)
  · intro hv
    obtain ⟨o, ho, hv⟩ := List.mem_flatMap.mp hv
    exact ⟨o, ho, anc_of_mem_reachL _ _ _ _ hv⟩

/-- A table after a replacement. -/
def moveL (l : List (ℕ × Node α)) (S : List ℕ) (a b : ℕ) : List (ℕ × Node α) :=
  l.map fun p => if S.contains p.1 then (p.1, p.2.subst a b) else p

theorem table_moveL (l : List (ℕ × Node α)) (S : List ℕ) (a b : ℕ) :
    table (moveL l S a b) = rewire (table l) (· ∈ S) a b := by
  funext v
  induction l with
  | nil => simp [table, moveL, rewire]
  | cons p l ih =>
    simp only [table, moveL, List.map_cons, List.find?_cons] at ih ⊢
    by_cases hp : p.1 = v
    · have h1 : ((if S.contains p.1 = true then (p.1, Node.subst a b p.2) else p).1 == v) = true := by
        split_ifs <;> simpa using hp
      rw [h1]
      by_cases hS : v ∈ S
      · simp [rewire, table, hp, hS]
      · simp [rewire, table, hp, hS]
    · have h1 : ((if S.contains p.1 = true then (p.1, Node.subst a b p.2) else p).1 == v) = false := by
        split_ifs <;> simpa using hp
      rw [h1]
      simp only [rewire, table, List.find?_cons] at ih ⊢
      have h2 : (p.1 == v) = false := by simpa using hp
      rw [h2]
      exact ih

/-- A graph given by a table. -/
def ofTable (l : List (ℕ × Node α)) (outs : List ℕ) (conv : Dict ℕ ℕ) : FGraph α := ⟨table l, outs, conv⟩

theorem move_table {l : List (ℕ × Node α)} {outs : List ℕ} {conv : Dict ℕ ℕ} {a b : ℕ} (f : ℕ)
    (hc : closedL (table l) (membersL (ofTable l outs conv) f) = true)
    (hb : closedL (table l) (reachL (table l) f b) = true) :
    (ofTable l outs conv).move a b =
      ofTable (moveL l (membersL (ofTable l outs conv) f ++ reachL (table l) f b) a b) (outs.map (swap a b)) conv := by
  simp only [FGraph.move, ofTable, FGraph.mk.injEq, and_true]
  rw [table_moveL]
  congr 1
  funext v
  have := has_iff (g := ofTable l outs conv) hc v
  simp only [ofTable] at this ⊢
  rw [this, anc_iff hb v, List.mem_append]

/-- The test of the tracker. -/
def trackedL (g : FGraph α) (f r new : ℕ) : Bool :=
  ((g.owner r).map fun n => decide (n.kind = .plain)).getD false &&
  ((g.owner new).map fun n => decide (n.kind = .measurable)).getD false &&
  (membersL g f).all fun v => ((g.owner v).map fun n => decide (n.kind = .valued → new ∉ n.inputs)).getD true

theorem tracked_iff {g : FGraph α} {f : ℕ} (hc : closedL g.owner (membersL g f) = true) (r new : ℕ) :
    Tracked g r new ↔ trackedL g f r new = true := by
  have hk : ∀ k v, HasKind g.owner k v ↔ ((g.owner v).map fun n => decide (n.kind = k)).getD false = true := by
    intro k v
    rcases e : g.owner v with _ | n <;> simp [HasKind, e]
  have h3 : (∀ v n, g.Has v → g.owner v = some n → n.kind = .valued → new ∉ n.inputs) ↔
      (membersL g f).all (fun v => ((g.owner v).map fun n => decide (n.kind = .valued → new ∉ n.inputs)).getD true) = true := by
    rw [List.all_eq_true]
    constructor
    · intro h v hv
      rcases e : g.owner v with _ | n
      · simp
      · simp only [Option.map_some, Option.getD_some, decide_eq_true_eq]
        exact h v n ((has_iff hc v).mpr hv) e
    · intro h v n hv e
      have := h v ((has_iff hc v).mp hv)
      rw [e] at this
      simpa only [Option.map_some, Option.getD_some, decide_eq_true_eq] using this
  rw [Tracked, hk, hk, h3, trackedL, Bool.and_eq_true, Bool.and_eq_true, and_assoc]

/-- Everything that has to be checked before a replacement can be computed: `S` are the variables in the
graph together with the ancestors of the new one. -/
def checkL (l : List (ℕ × Node α)) (outs : List ℕ) (conv : Dict ℕ ℕ) (S : List ℕ) (f a b : ℕ) : Bool :=
  closedL (table l) (membersL (ofTable l outs conv) f) && closedL (table l) (reachL (table l) f b) &&
  (membersL (ofTable l outs conv) f).contains a &&
  decide (membersL (ofTable l outs conv) f ++ reachL (table l) f b = S)

/-- The graph after a replacement, before the tracker is asked. -/
def movedL (l : List (ℕ × Node α)) (outs : List ℕ) (conv : Dict ℕ ℕ) (S : List ℕ) (a b : ℕ) : FGraph α :=
  ofTable (moveL l S a b) (outs.map (swap a b)) conv

/-- Whether the tracker will record the replacement. -/
def recordL (l : List (ℕ × Node α)) (outs : List ℕ) (conv : Dict ℕ ℕ) (S : List ℕ) (f a b : ℕ) (rec : Bool) : Bool :=
  checkL l outs conv S f a b &&
    (closedL (movedL l outs conv S a b).owner (membersL (movedL l outs conv S a b) f) &&
        (trackedL (movedL l outs conv S a b) f a b == rec))

theorem replace_recorded {l : List (ℕ × Node α)} {outs : List ℕ} {conv : Dict ℕ ℕ} (S : List ℕ) (f : ℕ) {a b : ℕ}
    (h : recordL l outs conv S f a b true = true) :
    (ofTable l outs conv).replace a b = ofTable (moveL l S a b) (outs.map (swap a b)) (Dict.set conv a b) := by
  simp only [recordL, checkL, Bool.and_eq_true, decide_eq_true_eq, beq_iff_eq] at h
  obtain ⟨⟨⟨⟨h1, h2⟩, h3⟩, hS⟩, h4, h5⟩ := h
  have hm : (ofTable l outs conv).move a b = movedL l outs conv S a b := by rw [move_table f h1 h2, hS]; rfl
  have hh : (ofTable l outs conv).Has a := (has_iff h1 a).mpr (by simpa using h3)
  have ht : Tracked ((ofTable l outs conv).move a b) a b := by rw [hm]; exact (tracked_iff h4 a b).mpr h5
  rw [FGraph.replace, if_pos hh, if_pos ht, hm]
  rfl

theorem replace_unrecorded {l : List (ℕ × Node α)} {outs : List ℕ} {conv : Dict ℕ ℕ} (S : List ℕ) (f : ℕ) {a b : ℕ}
    (h : recordL l outs conv S f a b false = true) :
    (ofTable l outs conv).replace a b = ofTable (moveL l S a b) (outs.map (swap a b)) conv := by
  simp only [recordL, checkL, Bool.and_eq_true, decide_eq_true_eq, beq_iff_eq] at h
  obtain ⟨⟨⟨⟨h1, h2⟩, h3⟩, hS⟩, h4, h5⟩ := h
  have hm : (ofTable l outs conv).move a b = movedL l outs conv S a b := by rw [move_table f h1 h2, hS]; rfl
  have hh : (ofTable l outs conv).Has a := (has_iff h1 a).mpr (by simpa using h3)
  have ht : ¬ Tracked ((ofTable l outs conv).move a b) a b := by
    rw [hm, tracked_iff h4 a b, h5]; simp
  rw [FGraph.replace, if_pos hh, if_neg ht, hm]
  rfl

theorem replace_nothing {l : List (ℕ × Node α)} {outs : List ℕ} {conv : Dict ℕ ℕ} (f : ℕ) {a b : ℕ}
    (h : (closedL (table l) (membersL (ofTable l outs conv) f) && !(membersL (ofTable l outs conv) f).contains a) = true) :
    (ofTable l outs conv).replace a b = ofTable l outs conv := by
  simp only [Bool.and_eq_true, Bool.not_eq_true'] at h
  refine replace_absent b fun hh => ?_
  have := (has_iff h.1 a).mp hh
  have h2 := h.2
  simp [this] at h2

theorem make_table (l : List (ℕ × Node α)) (outs : List ℕ) (conv : Dict ℕ ℕ) (v : ℕ) (n : Node α) :
    (ofTable l outs conv).make v n = ofTable ((v, n) :: l) outs conv := by
  simp only [FGraph.make, ofTable, FGraph.mk.injEq, and_true]
  funext w
  simp only [Function.update_apply, table, List.find?_cons]
  by_cases h : w = v
  · simp [h]
  · have : (v == w) = false := by simpa using fun e => h e.symm
    simp [h, this]

end Verif.Undo
