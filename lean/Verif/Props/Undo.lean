import Verif.Lemmas.UndoCompute
import Mathlib.Analysis.SpecialFunctions.Exp

/-! # C114: what was converted without need is computed as the user wrote it

Claim: variables that have no value of their own but were rewritten to measurable ones are, in the final
graph, computed by the user's own graph again, at the values of the other variables on their original scale.

This holds when no recorded variable was computed from the result of another conversion or from a value that
has been transformed since (`C114_undo_partial`, `C114_evaluate_partial`), and without transforms rewrites
that keep the meaning of every variable never change it (`C114_meaning`).  It fails when one conversion was
built on another one: the inner one stays in the graph.  For a mixture that is a stand-in `Op` that cannot be
run (`C114_nested_mixture_wrong`), for a sum of normal variables it is a draw that has nothing to do with the
summands any more (`C114_nested_sum_wrong`). -/

namespace Verif.Undo
variable {α : Type}

/-- C114, proved part: with independent conversions, the constructed graph means what the user's graph means,
every node of the user's graph is still there and has inputs with the same values, and none of the undone
conversions and none of the replaced values is left in the graph. -/
theorem C114_undo_partial {D : ℕ → α} {g : FGraph α} (hg : Meaning g.owner D) (hc : g.conversions = [])
    {actions : List (Action α)} {moved : List (Moved α)} {values : List (ℕ × ℕ)}
    (hr : SoundRewrites D g actions) (hm : SoundMoves D (g.rewrites actions) moved) (hd : DistinctMoves moved)
    (hi : Independent ((g.rewrites actions).transforms moved) moved)
    (hv : ValueMap D ((g.rewrites actions).transforms moved) moved values) :
    Meaning (g.construct actions moved values).owner D ∧
    SameNodes D g.owner (g.construct actions moved values).owner ∧
    (∀ p ∈ ((g.rewrites actions).transforms moved).conversions, ¬ (g.construct actions moved values).Has p.2) ∧
    ∀ t ∈ moved, ¬ (g.construct actions moved values).Has t.clone := by
  have i0 : Inv D g.owner g := ⟨hg, sameNodes_refl D _, by simp [hc]⟩
  have i2 := inv_transforms (inv_rewrites i0 hr) hm
  have hcl : ∀ t ∈ moved, ¬ ((g.rewrites actions).transforms moved).Has t.clone := fun t ht =>
    absent_transforms hm (.inr ⟨t, ht, rfl⟩) (fun s hs => hd t ht s hs) (fun s hs => (hd s hs s hs).1)
  obtain ⟨j1, j2, j3, j4⟩ := undo_conversions (moved := moved) _ _ (fun p hp => hp) i2 i2.recorded hcl
    (fun p hp => .inl hp) hi
  obtain ⟨k1, k2, k3⟩ := undo_values (moved := moved) ((g.rewrites actions).transforms moved).conversions values j1 j2 j3
    (fun p hp => ⟨j4 _ (hv p hp).1, (hv p hp).2⟩)
  have e : g.construct actions moved values =
      (((g.rewrites actions).transforms moved).replaceAll
        (((g.rewrites actions).transforms moved).conversions.map fun p => (p.2, p.1))).replaceAll values := by
    simp only [FGraph.construct, FGraph.undo, FGraph.replaceAll, List.foldl_append]
  rw [e]
  exact ⟨k1.meaning, k1.same, k3, k2⟩

/-- C114, proved part: in terms of evaluation.  Whatever the user's graph and the constructed graph give for a
variable, for inputs that agree with each other, is the same. -/
theorem C114_evaluate_partial {D : ℕ → α} {g : FGraph α} (hg : Meaning g.owner D) (hc : g.conversions = [])
    {actions : List (Action α)} {moved : List (Moved α)} {values : List (ℕ × ℕ)}
    (hr : SoundRewrites D g actions) (hm : SoundMoves D (g.rewrites actions) moved) (hd : DistinctMoves moved)
    (hi : Independent ((g.rewrites actions).transforms moved) moved)
    (hv : ValueMap D ((g.rewrites actions).transforms moved) moved values)
    {ρ ρ' : ℕ → α} (hρ : ∀ v, g.owner v = none → ρ v = D v)
    (hρ' : ∀ v, (g.construct actions moved values).owner v = none → ρ' v = D v)
    {v k k' : ℕ} {x x' : α} (hx : evaluate g.owner ρ k v = some x)
    (hx' : evaluate (g.construct actions moved values).owner ρ' k' v = some x') : x' = x := by
  rw [evaluate_meaning hg hρ k v x hx,
    evaluate_meaning (C114_undo_partial hg hc hr hm hd hi hv).1 hρ' k' v x' hx']

/-- C114: without transforms the constructed graph always means what the user's graph means, however the
conversions depend on each other. -/
theorem C114_meaning {D : ℕ → α} {g : FGraph α} (hg : Meaning g.owner D) (hc : g.conversions = [])
    {actions : List (Action α)} {values : List (ℕ × ℕ)} (hr : SoundRewrites D g actions)
    (hv : ∀ p ∈ values, D p.1 = D p.2) :
    Meaning (g.construct actions [] values).owner D ∧ SameNodes D g.owner (g.construct actions [] values).owner := by
  have i1 := inv_rewrites (h0 := g.owner) ⟨hg, sameNodes_refl D _, by simp [hc]⟩ hr
  have key : ∀ (l : List (ℕ × ℕ)) (g' : FGraph α), (∀ p ∈ l, D p.1 = D p.2) → Inv D g.owner g' →
      Inv D g.owner (g'.replaceAll l) := by
    intro l
    induction l with
    | nil => intro g' _ h; exact h
    | cons p l ih =>
      intro g' hl h
      exact ih _ (fun q hq => hl q (List.mem_cons_of_mem _ hq)) (inv_replace h (hl p List.mem_cons_self))
  have := key (((g.rewrites actions).conversions.map fun p => (p.2, p.1)) ++ values) (g.rewrites actions)
    (by
      intro p hp
      rcases List.mem_append.mp hp with hp | hp
      · obtain ⟨q, hq, rfl⟩ := List.mem_map.mp hp
        exact (i1.recorded q hq).symm
      · exact hv p hp) i1
  exact ⟨this.meaning, this.same⟩

/-! ### A model with an un-valued derived variable

`X` is transformed, `W` is a latent variable with parameter `X`, `Z = exp(W)` is derived from it and `Y` has the
parameter `Z`; only `X` and `Y` have values. -/

namespace Latent

/-- A function of one argument. -/
def one (f : ℝ → ℝ) (l : List ℝ) : ℝ := f (l.headD 0)
/-- `valued_variable(rv, value)` is the value. -/
def second (l : List ℝ) : ℝ := l.getD 1 0

/-- The draw of `W`: its parameter plus one. -/
noncomputable def draw (m : ℝ) : ℝ := m + 1

/-- Variables `0, 1` are the value clones of `X` and `Y`.  `10 = W`, `11 = Z = exp(W)`, `12 = Y`, `13` is the
output of `Y`; `14 = X` and `15` is the output of `X`; `16` is the valued `X` that is used in the rest of the
graph, made from `17`.  `z` is the input of `Y`, `x` is the value of `X`. -/
noncomputable def nodes (z x : ℕ) : List (ℕ × Node ℝ) :=
  [(10, ⟨.measurable, one draw, [16], true⟩), (11, ⟨.plain, one Real.exp, [10], true⟩),
   (12, ⟨.measurable, one id, [z], true⟩), (13, ⟨.valued, second, [12, 1], true⟩),
   (14, ⟨.measurable, fun _ => 0, [], true⟩), (15, ⟨.valued, second, [14, x], true⟩),
   (17, ⟨.measurable, fun _ => 0, [], true⟩), (16, ⟨.valued, second, [17, x], true⟩)]

/-- The rewrite of `Z = exp(W)`: a copy of `W` without measurable outputs, and the measurable `exp` of it. -/
noncomputable def actions : List (Action ℝ) :=
  [.make 20 ⟨.measurable, one draw, [16], true⟩, .make 21 ⟨.measurable, one Real.exp, [20], true⟩, .convert 11 21]

/-- The nodes made by the rewrite. -/
noncomputable def made : List (ℕ × Node ℝ) :=
  [(21, ⟨.measurable, one Real.exp, [20], true⟩), (20, ⟨.measurable, one draw, [16], true⟩)]

/-- `X` is transformed: its new value is `2`, which `exp` takes to the value of `X`. -/
noncomputable def moved : Moved ℝ := ⟨0, 2, 22, one Real.exp, []⟩

/-- The user's graph. -/
noncomputable def graph : FGraph ℝ := ofTable (nodes 11 0) [15, 13] []

theorem rewrites_eq : graph.rewrites actions = ofTable (made ++ nodes 21 0) [15, 13] [(11, 21)] := by
  simp only [FGraph.rewrites, actions, List.foldl_cons, List.foldl_nil, FGraph.act, make_table, graph]
  exact (replace_recorded [15, 14, 0, 13, 12, 11, 10, 16, 17, 0, 1, 21, 20, 16, 17, 0] 6 (by decide +kernel)).trans rfl

theorem transforms_eq : (ofTable (made ++ nodes 21 0) [15, 13] [(11, 21)]).transforms [moved] =
    ofTable ((22, ⟨.plain, one Real.exp, [2], true⟩) :: (made ++ nodes 21 22)) [15, 13] [(11, 21)] := by
  simp only [FGraph.transforms, List.foldl_cons, List.foldl_nil, FGraph.transform, moved, make_table]
  exact (replace_unrecorded [15, 14, 0, 13, 12, 21, 20, 16, 17, 0, 1, 22, 2] 6 (by decide +kernel)).trans rfl

/-- The meaning of the variables for a value `t` of `X` on the transformed scale and a value `y` of `Y`. -/
noncomputable def meaning (t y : ℝ) : ℕ → ℝ
  | 0 => Real.exp t | 1 => y | 2 => t | 3 => y | 22 => Real.exp t | 15 => Real.exp t | 16 => Real.exp t | 13 => y
  | 10 => Real.exp t + 1 | 20 => Real.exp t + 1
  | 11 => Real.exp (Real.exp t + 1) | 21 => Real.exp (Real.exp t + 1) | 12 => Real.exp (Real.exp t + 1)
  | _ => 0

theorem meaning_table {D : ℕ → ℝ} (l : List (ℕ × Node ℝ)) (h : ∀ p ∈ l, D p.1 = p.2.fn (p.2.inputs.map D)) :
    Meaning (table l) D := by
  intro v n hn
  simp only [table, Option.map_eq_some_iff] at hn
  obtain ⟨p, hp, rfl⟩ := hn
  have h1 := List.mem_of_find?_eq_some hp
  have h2 : p.1 = v := by simpa using List.find?_some hp
  rw [← h2]
  exact h p h1

theorem sound (t y : ℝ) : SoundRewrites (meaning t y) graph actions := by
  refine ⟨rfl, rfl, rfl, rfl, rfl, trivial⟩

theorem soundMoves (t y : ℝ) : SoundMoves (meaning t y) (graph.rewrites actions) [moved] := by
  rw [rewrites_eq]
  refine ⟨rfl, ?_, rfl, by decide, by simp [moved], rfl, rfl, trivial⟩
  rw [has_iff (f := 6) (by decide +kernel)]
  decide +kernel

theorem independent : Independent ((graph.rewrites actions).transforms [moved]) [moved] := by
  rw [rewrites_eq, transforms_eq]
  have key : ∀ w, Anc (ofTable ((22, ⟨.plain, one Real.exp, [2], true⟩) :: (made ++ nodes 21 22)) [15, 13] [(11, 21)]).owner 11 w ↔
      w ∈ [11, 10, 16, 17, 22, 2] := by
    intro w
    rw [anc_iff (f := 6) (by decide +kernel)]
    have : reachL (ofTable ((22, ⟨.plain, one Real.exp, [2], true⟩) :: (made ++ nodes 21 22)) [15, 13] [(11, 21)]).owner 6 11 =
      [11, 10, 16, 17, 22, 2] := by decide +kernel
    rw [this]
  intro p hp
  have hp' : p = (11, 21) := by simpa [ofTable] using hp
  subst hp'
  refine ⟨fun q hq => ?_, fun s hs => ?_⟩
  · have hq' : q = (11, 21) := by simpa [ofTable] using hq
    subst hq'
    rw [key]; decide
  · have hs' : s = moved := by simpa using hs
    subst hs'
    rw [key]; simp [moved]

theorem valueMap (t y : ℝ) :
    ValueMap (meaning t y) ((graph.rewrites actions).transforms [moved]) [moved] [(0, 2), (1, 3)] := by
  rw [rewrites_eq, transforms_eq]
  intro p hp
  have : p = (0, 2) ∨ p = (1, 3) := by simpa using hp
  rcases this with rfl | rfl
  · exact ⟨rfl, by simp [ofTable], by simp [moved], .inr ⟨moved, by simp, rfl⟩⟩
  · exact ⟨rfl, by simp [ofTable], by simp [moved], .inl rfl⟩

theorem graph_meaning (t y : ℝ) : Meaning graph.owner (meaning t y) := by
  refine meaning_table _ fun p hp => ?_
  simp only [nodes, List.mem_cons, List.not_mem_nil, or_false] at hp
  rcases hp with rfl | rfl | rfl | rfl | rfl | rfl | rfl | rfl <;> rfl

/-- A recorded conversion of a variable that depends on a transformed value meets the hypotheses. -/
example (t y : ℝ) := C114_undo_partial (graph_meaning t y) rfl (sound t y) (soundMoves t y)
  (by intro s hs u hu; simp only [List.mem_singleton] at hs hu; subst hs; subst hu; decide) independent (valueMap t y)

theorem graph_evaluate (t y : ℝ) : evaluate graph.owner (meaning t y) 5 11 = some (Real.exp (Real.exp t + 1)) := by
  simp [evaluate, graph, ofTable, nodes, table, one, second, meaning, draw]

example (t y : ℝ) {k' : ℕ} {x' : ℝ} :=
  C114_evaluate_partial (graph_meaning t y) rfl (sound t y) (soundMoves t y)
  (by intro s hs u hu; simp only [List.mem_singleton] at hs hu; subst hs; subst hu; decide) independent (valueMap t y)
  (fun _ _ => rfl) (ρ' := meaning t y) (fun _ _ => rfl) (graph_evaluate t y) (k' := k') (x' := x')

example (t y : ℝ) := C114_meaning (graph_meaning t y) rfl (sound t y) (values := [(1, 3)]) (by simp [meaning])

end Latent

/-! ### A conversion built on another one

`exp(switch(I, A, B))` and `exp(A + B)` as parameters of a variable, with latent `A` and `B`. -/

namespace Nested
open Latent (one second)

/-- `switch`. -/
noncomputable def choose (l : List ℝ) : ℝ := if l.headD 0 = 0 then l.getD 2 0 else l.getD 1 0
/-- `A + B`; the first input is not used. -/
noncomputable def total (l : List ℝ) : ℝ := l.getD 1 0 + l.getD 2 0

/-- `10 = A`, `11 = B` with draws 1 and 2, `9` is the value of an indicator; `12 = inner(9, A, B)`, `13 = exp(12)`,
`14 = Y` and `15` is its output.  `i` is the input of `13`, `z` that of `Y`. -/
noncomputable def nodes (inner : List ℝ → ℝ) (i z : ℕ) : List (ℕ × Node ℝ) :=
  [(10, ⟨.measurable, fun _ => 1, [], true⟩), (11, ⟨.measurable, fun _ => 2, [], true⟩),
   (12, ⟨.plain, inner, [9, 10, 11], true⟩), (13, ⟨.plain, one Real.exp, [i], true⟩),
   (14, ⟨.measurable, one id, [z], true⟩), (15, ⟨.valued, second, [14, 1], true⟩)]

/-- A mixture: `20` is the `MixtureRV` put in for `12` (mixture.py:282-290), `21` the measurable `exp` of a copy. -/
noncomputable def mixtureActions : List (Action ℝ) :=
  [.make 20 ⟨.measurable, choose, [9, 10, 11], false⟩, .convert 12 20,
   .make 22 ⟨.measurable, choose, [9, 10, 11], false⟩, .make 21 ⟨.measurable, one Real.exp, [22], true⟩, .convert 13 21]

/-- The user's graph with the mixture. -/
noncomputable def mixture : FGraph ℝ := ofTable (nodes choose 12 13) [15] []

/-- The nodes made for the mixture. -/
noncomputable def mixtureMade : List (ℕ × Node ℝ) :=
  [(21, ⟨.measurable, one Real.exp, [22], true⟩), (22, ⟨.measurable, choose, [9, 10, 11], false⟩),
   (20, ⟨.measurable, choose, [9, 10, 11], false⟩)]

theorem mixture_first : (ofTable ((20, ⟨.measurable, choose, [9, 10, 11], false⟩) :: nodes choose 12 13) [15] []).replace 12 20 =
    ofTable ((20, ⟨.measurable, choose, [9, 10, 11], false⟩) :: nodes choose 20 13) [15] [(12, 20)] :=
  (replace_recorded [15, 14, 13, 12, 9, 10, 11, 1, 20, 9, 10, 11] 6 (by decide +kernel)).trans rfl

theorem mixture_rewrites : mixture.rewrites mixtureActions =
    ofTable (mixtureMade ++ nodes choose 20 21) [15] [(12, 20), (13, 21)] := by
  simp only [FGraph.rewrites, mixtureActions, List.foldl_cons, List.foldl_nil, FGraph.act, make_table, mixture]
  rw [mixture_first, make_table, make_table]
  exact (replace_recorded [15, 14, 13, 20, 9, 10, 11, 1, 21, 22, 9, 10, 11] 6 (by decide +kernel)).trans rfl

theorem mixture_construct : mixture.construct mixtureActions [] [(1, 3)] =
    ofTable ([(21, ⟨.measurable, one Real.exp, [22], true⟩), (22, ⟨.measurable, choose, [9, 10, 11], false⟩),
      (20, ⟨.measurable, choose, [9, 10, 11], false⟩)] ++ [(10, ⟨.measurable, fun _ => 1, [], true⟩), (11, ⟨.measurable, fun _ => 2, [], true⟩),
   (12, ⟨.plain, choose, [9, 10, 11], true⟩), (13, ⟨.plain, one Real.exp, [20], true⟩),
   (14, ⟨.measurable, one id, [13], true⟩), (15, ⟨.valued, second, [14, 3], true⟩)]) [15] [(12, 20), (13, 21)] := by
  simp only [FGraph.construct, mixture_rewrites, FGraph.transforms, FGraph.undo, FGraph.replaceAll, List.foldl_nil]
  show (((ofTable (mixtureMade ++ nodes choose 20 21) [15] [(12, 20), (13, 21)]).replace 20 12).replace 21 13).replace 1 3 = _
  rw [replace_nothing 6 (by decide +kernel)]
  rw [replace_unrecorded [15, 14, 21, 22, 9, 10, 11, 1, 13, 20, 9, 10, 11] 6 (by decide +kernel)]
  exact (replace_unrecorded [15, 14, 13, 20, 9, 10, 11, 1, 3] 6 (by decide +kernel)).trans rfl

/-- The values of the variables when the indicator is one. -/
noncomputable def mixtureMeaning (y : ℝ) : ℕ → ℝ
  | 1 => y | 3 => y | 15 => y | 9 => 1 | 10 => 1 | 11 => 2 | 12 => 1 | 20 => 1 | 22 => 1
  | 13 => Real.exp 1 | 21 => Real.exp 1 | 14 => Real.exp 1 | _ => 0

theorem choose_meaning (y : ℝ) : choose ([9, 10, 11].map (mixtureMeaning y)) = 1 := by
  simp [choose, mixtureMeaning]

/-- C114 is false: for the parameter `exp(switch(I, A, B))`, all rewrites are sound, the user's graph evaluates to
`exp` of the draw of `A`, and the constructed graph cannot be evaluated at all, since a `MixtureRV` is left in it. -/
theorem C114_nested_mixture_wrong (y : ℝ) :
    Meaning mixture.owner (mixtureMeaning y) ∧ SoundRewrites (mixtureMeaning y) mixture mixtureActions ∧
    evaluate mixture.owner (mixtureMeaning y) 4 14 = some (Real.exp 1) ∧
    (mixture.construct mixtureActions [] [(1, 3)]).Has 20 ∧
    ∀ (ρ : ℕ → ℝ) (fuel : ℕ), evaluate (mixture.construct mixtureActions [] [(1, 3)]).owner ρ fuel 14 = none := by
  refine ⟨?_, ?_, ?_, ?_, ?_⟩
  · refine Latent.meaning_table _ fun p hp => ?_
    simp only [nodes, List.mem_cons, List.not_mem_nil, or_false] at hp
    rcases hp with rfl | rfl | rfl | rfl | rfl | rfl
    · rfl
    · rfl
    · exact (choose_meaning y).symm
    · rfl
    · rfl
    · rfl
  · exact ⟨rfl, (choose_meaning y).symm, rfl, by rw [FGraph.act, FGraph.act, mixture, make_table, mixture_first]; rfl,
      (choose_meaning y).symm,
      by rw [FGraph.act, FGraph.act, FGraph.act, mixture, make_table, mixture_first, make_table]; rfl, rfl, rfl, trivial⟩
  · simp [evaluate, mixture, ofTable, nodes, table, one, mixtureMeaning, choose]
  · rw [mixture_construct, has_iff (f := 6) (by decide +kernel)]
    decide +kernel
  · intro ρ fuel
    rw [mixture_construct]
    rcases fuel with _ | _ | _ | fuel
    · rfl
    · rfl
    · rfl
    · simp [evaluate, ofTable, table]

/-- A sum of normal variables: `20` is the new normal variable put in for `12`, with a draw of its own
(convolutions.py:34-46), `21` the measurable `exp` of a copy. -/
noncomputable def sumActions : List (Action ℝ) :=
  [.make 20 ⟨.measurable, fun _ => 5, [], true⟩, .convert 12 20,
   .make 22 ⟨.measurable, fun _ => 5, [], true⟩, .make 21 ⟨.measurable, one Real.exp, [22], true⟩, .convert 13 21]

/-- The user's graph with the sum. -/
noncomputable def sum : FGraph ℝ := ofTable (nodes total 12 13) [15] []

theorem sum_first : (ofTable ((20, ⟨.measurable, fun _ => 5, [], true⟩) :: nodes total 12 13) [15] []).replace 12 20 =
    ofTable ((20, ⟨.measurable, fun _ => 5, [], true⟩) :: nodes total 20 13) [15] [(12, 20)] :=
  (replace_recorded [15, 14, 13, 12, 9, 10, 11, 1, 20] 6 (by decide +kernel)).trans rfl

/-- The nodes made for the sum. -/
noncomputable def sumMade : List (ℕ × Node ℝ) :=
  [(21, ⟨.measurable, one Real.exp, [22], true⟩), (22, ⟨.measurable, fun _ => 5, [], true⟩),
   (20, ⟨.measurable, fun _ => 5, [], true⟩)]

theorem sum_rewrites : sum.rewrites sumActions = ofTable (sumMade ++ nodes total 20 21) [15] [(12, 20), (13, 21)] := by
  simp only [FGraph.rewrites, sumActions, List.foldl_cons, List.foldl_nil, FGraph.act, make_table, sum]
  rw [sum_first, make_table, make_table]
  exact (replace_recorded [15, 14, 13, 20, 1, 21, 22] 6 (by decide +kernel)).trans rfl

theorem sum_construct : sum.construct sumActions [] [(1, 3)] =
    ofTable (sumMade ++ [(10, ⟨.measurable, fun _ => 1, [], true⟩), (11, ⟨.measurable, fun _ => 2, [], true⟩),
   (12, ⟨.plain, total, [9, 10, 11], true⟩), (13, ⟨.plain, one Real.exp, [20], true⟩),
   (14, ⟨.measurable, one id, [13], true⟩), (15, ⟨.valued, second, [14, 3], true⟩)]) [15] [(12, 20), (13, 21)] := by
  simp only [FGraph.construct, sum_rewrites, FGraph.transforms, FGraph.undo, FGraph.replaceAll, List.foldl_nil]
  show (((ofTable (sumMade ++ nodes total 20 21) [15] [(12, 20), (13, 21)]).replace 20 12).replace 21 13).replace 1 3 = _
  rw [replace_nothing 6 (by decide +kernel)]
  rw [replace_unrecorded [15, 14, 21, 22, 1, 13, 20] 6 (by decide +kernel)]
  exact (replace_unrecorded [15, 14, 13, 20, 1, 3] 6 (by decide +kernel)).trans rfl

/-- C114 is false: for the parameter `exp(A + B)` the user's graph evaluates to `exp` of the sum of the draws (1 and
2), the constructed one to `exp` of the draw of another variable (5).  With the conversion of `A + B` alone the sum
would have been restored. -/
theorem C114_nested_sum_wrong (ρ : ℕ → ℝ) :
    evaluate sum.owner ρ 5 14 = some (Real.exp (1 + 2)) ∧
    evaluate (sum.construct sumActions [] [(1, 3)]).owner ρ 5 14 = some (Real.exp 5) := by
  constructor
  · simp [evaluate, sum, ofTable, nodes, table, one, total]
  · rw [sum_construct]
    simp [evaluate, ofTable, table, one, sumMade]

end Nested
end Verif.Undo
