import Verif.Spec.Utils
import Mathlib.Data.Fin.VecNotation

set_option linter.unusedSectionVars false

/-! # C74, C75: replacing random variables by values, changing sizes -/

namespace Verif.Utils
open Tm

section
variable {L R F α : Type} [DecidableEq R] (env : L → α) (draw : R → List α → α) (apply : F → List α → α)

theorem evalAt_congr {w w' : R → Option α} {t : Tm L R F} (h : ∀ k, Mentions k t → w k = w' k) :
    evalAt env draw apply w t = evalAt env draw apply w' t := by
  induction t with
  | leaf v => rfl
  | rv id n args ih =>
    simp only [evalAt]
    rw [h id (.inl rfl)]
    congr 3
    funext i
    exact ih i fun k hk => h k (.inr ⟨i, hk⟩)
  | op f n args ih =>
    simp only [evalAt]
    congr 2
    funext i
    exact ih i fun k hk => h k ⟨i, hk⟩

theorem evalAt_replace {w : R → Option α} {k : R} {t : Tm L R F} (hk : w k = some (evalAt env draw apply w t)) (hm : ¬ Mentions k t)
    (g : Tm L R F) :
    evalAt env draw apply (fun j => if j = k then none else w j) (Tm.replace k t g) = evalAt env draw apply w g := by
  have ht : evalAt env draw apply (fun j => if j = k then none else w j) t = evalAt env draw apply w t :=
    evalAt_congr env draw apply fun j hj => by
      have : j ≠ k := by rintro rfl; exact hm hj
      simp [this]
  induction g with
  | leaf v => rfl
  | rv id n args ih =>
    simp only [replace]
    split_ifs with h
    · subst h
      rw [ht]
      simp [evalAt, hk]
    · simp only [evalAt, h, if_false, ih]
  | op f n args ih => simp only [replace, evalAt, ih]

/-- **C74**: if the keys are different and no value mentions its own key or the key of an earlier entry (for instance because the values are
plain value variables), then each returned graph evaluates, in every environment and for every outcome of the remaining draws,
to the original graph with every listed random variable fixed at its value. -/
theorem C74_values_substituted_partial (graphs : List (Tm L R F)) (reps : List (R × Tm L R F))
    (hkeys : (reps.map (·.1)).Nodup) (hself : ∀ p ∈ reps, ¬ Mentions p.1 p.2)
    (hlater : reps.Pairwise fun p q => ¬ Mentions p.1 q.2)
    (w : R → Option α) (hw : ∀ p ∈ reps, w p.1 = some (evalAt env draw apply w p.2)) (hw' : ∀ k, k ∉ reps.map (·.1) → w k = none) :
    (rvsToValueVars graphs reps).map (evalAt env draw apply fun _ => none) = graphs.map (evalAt env draw apply w) := by
  have main : ∀ (reps : List (R × Tm L R F)), (reps.map (·.1)).Nodup → (∀ p ∈ reps, ¬ Mentions p.1 p.2) →
      reps.Pairwise (fun p q => ¬ Mentions p.1 q.2) → ∀ w : R → Option α,
      (∀ p ∈ reps, w p.1 = some (evalAt env draw apply w p.2)) → (∀ k, k ∉ reps.map (·.1) → w k = none) → ∀ g : Tm L R F,
      evalAt env draw apply (fun _ => none) (reps.foldl (fun g p => Tm.replace p.1 p.2 g) g) = evalAt env draw apply w g := by
    intro reps
    induction reps with
    | nil =>
      intro _ _ _ w _ hw' g
      have : w = fun _ => none := by funext k; exact hw' k (by simp)
      rw [this]; rfl
    | cons p reps ih =>
      intro hk hs hl w hw hw' g
      rw [List.map_cons, List.nodup_cons] at hk
      rw [List.pairwise_cons] at hl
      rw [List.foldl_cons, ih hk.2 (fun q hq => hs q (List.mem_cons_of_mem _ hq)) hl.2 (fun j => if j = p.1 then none else w j)]
      · exact evalAt_replace env draw apply (hw p (by simp)) (hs p (by simp)) g
      · intro q hq
        have hne : q.1 ≠ p.1 := fun h => hk.1 (h ▸ List.mem_map_of_mem hq)
        simp only [hne, if_false]
        rw [hw q (List.mem_cons_of_mem _ hq)]
        congr 1
        refine evalAt_congr env draw apply fun j hj => ?_
        have : j ≠ p.1 := by rintro rfl; exact hl.1 q hq hj
        simp [this]
      · intro k hk'
        show (if k = p.1 then none else w k) = none
        split_ifs with h
        · rfl
        · exact hw' k (by simp only [List.map_cons, List.mem_cons, not_or]; exact ⟨h, hk'⟩)
  unfold rvsToValueVars
  split_ifs with h
  · have : reps = [] := by simpa using h
    subst this
    have : w = fun _ => none := by funext k; exact hw' k (by simp)
    rw [this]
  · rw [List.map_map]
    exact List.map_congr_left fun g _ => main reps hkeys hself hlater w hw hw' g

end

/-- `y ~ N(x)` plus `x`, with `x` and `y` given the value variables `0` and `1`. -/
example := C74_values_substituted_partial (L := ℕ) (R := ℕ) (F := ℕ) (α := ℕ) (fun v => v + 10) (fun _ l => l.sum) (fun _ l => l.sum)
  [op 0 2 ![rv 1 1 ![rv 0 0 ![]], rv 0 0 ![]]] [(0, leaf 0), (1, leaf 1)] (by decide) (by simp [Mentions]) (by simp [Mentions])
  (fun k => if k = 0 then some 10 else if k = 1 then some 11 else none) (by simp [evalAt]) (by intro k hk; simp at hk; simp [hk])

/-- **C74** fails when a value is itself an expression of a random variable whose own entry comes earlier in the dictionary, although the code
walks such values "for potential replacements": with `x ↦ v` listed before `y ↦ f(x)`, the returned graph still contains the
random variable `x`, so its value changes with the draw of `x`. -/
theorem C74_earlier_key_left :
    let reps : List (ℕ × Tm ℕ ℕ ℕ) := [(0, leaf 0), (1, op 0 1 ![rv 0 0 ![]])]
    (∃ g ∈ rvsToValueVars [rv 1 0 ![]] reps, Mentions 0 g) ∧
    (rvsToValueVars [rv 1 0 ![]] reps).map (evalAt (fun _ => 5) (fun _ _ => 7) (fun _ l => l.sum) fun _ => none) = [7] ∧
    [rv 1 0 ![]].map (evalAt (L := ℕ) (F := ℕ) (fun _ => 5) (fun _ _ => 7) (fun _ l => l.sum) fun k : ℕ => if k ≤ 1 then some 5 else none) = [5] := by
  refine ⟨⟨op 0 1 ![rv 0 0 ![]], by simp [rvsToValueVars, replace], ?_⟩, ?_, ?_⟩
  · exact ⟨0, .inl rfl⟩
  · simp [rvsToValueVars, replace, evalAt]
  · simp [evalAt]

/-! ## C75 -/

section
variable {P : Type}

/-- **C75**: the resized variable keeps everything but the size (distribution, parameters, generator, data type, name), and its batch shape is
the requested one (a size with at least one entry: an empty size means "as the parameters"). -/
theorem C75_change_size (rv : RVNode P) (new_size : List ℕ) (h : new_size ≠ []) :
    (changeRvSize rv new_size false).batchShape = new_size ∧ (changeRvSize rv new_size false).rest = rv.rest ∧
    (changeRvSize rv new_size false).ndim_supp = rv.ndim_supp ∧ (changeRvSize rv new_size false).param_batch = rv.param_batch := by
  refine ⟨?_, rfl, rfl, rfl⟩
  cases new_size with
  | nil => exact absurd rfl h
  | cons a l => rfl

/-- **C75**, `expand=True`: the new batch shape is the requested one followed by the previous one, for every scalar distribution, and for
other distributions whose size was given or whose parameters are not batched. -/
theorem C75_expand_partial (rv : RVNode P) (new_size : List ℕ) (h : rv.ndim_supp = 0 ∨ rv.size ≠ [] ∨ rv.param_batch = []) :
    (changeRvSize rv new_size true).batchShape = new_size ++ rv.batchShape ∧ (changeRvSize rv new_size true).rest = rv.rest ∧
    (changeRvSize rv new_size true).ndim_supp = rv.ndim_supp ∧ (changeRvSize rv new_size true).param_batch = rv.param_batch := by
  refine ⟨?_, rfl, rfl, rfl⟩
  obtain ⟨d, s, b, r⟩ := rv
  cases s with
  | nil =>
    by_cases hd : d = 0
    · subst hd
      cases new_size <;> cases b <;> simp [changeRvSize, RVNode.batchShape]
    · have hb : b = [] := by simpa [hd] using h
      subst hb
      cases new_size <;> simp [changeRvSize, RVNode.batchShape, hd]
  | cons a l => cases new_size <;> simp [changeRvSize, RVNode.batchShape]

example := C75_change_size (P := Unit) ⟨0, [], [2], ()⟩ [3, 2] (by simp)
example := C75_expand_partial (P := Unit) ⟨0, [], [2], ()⟩ [3] (.inl rfl)

/-- **C75** fails for multivariate distributions with batched parameters and no size: the previous batch shape is dropped. -/
theorem C75_multivariate_batch_lost (r : P) :
    (changeRvSize ⟨1, [], [2], r⟩ [3] true).batchShape = [3] ∧ (RVNode.mk 1 [] [2] r).batchShape = [2] := ⟨rfl, rfl⟩

end
end Verif.Utils
