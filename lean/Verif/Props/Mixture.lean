import Verif.Model.Mixture
import Verif.Spec.Mixture
import Verif.Lemmas.FVal
import Verif.Model.Dists

/-! # C62, C64: mixtures with a scalar index -/

namespace Verif
open FVal

theorem mixtureStep_other {index : ℤ} {value acc : FVal} {c : (FVal → Except Err FVal) × ℕ} (h : index ≠ c.2) (hacc : acc + 0 = acc) :
    mixtureStep index value acc c = .ok acc := by
  simp only [mixtureStep, if_neg h, bind, Except.bind]
  rw [hacc]; rfl

theorem FVal.add_zero' (x : FVal) : x + 0 = x := by
  cases x with
  | fin r => show fin (r + 0) = fin r; rw [add_zero]
  | _ => rfl

theorem FVal.zero_add' (x : FVal) : 0 + x = x := by
  cases x with
  | fin r => show fin (0 + r) = fin r; rw [zero_add]
  | _ => rfl

theorem mixture_none {index : ℤ} {value : FVal} : ∀ (comps : List (FVal → Except Err FVal)) (k : ℕ) (acc : FVal),
    (∀ i < comps.length, index ≠ (k + i : ℕ)) → (comps.zipIdx k).foldlM (mixtureStep index value) acc = .ok acc
  | [], _, _, _ => rfl
  | c :: comps, k, acc, h => by
    rw [List.zipIdx_cons, List.foldlM_cons, mixtureStep_other (h 0 (by simp)) (FVal.add_zero' _)]
    show (comps.zipIdx (k + 1)).foldlM (mixtureStep index value) acc = .ok acc
    refine mixture_none comps (k + 1) acc fun i hi => ?_
    have := h (i + 1) (by simpa using hi)
    rwa [show k + 1 + i = k + (i + 1) by omega]

theorem mixture_some {value : FVal} : ∀ (comps : List (FVal → Except Err FVal)) (k i : ℕ) (hi : i < comps.length),
    (comps.zipIdx k).foldlM (mixtureStep ((k + i : ℕ) : ℤ) value) 0 = comps[i] value
  | c :: comps, k, 0, _ => by
    rw [List.zipIdx_cons, List.foldlM_cons]
    show (do let y ← mixtureStep ((k + 0 : ℕ) : ℤ) value 0 (c, k); (comps.zipIdx (k + 1)).foldlM _ y) = c value
    have : mixtureStep ((k + 0 : ℕ) : ℤ) value 0 (c, k) = c value := by
      simp only [mixtureStep, Nat.add_zero, if_true]
      cases c value with
      | error e => rfl
      | ok x => show Except.ok (0 + x) = _; rw [FVal.zero_add']
    rw [this]
    cases c value with
    | error e => rfl
    | ok x => exact mixture_none comps (k + 1) x fun i _ => by push_cast; omega
  | c :: comps, k, i + 1, hi => by
    rw [List.zipIdx_cons, List.foldlM_cons, mixtureStep_other (by push_cast; omega) (FVal.add_zero' _)]
    show (comps.zipIdx (k + 1)).foldlM _ 0 = _
    have := mixture_some (value := value) comps (k + 1) i (by simpa using hi)
    rw [show k + (i + 1) = k + 1 + i by omega, this]
    rfl

/-- **C62** For any number of components and every non-negative index in range, the derived log-probability is that of the indexed
component, exceptions included.  Missing: negative indices, which NumPy accepts (`C62_negative_index_wrong`). -/
theorem C62_scalar_mixture_partial (comps : List (FVal → Except Err FVal)) (index : ℤ) (h0 : 0 ≤ index) {c : FVal → Except Err FVal}
    (h : NpElem comps index c) (value : FVal) : stackMixtureLogprob comps index value = c value := by
  obtain ⟨-, h⟩ | ⟨h1, -⟩ := h
  · obtain ⟨i, rfl⟩ := Int.eq_ofNat_of_zero_le h0
    obtain ⟨hi, rfl⟩ := List.getElem?_eq_some_iff.mp h
    have := mixture_some (value := value) comps 0 i hi
    rw [Nat.zero_add] at this
    exact this
  · omega

/-- Three normal components, the middle one picked; the components may raise. -/
example (v : FVal) : stackMixtureLogprob [fun v => normalLogprob v (fin 0) (fin 1), fun v => normalLogprob v (fin 5) (fin (-1)),
    fun v => normalLogprob v (fin 1) (fin 2)] 1 v = normalLogprob v (fin 5) (fin (-1)) :=
  C62_scalar_mixture_partial _ 1 (by decide) (c := fun v => normalLogprob v (fin 5) (fin (-1))) (.inl ⟨by decide, rfl⟩) v

/-- **C62** (refuted part) At every negative index, and at every index past the end, the derived log-probability is zero, whatever the
components are; at `-n .. -1` NumPy's indexing picks a component. -/
theorem C62_outside_zero (comps : List (FVal → Except Err FVal)) (index : ℤ) (h : index < 0 ∨ comps.length ≤ index) (value : FVal) :
    stackMixtureLogprob comps index value = .ok 0 := by
  refine mixture_none comps 0 0 fun i hi => ?_
  omega

example (v : FVal) : stackMixtureLogprob [fun v => normalLogprob v (fin 0) (fin 1)] (-1) v = .ok 0 := C62_outside_zero _ _ (.inl (by decide)) v

/-- **C62** (refuted part) For every list of components whose last one does not have log-probability zero at the value, the index `-1` gives
a wrong log-probability. -/
theorem C62_negative_index_wrong (comps : List (FVal → Except Err FVal)) {c : FVal → Except Err FVal} (hc : comps.getLast? = some c)
    {value : FVal} (hv : c value ≠ .ok 0) : NpElem comps (-1) c ∧ stackMixtureLogprob comps (-1) value ≠ c value := by
  have hne : comps ≠ [] := by rintro rfl; cases hc
  have := List.length_pos_iff.mpr hne
  refine ⟨.inr ⟨by decide, by omega, ?_⟩, ?_⟩
  · rw [show (-1 + (comps.length : ℤ)).toNat = comps.length - 1 by omega, ← List.getLast?_eq_getElem?, hc]
  · rw [C62_outside_zero _ _ (.inl (by decide))]
    exact fun h => hv h.symm

example : ∃ comps : List (FVal → Except Err FVal), ∃ c v, NpElem comps (-1) c ∧ stackMixtureLogprob comps (-1) v ≠ c v :=
  ⟨[fun v => uniformLogprob v (fin 0) (fin 1), fun _ => .ok ninf], _, fin 0,
    C62_negative_index_wrong _ (c := fun _ => .ok ninf) rfl (by intro h; cases h)⟩

/-- **C64** For a condition that is 0 or 1, the derived log-probability of `at.switch(cond, x, y)` is that of the branch `switch` does
*not* take; for other true conditions it is zero.  Missing: the property itself, which is false (`C64_switch_wrong`). -/
theorem C64_switch_partial (cond : ℤ) (x y : FVal → Except Err FVal) (value : FVal) :
    ((cond = 0 ∨ cond = 1) → switchMixtureLogprob cond x y value = switchBranch cond y x value) ∧
    (cond ≠ 0 → cond ≠ 1 → switchMixtureLogprob cond x y value = .ok 0) := by
  refine ⟨fun h => ?_, fun h0 h1 => ?_⟩
  · obtain rfl | rfl := h
    · exact C62_scalar_mixture_partial [x, y] 0 (by decide) (c := x) (.inl ⟨by decide, rfl⟩) value
    · exact C62_scalar_mixture_partial [x, y] 1 (by decide) (c := y) (.inl ⟨by decide, rfl⟩) value
  · exact C62_outside_zero [x, y] cond (by simp; omega) value

example : switchMixtureLogprob 1 (fun v => normalLogprob v (fin (-10)) (fin 1)) (fun v => normalLogprob v (fin 10) (fin 1)) (fin 3) =
    normalLogprob (fin 3) (fin 10) (fin 1) :=
  (C64_switch_partial 1 (fun v => normalLogprob v (fin (-10)) (fin 1)) (fun v => normalLogprob v (fin 10) (fin 1)) (fin 3)).1 (.inr rfl)

/-- **C64** (refuted) The derived log-probability of `at.switch(cond, x, y)` is right for every condition 0 or 1 only if the two
components have the same log-probability at the value. -/
theorem C64_switch_wrong (x y : FVal → Except Err FVal) (value : FVal) :
    (∀ cond : ℤ, (cond = 0 ∨ cond = 1) → switchMixtureLogprob cond x y value = switchBranch cond x y value) ↔ x value = y value := by
  constructor
  · intro h
    have h1 := h 0 (.inl rfl)
    rw [(C64_switch_partial 0 x y value).1 (.inl rfl)] at h1
    exact h1
  · intro h cond hc
    rw [(C64_switch_partial cond x y value).1 hc]
    unfold switchBranch
    split_ifs <;> simp [h]

example : ¬ ∀ cond : ℤ, (cond = 0 ∨ cond = 1) →
    switchMixtureLogprob cond (fun _ => .ok 0) (fun _ => .ok ninf) (fin 1) = switchBranch cond (fun _ => .ok 0) (fun _ => .ok ninf) (fin 1) :=
  fun h => by
    have h := (C64_switch_wrong (fun _ => .ok 0) (fun _ => .ok ninf) (fin 1)).mp h
    cases h

end Verif
