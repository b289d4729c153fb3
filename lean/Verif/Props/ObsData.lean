import Verif.Spec.ObsData
import Verif.Props.Incsubtensor

/-! # C102: data of observed variables -/

namespace Verif.Obs
open Verif

theorem lastSource_isSome (R : Arr (List ℕ)) (p : List ℕ) : (lastSource R p).isSome = true ↔ ∃ c, InRange c R.shape ∧ R.get c = p := by
  rw [lastSource, List.find?_isSome]
  simp [mem_allCoords]

theorem extract_mapM (idx : List IndexVar) :
    ((∀ i ∈ idx, ∃ j, i = .known j) → idx.mapM IndexVar.extract = .ok (idx.map IndexVar.value)) ∧
    ((¬ ∀ i ∈ idx, ∃ j, i = .known j) → idx.mapM IndexVar.extract = .error .typeError) := by
  induction idx with
  | nil => exact ⟨fun _ => rfl, fun h => absurd (by simp) h⟩
  | cons i idx ih =>
    rcases i with j | j
    · refine ⟨fun h => ?_, fun h => ?_⟩
      · rw [List.mapM_cons, ih.1 fun i hi => h i (List.mem_cons_of_mem _ hi)]; rfl
      · rw [List.mapM_cons, ih.2 fun h' => h fun i hi => ?_]
        · rfl
        · rcases List.mem_cons.1 hi with rfl | hi
          · exact ⟨j, rfl⟩
          · exact h' i hi
    · refine ⟨fun h => ?_, fun h => ?_⟩
      · obtain ⟨k, hk⟩ := h (.symbolic j) (by simp); cases hk
      · rw [List.mapM_cons]; rfl

/-- The extracted array: the data are those the replacements started from, the mask is where something was assigned. -/
theorem extract_ok {x : Var} (hx : x.Extractable) (hv : x.IndicesValid x.base.shape) :
    ∃ m, extractObsData x = .ok m ∧ m.data = x.base ∧ ∀ p, m.mask p = true ↔ x.Touched x.base.shape p := by
  induction x with
  | const d => exact ⟨_, rfl, rfl, by simp [Var.Touched]⟩
  | shared d => exact ⟨_, rfl, rfl, by simp [Var.Touched]⟩
  | inc s x y idx ih =>
    obtain ⟨m, h1, h2, h3⟩ := ih hx.1 hv.1
    obtain ⟨R, hR⟩ := hv.2
    simp only [Var.base] at hR
    refine ⟨⟨m.data, fun p => m.mask p || (lastSource R p).isSome⟩, ?_, h2, fun p => ?_⟩
    · simp only [extractObsData, h1, (extract_mapM idx).1 hx.2, bind, Except.bind, addMask, h2, hR]; rfl
    · simp only [Bool.or_eq_true, h3, lastSource_isSome, Var.Touched, Var.base, hR, Except.ok.injEq, exists_eq_left']
  | other v => exact absurd hx (by simp [Var.Extractable])

/-- Evaluation keeps the shape, and the entries nothing was assigned to. -/
theorem eval_untouched {x : Var} (hx : x.Extractable) {a : Arr FVal} (ha : x.eval = .ok a) :
    a.shape = x.base.shape ∧ ∀ p, ¬ x.Touched x.base.shape p → a.get p = x.base.get p := by
  induction x generalizing a with
  | const d => cases ha; exact ⟨rfl, fun _ _ => rfl⟩
  | shared d => cases ha; exact ⟨rfl, fun _ _ => rfl⟩
  | inc s x y idx ih =>
    rcases hb : x.eval with e | b
    · cases s <;> simp only [Var.eval, hb, bind, Except.bind] at ha <;> cases ha
    obtain ⟨h1, h2⟩ := ih hx.1 hb
    rcases hR : npSelect (idx.map IndexVar.value) b.shape with e | R
    · cases s <;> simp only [Var.eval, hb, bind, Except.bind, setSubtensor, incSubtensor, hR] at ha <;> cases ha
    rw [Var.base]
    have hnot : ∀ p, ¬ (Var.inc s x y idx).Touched x.base.shape p → ¬ x.Touched x.base.shape p ∧ ∀ c, InRange c R.shape → R.get c ≠ p := fun p hp => by
      simp only [Var.Touched, not_or, ← h1, hR, Except.ok.injEq, exists_eq_left', not_exists, not_and] at hp
      exact ⟨h1 ▸ hp.1, hp.2⟩
    by_cases hd : bshape [y.shape, R.shape] = some R.shape
    · cases s
      · simp only [Var.eval, hb, bind, Except.bind, incSubtensor, hR, if_pos hd] at ha
        cases ha
        refine ⟨h1, fun p hp => ?_⟩
        obtain ⟨hp1, hp2⟩ := hnot p hp
        have : ((allCoords R.shape).filter fun c => R.get c = p) = [] := by
          rw [List.filter_eq_nil_iff]
          intro c hc
          simpa using hp2 c (mem_allCoords.1 hc)
        simp only [this, List.foldl_nil]
        exact h2 p hp1
      · simp only [Var.eval, hb, bind, Except.bind, setSubtensor, hR, if_pos hd] at ha
        cases ha
        refine ⟨h1, fun p hp => ?_⟩
        obtain ⟨hp1, hp2⟩ := hnot p hp
        simp only [lastSource_none hp2]
        exact h2 p hp1
    · cases s <;> simp only [Var.eval, hb, bind, Except.bind, setSubtensor, incSubtensor, hR, if_neg hd] at ha <;> cases ha
  | other v => exact absurd hx (by simp [Var.Extractable])

/-- **C102** For a variable made of a constant or shared array by any number of assignments `x[idx] = y` or `x[idx] += y` with integer arrays (indices that are constant or shared, and
valid), the extracted array is masked exactly at the entries assigned to, and everywhere else its data are the entries of the variable, whatever the variables `y` are evaluated at. -/
theorem C102_masked {x : Var} (hx : x.Extractable) (hv : x.IndicesValid x.base.shape) :
    ∃ m, extractObsData x = .ok m ∧ (∀ p, m.mask p = true ↔ x.Touched x.base.shape p) ∧
      ∀ a, x.eval = .ok a → a.shape = m.data.shape ∧ ∀ p, m.mask p = false → a.get p = m.data.get p := by
  obtain ⟨m, h1, h2, h3⟩ := extract_ok hx hv
  refine ⟨m, h1, h3, fun a ha => ?_⟩
  obtain ⟨h4, h5⟩ := eval_untouched hx ha
  rw [h2]
  exact ⟨h4, fun p hp => h5 p fun ht => by rw [← h3, hp] at ht; cases ht⟩

/-- **C102** (errors) Of any other variable, if its indices are valid, extraction raises `TypeError`. -/
theorem C102_raises {x : Var} (hx : ¬ x.Extractable) (hv : x.IndicesValid x.base.shape) : extractObsData x = .error .typeError := by
  induction x with
  | const d => exact absurd trivial hx
  | shared d => exact absurd trivial hx
  | inc s x y idx ih =>
    by_cases hx1 : x.Extractable
    · obtain ⟨m, h1, -, -⟩ := extract_ok hx1 hv.1
      simp only [extractObsData, h1, (extract_mapM idx).2 fun h => hx ⟨hx1, h⟩, bind, Except.bind]
    · simp only [extractObsData, ih hx1 hv.1, bind, Except.bind]
  | other v => rfl

theorem withBase_base (d : Arr FVal) (x : Var) : (x.withBase d).base = d := by
  induction x with
  | inc s x y idx ih => simpa [Var.withBase, Var.base] using ih
  | _ => rfl

theorem withBase_extractable (d : Arr FVal) {x : Var} (hx : x.Extractable) : (x.withBase d).Extractable := by
  induction x with
  | inc s x y idx ih => exact ⟨ih hx.1, hx.2⟩
  | _ => trivial

theorem withBase_shape {x : Var} {a a' d : Arr FVal} (hx : x.Extractable) (hd : d.shape = x.base.shape) (ha : x.eval = .ok a) (ha' : (x.withBase d).eval = .ok a') : a.shape = a'.shape := by
  rw [(eval_untouched hx ha).1, (eval_untouched (withBase_extractable d hx) ha').1, withBase_base, hd]

/-- **C102** (the masked entries) If all of them were assigned, not incremented, the entries of the variable that the mask covers do not depend on the data. -/
theorem C102_masked_are_missing {x : Var} (hx : x.Extractable) (hset : x.OnlySets) {d a a' : Arr FVal} (hd : d.shape = x.base.shape) (ha : x.eval = .ok a)
    (ha' : (x.withBase d).eval = .ok a') {p : List ℕ} (hp : x.Touched x.base.shape p) : a.get p = a'.get p := by
  induction x generalizing a a' with
  | const d => exact absurd hp (by simp [Var.Touched])
  | shared d => exact absurd hp (by simp [Var.Touched])
  | inc s x y idx ih =>
    obtain ⟨rfl, hset⟩ := hset
    simp only [Var.base] at hd hp
    rcases hb : x.eval with e | b
    · simp only [Var.eval, hb, bind, Except.bind] at ha; cases ha
    rcases hb' : (x.withBase d).eval with e | b'
    · simp only [Var.withBase, Var.eval, hb', bind, Except.bind] at ha'; cases ha'
    have hs := withBase_shape hx.1 hd hb hb'
    have hb1 := (eval_untouched hx.1 hb).1
    simp only [Var.eval, hb, bind, Except.bind, setSubtensor] at ha
    simp only [Var.withBase, Var.eval, hb', bind, Except.bind, setSubtensor, ← hs] at ha'
    rcases hR : npSelect (idx.map IndexVar.value) b.shape with e | R
    · simp only [hR] at ha; cases ha
    simp only [hR] at ha ha'
    by_cases hbd : bshape [y.shape, R.shape] = some R.shape
    · rw [if_pos hbd] at ha ha'
      cases ha
      cases ha'
      simp only
      rcases hl : lastSource R p with _ | c
      · simp only
        refine ih hx.1 hset hd hb hb' (hp.resolve_right ?_)
        rw [← hb1, hR]
        rintro ⟨R', hR', c, hc, hcp⟩
        cases hR'
        have := (lastSource_isSome R p).2 ⟨c, hc, hcp⟩
        rw [hl] at this
        cases this
      · rfl
    · rw [if_neg hbd] at ha; cases ha
  | other v => exact absurd hx (by simp [Var.Extractable])

/-! ## Examples -/

namespace Demo

/-- The index `[2, 0]`. -/
def idx : Arr ℤ := ⟨[2], fun c => if c = [0] then 2 else 0⟩

/-- `set_subtensor(data[[2, 0]], y)` for data of length four. -/
noncomputable def masked (y : FVal) : Var := .inc true (.const ⟨[4], fun c => .fin (c.getD 0 0)⟩) ⟨[2], fun _ => y⟩ [.known (.adv idx)]

theorem select : ∃ R, npSelect [.adv idx] [4] = .ok R ∧ R.shape = [2] := by
  obtain ⟨R, h1, h2, -⟩ := npSelect_adv (as := [idx]) (sh := [4]) (s := [2]) (by simp) (by simp [idx]) (.cons (fun c _ => by dsimp only [idx]; split <;> simp) .nil)
  exact ⟨R, h1, h2⟩

theorem extractable (y : FVal) : (masked y).Extractable := ⟨trivial, by simp⟩

theorem valid (y : FVal) : (masked y).IndicesValid (masked y).base.shape := ⟨trivial, _, select.choose_spec.1⟩

theorem evaluates (y : FVal) : ∃ a, (masked y).eval = .ok a := by
  obtain ⟨a, h, -⟩ := setSubtensor_ok (y := ⟨[4], fun c => .fin (c.getD 0 0)⟩) (data := ⟨[2], fun _ => y⟩) select.choose_spec.1 (by rw [select.choose_spec.2]; rfl)
  exact ⟨a, h⟩

example (y : FVal) := C102_masked (extractable y) (valid y)
example (y : FVal) := C102_masked_are_missing (x := masked y) (d := ⟨[4], fun c => .fin (c.getD 0 0)⟩) (extractable y) ⟨rfl, trivial⟩ rfl (evaluates y).choose_spec (evaluates y).choose_spec
  (p := select.choose.get [1]) (.inr ⟨_, select.choose_spec.1, [1], by rw [select.choose_spec.2]; exact .cons (by norm_num) .nil, rfl⟩)
example (a : Arr FVal) := C102_raises (x := .other a) (by simp [Var.Extractable]) trivial

end Demo
end Verif.Obs
