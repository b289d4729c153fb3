import Mathlib.Data.List.GetD
import Verif.Model.Dimshuffle
import Verif.Spec.Dimshuffle

/-! # C68: dimension shuffles -/

namespace Verif

theorem nodup_filterMap_iff {order : Order} :
    (order.filterMap id).Nodup ↔ ∀ (p q i : ℕ), order[p]? = some (some i) → order[q]? = some (some i) → p = q := by
  induction order with
  | nil => simp
  | cons o l ih =>
    cases o with
    | none =>
      rw [show (none :: l).filterMap id = l.filterMap id from rfl, ih]
      constructor
      · intro h p q i hp hq
        cases p with
        | zero => simp at hp
        | succ p =>
          cases q with
          | zero => simp at hq
          | succ q => rw [h p q i (by simpa using hp) (by simpa using hq)]
      · intro h p q i hp hq
        have := h (p + 1) (q + 1) i (by simpa using hp) (by simpa using hq)
        omega
    | some j =>
      rw [show (some j :: l).filterMap id = j :: l.filterMap id from rfl, List.nodup_cons, ih]
      constructor
      · rintro ⟨h0, h⟩ p q i hp hq
        have hmem : ∀ r : ℕ, l[r]? = some (some j) → False := fun r hr =>
          h0 (List.mem_filterMap.mpr ⟨some j, List.mem_of_getElem? hr, rfl⟩)
        cases p with
        | zero =>
          cases q with
          | zero => rfl
          | succ q =>
            simp only [List.getElem?_cons_zero, Option.some.injEq] at hp
            subst hp
            exact (hmem q (by simpa using hq)).elim
        | succ p =>
          cases q with
          | zero =>
            simp only [List.getElem?_cons_zero, Option.some.injEq] at hq
            subst hq
            exact (hmem p (by simpa using hp)).elim
          | succ q => rw [h p q i (by simpa using hp) (by simpa using hq)]
      · intro h
        refine ⟨fun hmem => ?_, fun p q i hp hq => ?_⟩
        · obtain ⟨o, ho, ho'⟩ := List.mem_filterMap.mp hmem
          obtain rfl : o = some j := ho'
          obtain ⟨r, hr⟩ := List.mem_iff_getElem?.mp ho
          have := h 0 (r + 1) j rfl (by simpa using hr)
          omega
        · have := h (p + 1) (q + 1) i (by simpa using hp) (by simpa using hq)
          omega

theorem orderOk_iff {s : List ℕ} {order : Order} : orderOk s order = true ↔ LegalOrder s order := by
  simp only [orderOk, Bool.and_eq_true, List.all_eq_true, decide_eq_true_eq, Bool.or_eq_true, nodup_filterMap_iff, List.mem_range]
  constructor
  · rintro ⟨⟨h1, h2⟩, h3⟩
    exact ⟨fun i hi => by simpa using h1 _ hi, h2, fun i hi hn => (h3 i hi).resolve_left hn⟩
  · rintro ⟨h1, h2, h3⟩
    refine ⟨⟨fun o ho => ?_, h2⟩, fun i hi => or_iff_not_imp_left.mpr (h3 i hi)⟩
    cases o with
    | none => rfl
    | some i => simpa using h1 i ho

theorem Arr.dimshuffle_ok {α : Type*} {order : Order} {a b : Arr α} (h : a.dimshuffle order = .ok b) :
    LegalOrder a.shape order ∧ b.shape = (order.map fun o => match o with | none => 1 | some i => a.shape.getD i 0) ∧
    b.get = fun c => a.get ((List.range a.ndim).map fun i => c.getD (order.idxOf (some i)) 0) := by
  unfold Arr.dimshuffle at h
  split_ifs at h with h0
  cases h
  exact ⟨orderOk_iff.mp h0, rfl, rfl⟩

theorem Arr.dimshuffle_of_legal {α : Type*} {order : Order} {a : Arr α} (h : LegalOrder a.shape order) : ∃ b, a.dimshuffle order = .ok b := by
  rw [Arr.dimshuffle, if_pos (orderOk_iff.mpr h)]
  exact ⟨_, rfl⟩

theorem inRange_iff {c s : List ℕ} : InRange c s ↔ c.length = s.length ∧ ∀ i < s.length, c.getD i 0 < s.getD i 0 := by
  unfold InRange
  rw [List.forall₂_iff_get]
  constructor
  · rintro ⟨h1, h2⟩
    refine ⟨h1, fun i hi => ?_⟩
    have := h2 i (h1 ▸ hi) hi
    simpa [h1 ▸ hi, hi] using this
  · rintro ⟨h1, h2⟩
    refine ⟨h1, fun i hi1 hi2 => ?_⟩
    have := h2 i hi2
    simpa [hi1, hi2] using this

theorem idxOf_getElem? {order : Order} {i : ℕ} (h : some i ∈ order) : order[order.idxOf (some i)]? = some (some i) := by
  rw [List.getElem?_eq_getElem (List.idxOf_lt_length_of_mem h), List.getElem_idxOf]

/-- The model's `dimshuffle` is a dimension shuffle. -/
theorem dimshuffle_isDimshuffle {α : Type*} {order : Order} {a b : Arr α} (h : a.dimshuffle order = .ok b) : IsDimshuffle order a b := by
  obtain ⟨hl, hs, hg⟩ := Arr.dimshuffle_ok h
  refine ⟨hs, fun c d hc hd hcd => ?_⟩
  rw [hg]
  simp only
  congr 1
  obtain ⟨hcl, hcr⟩ := inRange_iff.mp hc
  obtain ⟨hdl, -⟩ := inRange_iff.mp hd
  apply List.ext_getElem
  · simp [Arr.ndim, hcl]
  · intro i h1 h2
    have hi : i < a.shape.length := hcl ▸ h2
    rw [List.getElem_map, List.getElem_range]
    have e : c.getD i 0 = c[i] := by simp [h2]
    by_cases hm : some i ∈ order
    · rw [hcd _ i (idxOf_getElem? hm), e]
    · rw [List.idxOf_eq_length hm]
      have h3 : d.length = order.length := by rw [hdl, hs, List.length_map]
      have h4 : d.getD order.length 0 = 0 := by simp [← h3]
      have := hcr i hi
      rw [hl.rest i hi hm] at this
      omega

/-- The pairs (position in the order, axis) built up in step by the two insertion loops. -/
def undoPairs (ndim : ℕ) (order : Order) : List (Option ℕ × ℕ) :=
  (droppedDims ndim order).foldl (fun l d => pyInsert d (none, d) l)
    (order.zipIdx.filterMap fun p => p.1.map fun i => (some p.2, i))

theorem pyInsert_map {α β : Type*} (f : α → β) (k : ℕ) (x : α) (l : List α) : pyInsert k (f x) (l.map f) = (pyInsert k x l).map f := by
  simp [pyInsert, List.map_take, List.map_drop]

theorem pyInsert_perm {α : Type*} (k : ℕ) (x : α) (l : List α) : (pyInsert k x l).Perm (x :: l) := by
  unfold pyInsert
  refine List.perm_middle.trans ?_
  rw [List.take_append_drop]

theorem undoFirst_eq (n : ℕ) (order : Order) : undoFirst n order = (undoPairs n order).map Prod.fst := by
  unfold undoFirst undoPairs
  have h0 : ∀ k, ((order.zipIdx k).filter fun p => p.1.isSome).map (fun p => some p.2) =
      ((order.zipIdx k).filterMap fun p => p.1.map fun i => (some p.2, i)).map Prod.fst := by
    induction order with
    | nil => intro k; rfl
    | cons o l ih =>
      intro k
      rw [List.zipIdx_cons]
      cases o with
      | none => exact ih (k + 1)
      | some i =>
        show some k :: _ = some k :: _
        rw [← ih (k + 1)]
  simp only [h0 0]
  generalize (order.zipIdx.filterMap fun p => p.1.map fun i => ((some p.2, i) : Option ℕ × ℕ)) = l
  generalize droppedDims n order = ds
  induction ds generalizing l with
  | nil => rfl
  | cons d ds ih => rw [List.foldl_cons, List.foldl_cons, ← ih, ← pyInsert_map]

theorem originalShuffle_eq (n : ℕ) (order : Order) : originalShuffle n order = (undoPairs n order).map Prod.snd := by
  unfold originalShuffle undoPairs
  have h0 : ∀ k, orderShuffle order = ((order.zipIdx k).filterMap fun p => p.1.map fun i => ((some p.2, i) : Option ℕ × ℕ)).map Prod.snd := by
    unfold orderShuffle
    clear n
    induction order with
    | nil => intro k; rfl
    | cons o l ih =>
      intro k
      rw [List.zipIdx_cons]
      cases o with
      | none => exact ih (k + 1)
      | some i =>
        show i :: l.filterMap id = i :: _
        rw [ih (k + 1)]
  simp only [h0 0]
  generalize (order.zipIdx.filterMap fun p => p.1.map fun i => ((some p.2, i) : Option ℕ × ℕ)) = l
  generalize droppedDims n order = ds
  induction ds generalizing l with
  | nil => rfl
  | cons d ds ih => rw [List.foldl_cons, List.foldl_cons, ← ih, ← pyInsert_map]

theorem undoPairs_perm (n : ℕ) (order : Order) : (undoPairs n order).Perm
    ((order.zipIdx.filterMap fun p => p.1.map fun i => (some p.2, i)) ++ (droppedDims n order).map fun d => (none, d)) := by
  unfold undoPairs
  generalize (order.zipIdx.filterMap fun p => p.1.map fun i => ((some p.2, i) : Option ℕ × ℕ)) = l
  generalize droppedDims n order = ds
  induction ds generalizing l with
  | nil => simp
  | cons d ds ih =>
    rw [List.foldl_cons]
    refine (ih _).trans ?_
    rw [List.map_cons]
    exact ((pyInsert_perm _ _ _).append_right _).trans List.perm_middle.symm

theorem mem_undoPairs {n : ℕ} {order : Order} {p : Option ℕ × ℕ} : p ∈ undoPairs n order ↔
    (∃ q, p.1 = some q ∧ order[q]? = some (some p.2)) ∨ (p.1 = none ∧ p.2 < n ∧ some p.2 ∉ order) := by
  rw [(undoPairs_perm n order).mem_iff, List.mem_append]
  refine or_congr ?_ ?_
  · simp only [List.mem_filterMap]
    constructor
    · rintro ⟨⟨o, q⟩, h1, h2⟩
      obtain ⟨i, rfl, rfl⟩ := Option.map_eq_some_iff.mp h2
      have := List.mem_zipIdx_iff_getElem?.mp h1
      exact ⟨q, rfl, by simpa using this⟩
    · rintro ⟨q, h1, h2⟩
      refine ⟨(some p.2, q), List.mem_zipIdx_iff_getElem?.mpr (by simpa using h2), ?_⟩
      show some (some q, p.2) = some p
      rw [← h1]
  · simp only [List.mem_map, droppedDims, orderShuffle, List.mem_filter, List.mem_range, decide_eq_true_eq]
    constructor
    · rintro ⟨d, ⟨h1, h2⟩, rfl⟩
      exact ⟨rfl, h1, fun h => of_decide_eq_true h2 (List.mem_filterMap.mpr ⟨_, h, rfl⟩)⟩
    · rintro ⟨h1, h2, h3⟩
      refine ⟨p.2, ⟨h2, decide_eq_true fun h => ?_⟩, by rw [← h1]⟩
      obtain ⟨o, ho, ho'⟩ := List.mem_filterMap.mp h
      obtain rfl : o = some p.2 := ho'
      exact h3 ho

theorem undoPairs_snd_nodup {n : ℕ} {order : Order} (h : ∀ (p q i : ℕ), order[p]? = some (some i) → order[q]? = some (some i) → p = q) :
    ((undoPairs n order).map Prod.snd).Nodup := by
  rw [((undoPairs_perm n order).map Prod.snd).nodup_iff, List.map_append, List.nodup_append]
  have h0 : ∀ k, ((order.zipIdx k).filterMap fun p => p.1.map fun i => ((some p.2, i) : Option ℕ × ℕ)).map Prod.snd = order.filterMap id := by
    clear h
    induction order with
    | nil => intro k; rfl
    | cons o l ih =>
      intro k
      rw [List.zipIdx_cons]
      cases o with
      | none => exact ih (k + 1)
      | some i =>
        show i :: _ = i :: _
        rw [ih (k + 1)]
  rw [h0 0, List.map_map]
  have h1 : (Prod.snd ∘ fun d : ℕ => ((none, d) : Option ℕ × ℕ)) = id := rfl
  rw [h1, List.map_id]
  refine ⟨nodup_filterMap_iff.mpr h, List.Nodup.filter _ List.nodup_range, fun a ha b hb => ?_⟩
  rintro rfl
  exact of_decide_eq_true (List.mem_filter.mp hb).2 ha

theorem mem_snd_undoPairs {n : ℕ} {order : Order} (hex : ∀ i, some i ∈ order → i < n) {i : ℕ} :
    i ∈ (undoPairs n order).map Prod.snd ↔ i < n := by
  rw [List.mem_map]
  constructor
  · rintro ⟨p, hp, rfl⟩
    obtain ⟨q, -, hq⟩ | ⟨-, h, -⟩ := mem_undoPairs.mp hp
    · exact hex _ (List.mem_of_getElem? hq)
    · exact h
  · intro hi
    by_cases hm : some i ∈ order
    · obtain ⟨q, hq⟩ := List.mem_iff_getElem?.mp hm
      exact ⟨(some q, i), mem_undoPairs.mpr (.inl ⟨q, rfl, hq⟩), rfl⟩
    · exact ⟨(none, i), mem_undoPairs.mpr (.inr ⟨rfl, hi, hm⟩), rfl⟩

theorem length_undoPairs {n : ℕ} {order : Order} (hex : ∀ i, some i ∈ order → i < n)
    (h : ∀ (p q i : ℕ), order[p]? = some (some i) → order[q]? = some (some i) → p = q) : (undoPairs n order).length = n := by
  have h1 : ((undoPairs n order).map Prod.snd).Perm (List.range n) :=
    (List.perm_ext_iff_of_nodup (undoPairs_snd_nodup h) List.nodup_range).mpr fun i => by rw [mem_snd_undoPairs hex, List.mem_range]
  simpa using h1.length_eq

/-- The two undoing shuffles give back the original array. -/
theorem undo_restores {α : Type} {order : Order} {v vs : Arr α} (hl : LegalOrder v.shape order) (hvs : IsDimshuffle order v vs) :
    ∃ w₁ w₂, vs.dimshuffle (undoFirst v.ndim order) = .ok w₁ ∧ w₁.dimshuffle (undoSecond v.ndim order) = .ok w₂ ∧ Arr.Same w₂ v := by
  set n := v.ndim with hn
  have hex : ∀ i, some i ∈ order → i < n := hl.exist
  set P := undoPairs n order with hP
  have hPlen : P.length = n := length_undoPairs hex hl.once
  have hsnd : (P.map Prod.snd).Nodup := undoPairs_snd_nodup hl.once
  have hvsl : vs.shape.length = order.length := by rw [hvs.1, List.length_map]
  have hvss : ∀ q, q < order.length → vs.shape.getD q 0 = match order[q]? with | some (some i) => v.shape.getD i 0 | _ => 1 := fun q hq => by
    rw [hvs.1, List.getD_eq_getElem?_getD, List.getElem?_map, List.getElem?_eq_getElem hq]
    cases order[q] <;> rfl
  -- entries of P
  have hget : ∀ (p : ℕ) (q : ℕ), (P.map Prod.fst)[p]? = some (some q) → ∃ i, (P.map Prod.snd)[p]? = some i ∧ order[q]? = some (some i) := fun p q h => by
    rw [List.getElem?_map] at h
    obtain ⟨x, hx, hx1⟩ := Option.map_eq_some_iff.mp h
    refine ⟨x.2, by rw [List.getElem?_map, hx]; rfl, ?_⟩
    obtain ⟨q', h1, h2⟩ | ⟨h1, -⟩ := mem_undoPairs.mp (List.mem_of_getElem? hx)
    · rw [hx1] at h1; cases h1; exact h2
    · rw [hx1] at h1; cases h1
  have hinv : ∀ q i, order[q]? = some (some i) → ∃ p, (P.map Prod.fst)[p]? = some (some q) ∧ (P.map Prod.snd)[p]? = some i := fun q i h => by
    have hm : (some q, i) ∈ P := mem_undoPairs.mpr (.inl ⟨q, rfl, h⟩)
    obtain ⟨p, hp⟩ := List.mem_iff_getElem?.mp hm
    exact ⟨p, by rw [List.getElem?_map, hp]; rfl, by rw [List.getElem?_map, hp]; rfl⟩
  have hinj : ∀ (p p' i : ℕ), (P.map Prod.snd)[p]? = some i → (P.map Prod.snd)[p']? = some i → p = p' := fun p p' i h h' => by
    obtain ⟨hp, e⟩ := List.getElem?_eq_some_iff.mp h
    obtain ⟨hp', e'⟩ := List.getElem?_eq_some_iff.mp h'
    exact (List.Nodup.getElem_inj_iff hsnd).mp (e.trans e'.symm)
  have hL1 : LegalOrder vs.shape (undoFirst n order) := by
    rw [undoFirst_eq, ← hP]
    refine ⟨fun q hq => ?_, fun p p' q h h' => ?_, fun q hq hnm => ?_⟩
    · obtain ⟨p, hp⟩ := List.mem_iff_getElem?.mp hq
      obtain ⟨i, -, hi⟩ := hget p q hp
      rw [hvsl]
      exact (List.getElem?_eq_some_iff.mp hi).1
    · obtain ⟨i, h1, h2⟩ := hget p q h
      obtain ⟨i', h1', h2'⟩ := hget p' q h'
      rw [h2] at h2'
      cases h2'
      exact hinj p p' i h1 h1'
    · rw [hvss q (hvsl ▸ hq)]
      split
      · rename_i i hi
        obtain ⟨p, hp, -⟩ := hinv q i hi
        exact (hnm (List.mem_of_getElem? hp)).elim
      · rfl
  obtain ⟨w₁, hw₁⟩ := Arr.dimshuffle_of_legal hL1
  obtain ⟨-, hs₁, hg₁⟩ := Arr.dimshuffle_ok hw₁
  have hs₁l : w₁.shape.length = n := by rw [hs₁, List.length_map, undoFirst_eq, List.length_map, ← hP, hPlen]
  have hL2get : ∀ i, (undoSecond n order)[i]? = if i < n then some (some ((P.map Prod.snd).idxOf i)) else none := fun i => by
    unfold undoSecond
    simp only [originalShuffle_eq, ← hP, List.length_map, hPlen, List.getElem?_map]
    by_cases hi : i < n
    · rw [List.getElem?_range hi, if_pos hi]; rfl
    · rw [List.getElem?_eq_none (by simpa using hi), if_neg hi]; rfl
  have hidx : ∀ i < n, (P.map Prod.snd)[(P.map Prod.snd).idxOf i]? = some i := fun i hi => by
    have hm := (mem_snd_undoPairs (n := n) hex).mpr hi
    rw [List.getElem?_eq_getElem (List.idxOf_lt_length_of_mem hm), List.getElem_idxOf]
  have hidxlt : ∀ i < n, (P.map Prod.snd).idxOf i < n := fun i hi => by
    have := List.idxOf_lt_length_of_mem ((mem_snd_undoPairs (n := n) hex).mpr hi)
    rwa [List.length_map, hPlen] at this
  have hL2 : LegalOrder w₁.shape (undoSecond n order) := by
    refine ⟨fun p hp => ?_, fun i i' p h h' => ?_, fun p hp hnm => ?_⟩
    · obtain ⟨i, hi⟩ := List.mem_iff_getElem?.mp hp
      rw [hL2get] at hi
      split_ifs at hi with h
      cases hi
      rw [hs₁l]; exact hidxlt i h
    · rw [hL2get] at h h'
      split_ifs at h h' with h1 h2
      cases h
      have e : (P.map Prod.snd).idxOf i' = (P.map Prod.snd).idxOf i := by simpa using h'
      have h3 := hidx i h1
      rw [← e, hidx i' h2] at h3
      exact (Option.some.inj h3).symm
    · exfalso
      rw [hs₁l] at hp
      have hp' : p < (P.map Prod.snd).length := by rw [List.length_map, hPlen]; exact hp
      have hlt : (P.map Prod.snd)[p] < n := (mem_snd_undoPairs (n := n) hex).mp (List.getElem_mem hp')
      refine hnm (List.mem_iff_getElem?.mpr ⟨(P.map Prod.snd)[p], ?_⟩)
      rw [hL2get, if_pos hlt]
      rw [hsnd.idxOf_getElem p hp']
  obtain ⟨w₂, hw₂⟩ := Arr.dimshuffle_of_legal hL2
  obtain ⟨-, hs₂, hg₂⟩ := Arr.dimshuffle_ok hw₂
  refine ⟨w₁, w₂, hw₁, hw₂, ?_⟩
  have hL1l : (undoFirst n order).length = n := by rw [undoFirst_eq, List.length_map, ← hP, hPlen]
  have hA : ∀ p i, (P.map Prod.snd)[p]? = some i → w₁.shape.getD p 0 = v.shape.getD i 0 := fun p i h => by
    rw [List.getElem?_map] at h
    obtain ⟨x, hx, rfl⟩ := Option.map_eq_some_iff.mp h
    rw [hs₁, undoFirst_eq, ← hP, List.getD_eq_getElem?_getD, List.getElem?_map, List.getElem?_map, hx]
    obtain ⟨q, h1, h2⟩ | ⟨h1, h2, h3⟩ := mem_undoPairs.mp (List.mem_of_getElem? hx)
    · simp only [Option.map_some, h1, Option.getD_some]
      rw [hvss q (List.getElem?_eq_some_iff.mp h2).1, h2]
    · simp only [Option.map_some, h1, Option.getD_some]
      rw [hl.rest _ h2 h3]
  have hs : w₂.shape = v.shape := by
    have hlen : w₂.shape.length = v.shape.length := by
      rw [hs₂, List.length_map, undoSecond, List.length_map, List.length_range, originalShuffle_eq, List.length_map, ← hP, hPlen]
      exact hn
    refine List.ext_getElem hlen fun i h1 h2 => ?_
    have hi : i < n := h2
    refine (List.getD_eq_getElem _ 0 h1).symm.trans (Eq.trans ?_ (List.getD_eq_getElem _ 0 h2))
    rw [hs₂, List.getD_eq_getElem?_getD, List.getElem?_map, hL2get, if_pos hi]
    exact hA _ i (hidx i hi)
  refine ⟨hs, fun c hc => ?_⟩
  rw [hs] at hc
  obtain ⟨hcl, hcr⟩ := inRange_iff.mp hc
  rw [hg₂]
  simp only
  rw [hg₁]
  set c1 := (List.range w₁.ndim).map fun p => c.getD ((undoSecond n order).idxOf (some p)) 0 with hc1
  simp only
  set c0 := (List.range vs.ndim).map fun q => c1.getD ((undoFirst n order).idxOf (some q)) 0 with hc0
  have hc1l : c1.length = n := by rw [hc1, List.length_map, List.length_range, Arr.ndim, hs₁l]
  have hc0get : ∀ q < order.length, c0.getD q 0 = c1.getD ((undoFirst n order).idxOf (some q)) 0 := fun q hq => by
    have : q < vs.ndim := by rw [Arr.ndim, hvsl]; exact hq
    simp [hc0, this]
  have hval : ∀ q i, order[q]? = some (some i) → c0.getD q 0 = c.getD i 0 := fun q i h => by
    rw [hc0get q (List.getElem?_eq_some_iff.mp h).1]
    obtain ⟨p', hp', -⟩ := hinv q i h
    have hm : some q ∈ undoFirst n order := by rw [undoFirst_eq, ← hP]; exact List.mem_of_getElem? hp'
    have hp := idxOf_getElem? hm
    set p := (undoFirst n order).idxOf (some q)
    rw [undoFirst_eq, ← hP] at hp
    obtain ⟨i', h1, h2⟩ := hget p q hp
    rw [h] at h2; cases h2
    have hpn : p < n := by
      have := (List.getElem?_eq_some_iff.mp h1).1
      rwa [List.length_map, hPlen] at this
    have hin : i < n := hex i (List.mem_of_getElem? h)
    have e : c1.getD p 0 = c.getD ((undoSecond n order).idxOf (some p)) 0 := by
      have : p < w₁.ndim := by rw [Arr.ndim, hs₁l]; exact hpn
      simp [hc1, this]
    rw [e]
    have hip : (undoSecond n order)[i]? = some (some p) := by
      rw [hL2get, if_pos hin, hinj _ p i (hidx i hin) h1]
    congr 1
    exact hL2.once _ _ p (idxOf_getElem? (List.mem_of_getElem? hip)) hip
  refine hvs.2 c c0 hc (inRange_iff.mpr ⟨by rw [hc0, List.length_map, List.length_range]; rfl, fun q hq => ?_⟩) hval
  rw [hvsl] at hq
  rw [hvss q hq]
  split
  · rename_i i hi
    rw [hval q i hi]
    exact hcr i (hex i (List.mem_of_getElem? hi))
  · rename_i hno
    have hnm : some q ∉ undoFirst n order := fun hm => by
      rw [undoFirst_eq, ← hP] at hm
      obtain ⟨p, hp⟩ := List.mem_iff_getElem?.mp hm
      obtain ⟨i, -, h⟩ := hget p q hp
      exact hno i h
    rw [hc0get q hq, List.idxOf_eq_length hnm, hL1l]
    simp [← hc1l]

/-- **C68** For every rank, every legal order and every base variable whose log-probability has the shape of the leading (batch) axes of its
value (all axes for univariate variables): the derived log-probability of the shuffled variable at the shuffled value is the
log-probability of the variable at the value, shuffled by the order without the support axes; in particular nothing raises unless the
base log-probability does. -/
theorem C68_dimshuffle {α β : Type} (order : List (Option ℕ)) {v vs : Arr α} (hl : LegalOrder v.shape order) (hvs : IsDimshuffle order v vs)
    {lp : Arr α → Except Err (Arr β)} (hsame : ∀ x y, Arr.Same x y → lp x = lp y) :
    (∀ e, lp v = .error e → dimshuffleLogprob v.ndim order lp vs = .error e) ∧
    ∀ r nb, lp v = .ok r → r.shape = v.shape.take nb → nb ≤ v.ndim →
      ∃ out, dimshuffleLogprob v.ndim order lp vs = .ok out ∧ IsDimshuffle (batchOrder nb order) r out := by
  obtain ⟨w₁, w₂, h1, h2, h3⟩ := undo_restores hl hvs
  have hred : dimshuffleLogprob v.ndim order lp vs = (lp v).bind fun r => r.dimshuffle (redoOrder r.ndim order) := by
    simp only [dimshuffleLogprob, h1, h2, bind, Except.bind, hsame _ _ h3]
  constructor
  · intro e he; rw [hred, he]; rfl
  · intro r nb hr hsh hnb
    have hnd : r.ndim = nb := by rw [Arr.ndim, hsh, List.length_take]; exact min_eq_left hnb
    have hro : redoOrder r.ndim order = batchOrder nb order := by
      rw [hnd, redoOrder, batchOrder]
      refine List.filter_congr fun o _ => ?_
      cases o <;> rfl
    have hmem : ∀ i, some i ∈ batchOrder nb order ↔ some i ∈ order ∧ i < nb := fun i => by simp [batchOrder]
    have hleg : LegalOrder r.shape (batchOrder nb order) := by
      refine ⟨fun i hi => ?_, ?_, fun i hi hni => ?_⟩
      · rw [show r.shape.length = nb from hnd]; exact ((hmem i).mp hi).2
      · rw [← nodup_filterMap_iff]
        have := nodup_filterMap_iff.mpr hl.once
        exact this.sublist (List.filter_sublist.filterMap _)
      · have hi' : i < nb := by rwa [show r.shape.length = nb from hnd] at hi
        have := hl.rest i (lt_of_lt_of_le hi' hnb) fun hm => hni ((hmem i).mpr ⟨hm, hi'⟩)
        rw [hsh, List.getD_eq_getElem?_getD, List.getElem?_take_of_lt hi', ← List.getD_eq_getElem?_getD, this]
    obtain ⟨out, hout⟩ := Arr.dimshuffle_of_legal hleg
    refine ⟨out, ?_, dimshuffle_isDimshuffle hout⟩
    rw [hred, hr]
    show r.dimshuffle (redoOrder r.ndim order) = _
    rw [hro, hout]

/-- **C68** For univariate base variables: the log-probability of the whole array, shuffled by the same order. -/
theorem C68_dimshuffle_elementwise {α β : Type} (order : List (Option ℕ)) {v vs : Arr α} (hl : LegalOrder v.shape order)
    (hvs : IsDimshuffle order v vs) (f : α → β) :
    ∃ out, dimshuffleLogprob v.ndim order (fun x => .ok (x.map f)) vs = .ok out ∧ IsDimshuffle order (v.map f) out := by
  obtain ⟨w₁, w₂, h1, h2, h3⟩ := undo_restores hl hvs
  have hnd : (w₂.map f).ndim = v.ndim := by rw [Arr.ndim, Arr.ndim, ← h3.1]; rfl
  have hb : redoOrder (w₂.map f).ndim order = order := by
    rw [hnd]
    refine List.filter_eq_self.mpr fun o ho => ?_
    cases o with
    | none => rfl
    | some i => exact decide_eq_true (hl.exist i ho)
  have hleg : LegalOrder (w₂.map f).shape order := by rw [show (w₂.map f).shape = w₂.shape from rfl, h3.1]; exact hl
  obtain ⟨out, hout⟩ := Arr.dimshuffle_of_legal hleg
  refine ⟨out, ?_, ?_⟩
  · simp only [dimshuffleLogprob, h1, h2, bind, Except.bind, hb, hout]
  · obtain ⟨hs, hg⟩ := dimshuffle_isDimshuffle hout
    have e : (w₂.map f).shape = (v.map f).shape := h3.1
    refine ⟨by rw [hs, e], fun c d hc hd hcd => ?_⟩
    rw [hg c d (e ▸ hc) hd hcd]
    exact congrArg f (h3.2 c (h3.1 ▸ hc))

/-- A legal order that drops, inserts and permutes: `(2, "x", 0)` on shape `(3, 1, 2)`. -/
theorem legal_example : LegalOrder [3, 1, 2] [some 2, none, some 0] := orderOk_iff.mp (by decide)

example (lp : Arr ℤ → Except Err (Arr ℤ)) (hsame : ∀ x y, Arr.Same x y → lp x = lp y) :
    let v : Arr ℤ := ⟨[3, 1, 2], fun c => 10 * c.getD 0 0 + c.getD 2 0⟩
    let vs : Arr ℤ := ⟨[2, 1, 3], fun c => 10 * c.getD 2 0 + c.getD 0 0⟩
    ∀ r nb, lp v = .ok r → r.shape = v.shape.take nb → nb ≤ v.ndim →
      ∃ out, dimshuffleLogprob 3 [some 2, none, some 0] lp vs = .ok out ∧ IsDimshuffle (batchOrder nb [some 2, none, some 0]) r out := by
  intro v vs
  have hvs : IsDimshuffle [some 2, none, some 0] v vs := by
    refine ⟨rfl, fun c d _ _ h => ?_⟩
    show 10 * ((d.getD 2 0 : ℕ) : ℤ) + ((d.getD 0 0 : ℕ) : ℤ) = 10 * ((c.getD 0 0 : ℕ) : ℤ) + ((c.getD 2 0 : ℕ) : ℤ)
    rw [h 0 2 rfl, h 2 0 rfl]
  exact (C68_dimshuffle (v := v) [some 2, none, some 0] legal_example hvs hsame).2

example : let v : Arr ℤ := ⟨[3, 1, 2], fun c => 10 * c.getD 0 0 + c.getD 2 0⟩
    let vs : Arr ℤ := ⟨[2, 1, 3], fun c => 10 * c.getD 2 0 + c.getD 0 0⟩
    ∃ out, dimshuffleLogprob 3 [some 2, none, some 0] (fun x => .ok (x.map fun z => z + 1)) vs = .ok out ∧
      IsDimshuffle [some 2, none, some 0] (v.map fun z => z + 1) out := by
  intro v vs
  have hvs : IsDimshuffle [some 2, none, some 0] v vs := by
    refine ⟨rfl, fun c d _ _ h => ?_⟩
    show 10 * ((d.getD 2 0 : ℕ) : ℤ) + ((d.getD 0 0 : ℕ) : ℤ) = 10 * ((c.getD 0 0 : ℕ) : ℤ) + ((c.getD 2 0 : ℕ) : ℤ)
    rw [h 0 2 rfl, h 2 0 rfl]
  exact C68_dimshuffle_elementwise (v := v) [some 2, none, some 0] legal_example hvs fun z => z + 1

end Verif
