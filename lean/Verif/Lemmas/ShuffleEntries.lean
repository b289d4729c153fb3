import Verif.Lemmas.Gather
import Verif.Props.Dimshuffle

/-! The entries of arrays with shuffled dimensions. -/

namespace Verif.ArrGraph
open Verif Cond MeasureTheory Set

/-- The shape after a dimension shuffle. -/
def shuffleShape (order : List (Option ℕ)) (s : List ℕ) : List ℕ := order.map fun o => match o with | none => 1 | some i => s.getD i 0

/-- Where an entry goes. -/
def shufflePlace (order : List (Option ℕ)) (c : List ℕ) : List ℕ := order.map fun o => match o with | none => 0 | some i => c.getD i 0

theorem shufflePlace_getD {order : List (Option ℕ)} {p i : ℕ} (c : List ℕ) (h : order[p]? = some (some i)) : (shufflePlace order c).getD p 0 = c.getD i 0 := by
  rw [List.getD_eq_getElem?_getD, shufflePlace, List.getElem?_map, h]
  rfl

theorem shufflePlace_inRange {order : List (Option ℕ)} {s : List ℕ} (h : LegalOrder s order) {c : List ℕ} (hc : InRange c s) : InRange (shufflePlace order c) (shuffleShape order s) := by
  obtain ⟨h1, h2⟩ := inRange_iff.1 hc
  refine inRange_iff.2 ⟨by simp [shufflePlace, shuffleShape], fun p hp => ?_⟩
  have hp' : p < order.length := by simpa [shuffleShape] using hp
  rw [List.getD_eq_getElem?_getD, List.getD_eq_getElem?_getD, shufflePlace, shuffleShape, List.getElem?_map, List.getElem?_map, List.getElem?_eq_getElem hp']
  cases ho : order[p] with
  | none => simp
  | some i =>
    simp only [Option.map_some, Option.getD_some]
    exact h2 i (h.exist i (ho ▸ List.getElem_mem hp'))

theorem shufflePlace_unique {order : List (Option ℕ)} {s : List ℕ} {c d : List ℕ} (hd : InRange d (shuffleShape order s))
    (h : ∀ p i, order[p]? = some (some i) → d.getD p 0 = c.getD i 0) : d = shufflePlace order c := by
  obtain ⟨h1, h2⟩ := inRange_iff.1 hd
  have hl : d.length = order.length := by rw [h1, shuffleShape, List.length_map]
  apply List.ext_getElem
  · rw [hl, shufflePlace, List.length_map]
  · intro p h3 h4
    have hp : p < order.length := hl ▸ h3
    have hp2 := h2 p (by rw [shuffleShape, List.length_map]; exact hp)
    simp only [shufflePlace, List.getElem_map]
    rw [← List.getD_eq_getElem d 0 h3]
    cases ho : order[p] with
    | none =>
      rw [List.getD_eq_getElem?_getD (l := shuffleShape order s), shuffleShape, List.getElem?_map, List.getElem?_eq_getElem hp, ho] at hp2
      have hp3 : d.getD p 0 < 1 := hp2
      simp only
      omega
    | some i => exact h p i (by rw [List.getElem?_eq_getElem hp, ho])

theorem shufflePlace_injective {order : List (Option ℕ)} {s : List ℕ} (h : LegalOrder s order) {c d : List ℕ} (hc : InRange c s) (hd : InRange d s) (e : shufflePlace order c = shufflePlace order d) : c = d := by
  obtain ⟨h1, h2⟩ := inRange_iff.1 hc
  obtain ⟨h3, h4⟩ := inRange_iff.1 hd
  apply List.ext_getElem
  · rw [h1, h3]
  · intro i h5 h6
    rw [← List.getD_eq_getElem c 0 h5, ← List.getD_eq_getElem d 0 h6]
    by_cases hi : some i ∈ order
    · obtain ⟨p, hp⟩ := List.mem_iff_getElem?.1 hi
      rw [← shufflePlace_getD c hp, ← shufflePlace_getD d hp, e]
    · have hs := h.rest i (h1 ▸ h5) hi
      have h7 := h2 i (h1 ▸ h5)
      have h8 := h4 i (h1 ▸ h5)
      omega

theorem shufflePlace_surjective {order : List (Option ℕ)} {s : List ℕ} (h : LegalOrder s order) {d : List ℕ} (hd : InRange d (shuffleShape order s)) : ∃ c, InRange c s ∧ shufflePlace order c = d := by
  obtain ⟨h1, h2⟩ := inRange_iff.1 hd
  have hl : d.length = order.length := by rw [h1, shuffleShape, List.length_map]
  have hget : ∀ i < s.length, ((List.range s.length).map fun i => d.getD (order.idxOf (some i)) 0).getD i 0 = d.getD (order.idxOf (some i)) 0 := fun i hi => by
    rw [List.getD_eq_getElem?_getD, List.getElem?_map, List.getElem?_range hi]
    rfl
  refine ⟨(List.range s.length).map fun i => d.getD (order.idxOf (some i)) 0, inRange_iff.2 ⟨by simp, fun i hi => ?_⟩, ?_⟩
  · rw [hget i hi]
    by_cases hm : some i ∈ order
    · have hp := List.idxOf_lt_length_of_mem hm
      have := h2 (order.idxOf (some i)) (by rw [shuffleShape, List.length_map]; exact hp)
      rw [List.getD_eq_getElem?_getD (l := shuffleShape order s), shuffleShape, List.getElem?_map, idxOf_getElem? hm] at this
      exact this
    · rw [h.rest i hi hm, List.idxOf_eq_length hm, List.getD_eq_default _ _ hl.le]
      exact Nat.one_pos
  · refine (shufflePlace_unique hd fun p i hp => ?_).symm
    have hm : some i ∈ order := List.mem_of_getElem? hp
    rw [hget i (h.exist i hm), h.once _ _ i (idxOf_getElem? hm) hp]

/-- The entries before and after a dimension shuffle. -/
noncomputable def shuffleEquiv {order : List (Option ℕ)} {s : List ℕ} (h : LegalOrder s order) : Fin (entries s) ≃ Fin (entries (shuffleShape order s)) :=
  (ixEquiv s).symm.trans ((Equiv.ofBijective (fun c : Ix s => (⟨shufflePlace order c.1, shufflePlace_inRange h c.2⟩ : Ix (shuffleShape order s)))
    ⟨fun c d e => Subtype.ext (shufflePlace_injective h c.2 d.2 (congrArg Subtype.val e)), fun d => by
      obtain ⟨c, h1, h2⟩ := shufflePlace_surjective h d.2
      exact ⟨⟨c, h1⟩, Subtype.ext h2⟩⟩).trans (ixEquiv _))

theorem coord_shuffleEquiv {order : List (Option ℕ)} {s : List ℕ} (h : LegalOrder s order) (j : Fin (entries s)) : coord (shuffleEquiv h j) = shufflePlace order (coord j) :=
  congrArg Subtype.val ((ixEquiv (shuffleShape order s)).left_inv ⟨shufflePlace order (coord j), shufflePlace_inRange h (coord_inRange j)⟩)

/-- The same for a family of one array. -/
noncomputable def shuffleSigma {order : List (Option ℕ)} {s : List ℕ} (h : LegalOrder s order) : (Σ _ : Fin 1, Fin (entries s)) ≃ Fin (entries (shuffleShape order s)) :=
  (⟨fun t => t.2, fun j => ⟨0, j⟩, fun t => by obtain ⟨k, j⟩ := t; obtain rfl : k = 0 := Subsingleton.elim _ _; rfl, fun _ => rfl⟩ : (Σ _ : Fin 1, Fin (entries s)) ≃ Fin (entries s)).trans (shuffleEquiv h)

/-- Entry by entry. -/
theorem isDimshuffle_entry {α : Type} {order : List (Option ℕ)} {s : List ℕ} (h : LegalOrder s order) {x y : Arr α} (hx : x.shape = s) (hy : IsDimshuffle order x y) (j : Fin (entries s)) :
    y.get (coord (shuffleEquiv h j)) = x.get (coord j) := by
  refine hy.2 _ _ (by rw [hx]; exact coord_inRange j) (by rw [hy.1, hx]; exact coord_inRange _) fun p i hp => ?_
  rw [coord_shuffleEquiv, shufflePlace_getD _ hp]

theorem dimshuffleLogprob_pieces {order : List (Option ℕ)} {s : List ℕ} (h : LegalOrder s order) (lp : Arr FVal → Except Err (Arr FVal)) {v : Arr FVal} (hv : v.shape = shuffleShape order s) :
    ∃ x : Arr FVal, (x.shape = s ∧ ∀ j, x.get (coord j) = v.get (coord (shuffleEquiv h j))) ∧ ∀ o, lp x = .ok o ∧ o.shape = s →
      ∃ out, dimshuffleLogprob s.length order lp v = .ok out ∧ out.shape = shuffleShape order s ∧ ∀ j, out.get (coord (shuffleEquiv h j)) = o.get (coord j) := by
  set b : Arr FVal := ⟨s, fun c => v.get (shufflePlace order c)⟩ with hb
  have hbv : IsDimshuffle order b v := ⟨hv, fun c d hc hd hcd => by rw [hv] at hd; rw [shufflePlace_unique hd hcd]⟩
  obtain ⟨w₁, w₂, h1, h2, h3⟩ := undo_restores (v := b) h hbv
  refine ⟨w₂, ⟨h3.1, fun j => ?_⟩, fun o ho => ?_⟩
  · rw [h3.2 _ (by rw [h3.1]; exact coord_inRange j), coord_shuffleEquiv]
  · have hro : redoOrder o.ndim order = order := by
      refine List.filter_eq_self.mpr fun o' ho' => ?_
      cases o' with
      | none => rfl
      | some i =>
        simp only [decide_eq_true_eq, Arr.ndim, ho.2]
        exact h.exist i ho'
    obtain ⟨out, hout⟩ := Arr.dimshuffle_of_legal (a := o) (order := order) (by rw [ho.2]; exact h)
    have hds := dimshuffle_isDimshuffle hout
    refine ⟨out, ?_, by rw [hds.1, ho.2]; rfl, fun j => isDimshuffle_entry h ho.2 hds j⟩
    have h1' : v.dimshuffle (undoFirst s.length order) = .ok w₁ := h1
    have h2' : w₁.dimshuffle (undoSecond s.length order) = .ok w₂ := h2
    simp only [dimshuffleLogprob, h1', h2', bind, Except.bind, ho.1, hro]
    exact hout

end Verif.ArrGraph
