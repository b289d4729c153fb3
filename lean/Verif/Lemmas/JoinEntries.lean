import Verif.Lemmas.Gather
import Verif.Props.Stack
import Verif.Props.Dimshuffle
import Mathlib.Algebra.BigOperators.Fin

/-! The entries of joined arrays. -/

namespace Verif.ArrGraph
open Verif Cond MeasureTheory Set

/-- The shapes `ss` fit together along axis `a` into the shape `s`. -/
structure JoinShapes {n : ℕ} (a : ℕ) (ss : Fin n → List ℕ) (s : List ℕ) : Prop where
  axis : a < s.length
  shape : ∀ k, ss k = s.set a ((ss k).getD a 0)
  length : ∑ k, (ss k).getD a 0 = s.getD a 0

theorem isJoin_shapes {α : Type} {n a : ℕ} {ps : Fin n → Arr α} {w : Arr α} (h : IsJoin a (List.ofFn ps) w) : JoinShapes a (fun k => (ps k).shape) w.shape := by
  refine ⟨h.axis, fun k => ?_, ?_⟩
  · exact h.shape (ps k) (by rw [List.mem_ofFn]; exact ⟨k, rfl⟩)
  · have := h.length
    rw [List.map_ofFn, List.sum_ofFn] at this
    exact this

theorem joinOffset_ofFn {α : Type} {n a : ℕ} (ps : Fin n → Arr α) (k : Fin n) : joinOffset a (List.ofFn ps) k = ∑ i : Fin k.1, (ps (Fin.castLE k.2.le i)).shape.getD a 0 := by
  rw [joinOffset, List.map_take, List.map_ofFn]
  have : (List.ofFn ((fun p : Arr α => p.size a) ∘ ps)).take k = List.ofFn fun i : Fin k.1 => (ps (Fin.castLE k.2.le i)).shape.getD a 0 := by
    apply List.ext_getElem
    · simp [k.2.le]
    · intro i h1 h2
      simp only [List.getElem_take, List.getElem_ofFn, Function.comp]
      rfl
  rw [this, List.sum_ofFn]

theorem ss_length {n a : ℕ} {ss : Fin n → List ℕ} {s : List ℕ} (h : JoinShapes a ss s) (k : Fin n) : (ss k).length = s.length := by
  rw [h.shape k, List.length_set]

/-- Where an entry of a piece is in the whole. -/
def placeOf {n : ℕ} (a : ℕ) (ss : Fin n → List ℕ) (t : Σ k, Fin (entries (ss k))) : List ℕ :=
  (coord t.2).set a ((∑ i : Fin t.1.1, (ss (Fin.castLE t.1.2.le i)).getD a 0) + (coord t.2).getD a 0)

theorem coord_getD_lt {n a : ℕ} {ss : Fin n → List ℕ} {s : List ℕ} (h : JoinShapes a ss s) (t : Σ k, Fin (entries (ss k))) : (coord t.2).getD a 0 < (ss t.1).getD a 0 :=
  (coord_inRange t.2).getD_lt (by rw [ss_length h]; exact h.axis)

theorem place_fin {n a : ℕ} {ss : Fin n → List ℕ} {s : List ℕ} (h : JoinShapes a ss s) (t : Σ k, Fin (entries (ss k))) :
    (finSigmaFinEquiv (n := fun k => (ss k).getD a 0) ⟨t.1, (coord t.2).getD a 0, coord_getD_lt h t⟩ : ℕ) = (∑ i : Fin t.1.1, (ss (Fin.castLE t.1.2.le i)).getD a 0) + (coord t.2).getD a 0 :=
  finSigmaFinEquiv_apply _

theorem placeOf_inRange {n a : ℕ} {ss : Fin n → List ℕ} {s : List ℕ} (h : JoinShapes a ss s) (t : Σ k, Fin (entries (ss k))) : InRange (placeOf a ss t) s := by
  have hlt : (∑ i : Fin t.1.1, (ss (Fin.castLE t.1.2.le i)).getD a 0) + (coord t.2).getD a 0 < s.getD a 0 := by
    rw [← place_fin h t, ← h.length]
    exact Fin.is_lt _
  obtain ⟨h1, h2⟩ := inRange_iff.1 (coord_inRange t.2)
  rw [ss_length h] at h1 h2
  refine inRange_iff.2 ⟨by rw [placeOf, List.length_set, h1], fun i hi => ?_⟩
  by_cases hia : a = i
  · subst hia
    rw [placeOf, getD_set_self (by omega)]
    exact hlt
  · have := h2 i hi
    have e : (ss t.1).getD i 0 = s.getD i 0 := by
      have e := congrArg (fun c => c.getD i 0) (h.shape t.1)
      rw [e, List.getD_eq_getElem?_getD, List.getElem?_set_ne hia, ← List.getD_eq_getElem?_getD]
    rw [e] at this
    rw [placeOf, List.getD_eq_getElem?_getD, List.getElem?_set_ne hia, ← List.getD_eq_getElem?_getD]
    exact this

theorem placeOf_injective {n a : ℕ} {ss : Fin n → List ℕ} {s : List ℕ} (h : JoinShapes a ss s) : Function.Injective (placeOf a ss) := by
  intro t u e
  have hl : ∀ t : Σ k, Fin (entries (ss k)), (coord t.2).length = s.length := fun t => by rw [(coord_inRange t.2).length, ss_length h]
  have ea := congrArg (fun c => c.getD a 0) e
  simp only [placeOf] at ea
  rw [getD_set_self (by rw [hl]; exact h.axis), getD_set_self (by rw [hl]; exact h.axis), ← place_fin h t, ← place_fin h u] at ea
  have e1 := (finSigmaFinEquiv (n := fun k => (ss k).getD a 0)).injective (Fin.ext ea)
  have e2 : coord t.2 = coord u.2 := by
    apply List.ext_getElem
    · rw [hl, hl]
    · intro i h1 h2
      by_cases hia : a = i
      · subst hia
        have e3 : (coord t.2).getD a 0 = (coord u.2).getD a 0 := by
          rw [Sigma.mk.injEq] at e1
          obtain ⟨e4, e5⟩ := e1
          exact (Fin.heq_ext_iff (by rw [e4])).1 e5
        rwa [List.getD_eq_getElem _ _ h1, List.getD_eq_getElem _ _ h2] at e3
      · have := congrArg (fun c => c[i]?) e
        simp only [placeOf, List.getElem?_set_ne hia] at this
        rw [List.getElem?_eq_getElem h1, List.getElem?_eq_getElem h2] at this
        exact Option.some.inj this
  have e4 : t.1 = u.1 := (Sigma.mk.inj_iff.1 e1).1
  obtain ⟨k, j⟩ := t
  obtain ⟨k', j'⟩ := u
  obtain rfl : k = k' := e4
  congr 1
  exact (ixEquiv (ss k)).symm.injective (Subtype.ext e2)

theorem placeOf_surjective {n a : ℕ} {ss : Fin n → List ℕ} {s : List ℕ} (h : JoinShapes a ss s) {d : List ℕ} (hd : InRange d s) : ∃ t, placeOf a ss t = d := by
  have hda := hd.getD_lt h.axis
  have hdl := hd.length
  obtain ⟨⟨k, j⟩, hkj⟩ := (finSigmaFinEquiv (n := fun k => (ss k).getD a 0)).surjective ⟨d.getD a 0, by rw [h.length]; exact hda⟩
  have hin : InRange (d.set a j) (ss k) := by
    suffices hj : InRange (d.set a j) (s.set a ((ss k).getD a 0)) by
      rw [← h.shape k] at hj
      exact hj
    obtain ⟨h1, h2⟩ := inRange_iff.1 hd
    refine inRange_iff.2 ⟨by simp [h1], fun i hi => ?_⟩
    rw [List.length_set] at hi
    by_cases hia : a = i
    · subst hia
      rw [getD_set_self (by omega), getD_set_self (by omega)]
      exact j.2
    · rw [List.getD_eq_getElem?_getD, List.getElem?_set_ne hia, List.getD_eq_getElem?_getD, List.getElem?_set_ne hia, ← List.getD_eq_getElem?_getD, ← List.getD_eq_getElem?_getD]
      exact h2 i hi
  obtain ⟨i, hi⟩ := shape_coord hin
  refine ⟨⟨k, i⟩, ?_⟩
  have e : (∑ i : Fin k.1, (ss (Fin.castLE k.2.le i)).getD a 0) + j.1 = d.getD a 0 := by
    have := congrArg Fin.val hkj
    rw [finSigmaFinEquiv_apply] at this
    exact this
  simp only [placeOf, hi, List.set_set, getD_set_self (show a < d.length by rw [hdl]; exact h.axis)]
  rw [e]
  exact set_getD_self (by rw [hdl]; exact h.axis)

/-- The entries of the pieces are those of the whole. -/
noncomputable def joinEquiv {n a : ℕ} {ss : Fin n → List ℕ} {s : List ℕ} (h : JoinShapes a ss s) : (Σ k, Fin (entries (ss k))) ≃ Fin (entries s) :=
  (Equiv.ofBijective (fun t => (⟨placeOf a ss t, placeOf_inRange h t⟩ : Ix s)) ⟨fun _ _ e => placeOf_injective h (congrArg Subtype.val e), fun d => by
    obtain ⟨t, ht⟩ := placeOf_surjective h d.2
    exact ⟨t, Subtype.ext ht⟩⟩).trans (ixEquiv s)

theorem coord_joinEquiv {n a : ℕ} {ss : Fin n → List ℕ} {s : List ℕ} (h : JoinShapes a ss s) (t : Σ k, Fin (entries (ss k))) : coord (joinEquiv h t) = placeOf a ss t :=
  congrArg Subtype.val ((ixEquiv s).left_inv ⟨placeOf a ss t, placeOf_inRange h t⟩)

/-- What being joined means for the entries. -/
theorem isJoin_entry {α : Type} {n a : ℕ} {ps : Fin n → Arr α} {w : Arr α} {ss : Fin n → List ℕ} {s : List ℕ} (hs : JoinShapes a ss s) (h : IsJoin a (List.ofFn ps) w) (hps : ∀ k, (ps k).shape = ss k)
    (t : Σ k, Fin (entries (ss k))) : w.get (coord (joinEquiv hs t)) = (ps t.1).get (coord t.2) := by
  have := h.entry t.1 (by simp) (coord t.2) (by rw [List.getElem_ofFn, hps]; exact coord_inRange _)
  rw [joinOffset_ofFn, List.getElem_ofFn] at this
  rw [coord_joinEquiv, ← this]
  simp only [placeOf, hps]

/-- Putting entries together gives a joined array. -/
theorem gather_isJoin {n a : ℕ} {ss : Fin n → List ℕ} {s : List ℕ} (hs : JoinShapes a ss s) (x : ∀ k, Fin (entries (ss k)) → ℝ) :
    IsJoin a (List.ofFn fun k => reals (ss k) (x k)) (reals s (gather (joinEquiv hs) x)) := by
  refine ⟨hs.axis, ?_, fun p hp => ?_, fun k hk c hc => ?_⟩
  · rw [List.map_ofFn, List.sum_ofFn]
    exact hs.length
  · rw [List.mem_ofFn] at hp
    obtain ⟨k, rfl⟩ := hp
    exact hs.shape k
  · have hk' : k < n := by simpa using hk
    simp only [List.getElem_ofFn] at hc ⊢
    obtain ⟨j, rfl⟩ := shape_coord (s := ss ⟨k, hk'⟩) hc
    have e : ((coord j).set a (joinOffset a (List.ofFn fun k => reals (ss k) (x k)) k + (coord j).getD a 0)) = coord (joinEquiv hs ⟨⟨k, hk'⟩, j⟩) := by
      rw [coord_joinEquiv, joinOffset_ofFn _ (⟨k, hk'⟩ : Fin n)]
      rfl
    rw [e, reals_get, reals_get]
    exact congrFun (congrFun (scatter_gather (joinEquiv hs) x) ⟨k, hk'⟩) j

theorem isJoin_gather {n a : ℕ} {ss : Fin n → List ℕ} {s : List ℕ} (hs : JoinShapes a ss s) {x : ∀ k, Fin (entries (ss k)) → ℝ} {y : Fin (entries s) → ℝ}
    (h : IsJoin a (List.ofFn fun k => reals (ss k) (x k)) (reals s y)) : y = gather (joinEquiv hs) x := by
  funext i
  obtain ⟨⟨k, j⟩, rfl⟩ := (joinEquiv hs).surjective i
  have := isJoin_entry hs h (fun _ => rfl) ⟨k, j⟩
  rw [reals_get, reals_get] at this
  rw [this]
  exact (congrFun (congrFun (scatter_gather (joinEquiv hs) x) k) j).symm

/-- The log-probability of a join of variables of the given shapes. -/
theorem joinLogprob_pieces {n a : ℕ} {ss : Fin n → List ℕ} {s : List ℕ} (hs : JoinShapes a ss s) (hn : 0 < n) {axis : ℤ} (hax : normAxis axis s.length = .ok a) (lp : Fin n → Arr FVal → Except Err (Arr FVal))
    {v : Arr FVal} (hv : v.shape = s) : ∃ xs : Fin n → Arr FVal, (∀ k, (xs k).shape = ss k ∧ ∀ j, (xs k).get (coord j) = v.get (coord (joinEquiv hs ⟨k, j⟩))) ∧
      ∀ outs : Fin n → Arr FVal, (∀ k, lp k (xs k) = .ok (outs k) ∧ (outs k).shape = ss k) →
        ∃ out, joinLogprob axis (List.ofFn fun k => ((ss k).getD a 0, lp k)) v = .ok out ∧ out.shape = s ∧ ∀ k j, out.get (coord (joinEquiv hs ⟨k, j⟩)) = (outs k).get (coord j) := by
  have hsplit : v.split a ((List.ofFn fun k => ((ss k).getD a 0, lp k)).map Prod.fst) = .ok (Arr.splitFrom a v 0 (List.ofFn fun k => (ss k).getD a 0)) := by
    rw [List.map_ofFn, Arr.split, if_pos]
    · rfl
    · rw [List.sum_ofFn]
      show ∑ k, (ss k).getD a 0 = v.shape.getD a 0
      rw [hv]
      exact hs.length
  rw [splitFrom_map] at hsplit
  refine ⟨fun k => ⟨s.set a ((ss k).getD a 0), fun c => v.get (c.set a (((List.ofFn fun k => (ss k).getD a 0).take k).sum + c.getD a 0))⟩, fun k => ⟨(hs.shape k).symm, fun j => ?_⟩, fun outs ho => ?_⟩
  · show v.get _ = _
    rw [coord_joinEquiv, placeOf]
    congr 3
    have : (List.ofFn fun k => (ss k).getD a 0).take k = List.ofFn fun i : Fin k.1 => (ss (Fin.castLE k.2.le i)).getD a 0 := by
      apply List.ext_getElem
      · simp [k.2.le]
      · intro i h1 h2
        simp only [List.getElem_take, List.getElem_ofFn]
        rfl
    rw [this, List.sum_ofFn]
  · have hz : zipM (fun base_var split_value => base_var.2 split_value) (List.ofFn fun k => ((ss k).getD a 0, lp k))
        ((List.ofFn fun k => (ss k).getD a 0).mapIdx fun k n => ⟨v.shape.set a n, fun c => v.get (c.set a (0 + ((List.ofFn fun k => (ss k).getD a 0).take k).sum + c.getD a 0))⟩) =
        .ok (List.ofFn outs) := by
      refine zipM_ok (by simp) (by simp) fun k hk => ?_
      have hk' : k < n := by simpa using hk
      have := (ho ⟨k, hk'⟩).1
      simp only [List.getElem_ofFn, List.getElem_mapIdx, Nat.zero_add, hv]
      exact this
    have hshape : ∀ r ∈ List.ofFn outs, r.shape = s.set a (r.size a) := by
      intro r hr
      rw [List.mem_ofFn] at hr
      obtain ⟨k, rfl⟩ := hr
      rw [Arr.size, (ho k).2]
      exact hs.shape k
    have hne : List.ofFn outs ≠ [] := by
      intro h
      have := congrArg List.length h
      simp only [List.length_ofFn, List.length_nil] at this
      omega
    obtain ⟨out, o1, o2, o3⟩ := concatenate_isJoin hax hne hshape
    have hnd : ∀ r ∈ List.ofFn outs, r.ndim = s.length := fun r hr => by rw [Arr.ndim, hshape r hr, List.length_set]
    have hat : (List.ofFn outs).map Arr.atleast1d = List.ofFn outs := by
      conv_rhs => rw [← List.map_id (List.ofFn outs)]
      refine List.map_congr_left fun r hr => ?_
      rw [Arr.atleast1d, if_neg]
      · rfl
      · intro h
        have h1 := hnd r hr
        have h2 := hs.axis
        rw [Arr.ndim, h, List.length_nil] at h1
        omega
    have hos := isJoin_shapes o2
    have hshs : out.shape = s := by
      apply List.ext_getElem
      · exact o3
      · intro i h1 h2
        have hk := hos.shape ⟨0, hn⟩
        have hk' := hs.shape ⟨0, hn⟩
        rw [(ho ⟨0, hn⟩).2] at hk
        by_cases hia : a = i
        · subst hia
          have e1 := hos.length
          have e2 := hs.length
          simp only [fun k => (ho k).2] at e1
          rw [e2] at e1
          rw [List.getD_eq_getElem _ _ h1, List.getD_eq_getElem _ _ h2] at e1
          exact e1.symm
        · have := congrArg (fun c => c[i]?) (hk.symm.trans hk')
          simp only [List.getElem?_set_ne hia] at this
          rw [List.getElem?_eq_getElem h1, List.getElem?_eq_getElem h2] at this
          exact Option.some.inj this
    refine ⟨out, ?_, hshs, fun k j => ?_⟩
    · have hax' : normAxis axis v.ndim = .ok a := by rw [Arr.ndim, hv]; exact hax
      obtain ⟨r, rs, hrs⟩ := List.exists_cons_of_ne_nil hne
      rw [hrs] at hz hat hnd o1
      have hall : (rs.all fun l => decide (l.ndim = s.length)) = true := by
        rw [List.all_eq_true]
        intro b hb
        simp only [decide_eq_true_eq]
        exact hnd b (by simp [hb])
      have hr0 : axis - ((v.ndim : ℤ) - (s.length : ℕ)) = axis := by rw [Arr.ndim, hv]; omega
      simp only [joinLogprob, hax', hsplit, hz, hnd r (by simp), hall, if_true, hat, hr0]
      exact o1
    · exact isJoin_entry hs o2 (fun k => (ho k).2) ⟨k, j⟩

end Verif.ArrGraph
