import Verif.Model.MixtureBasic
import Verif.Props.MixtureArray
import Verif.Props.Mixture
import Verif.Props.ElemwiseArray

/-! # C122: stacks indexed by integers and slices -/

namespace Verif
open FVal

/-- `:` -/
abbrev fullSlice : Index := .slice none none none

theorem items_nil : ∀ S : List ℕ, items [] S = .ok (S.map fun n => .sl (List.range n))
  | [] => by simp [items]
  | n :: S => by
    rw [items, items_nil S]
    rfl

theorem items_full_nil : ∀ (k : ℕ) (S : List ℕ), k ≤ S.length → items (List.replicate k fullSlice) S = items [] S
  | 0, _, _ => rfl
  | k + 1, [], h => by simp at h
  | k + 1, n :: S, h => by
    have ih := items_full_nil k S (by simpa using h)
    simp only [List.replicate_succ, fullSlice, items] at ih ⊢
    rw [if_neg (by simp), ih]
    simp [slicePositions_full, Function.comp_def]

/-- Full slices at the end can be left out. -/
theorem items_full : ∀ (zs : List ℤ) (k : ℕ) (S : List ℕ), zs.length + k ≤ S.length → items (zs.map intIndex ++ List.replicate k fullSlice) S = items (zs.map intIndex) S
  | [], k, S, h => by simpa using items_full_nil k S (by simpa using h)
  | z :: zs, k, [], h => by simp at h
  | z :: zs, k, n :: S, h => by
    simp only [List.map_cons, List.cons_append, intIndex, items]
    have := items_full zs k S (by simp only [List.length_cons] at h; omega)
    rw [this]

theorem items_too_many : ∀ (zs : List ℤ) (k : ℕ) (S : List ℕ), S.length < zs.length + k → ∃ e, items (zs.map intIndex ++ List.replicate k fullSlice) S = .error e
  | [], 0, S, h => by simp at h
  | [], k + 1, [], h => ⟨.indexError, by simp [List.replicate_succ, fullSlice, items]⟩
  | [], k + 1, n :: S, h => by
    obtain ⟨e, he⟩ := items_too_many [] k S (by simp at h ⊢; omega)
    refine ⟨e, ?_⟩
    simp only [List.map_nil, List.nil_append] at he ⊢
    rw [List.replicate_succ, fullSlice, items, if_neg (by simp), he]
    rfl
  | z :: zs, k, [], h => ⟨.indexError, by simp [intIndex, items]⟩
  | z :: zs, k, n :: S, h => by
    simp only [List.map_cons, List.cons_append, intIndex, items]
    split_ifs
    · obtain ⟨e, he⟩ := items_too_many zs k S (by simp only [List.length_cons] at h; omega)
      exact ⟨e, by rw [he]; rfl⟩
    · exact ⟨_, rfl⟩

theorem select_full {zs : List ℤ} {k : ℕ} {S : List ℕ} {R : Arr (List ℕ)} (h : npSelect (zs.map intIndex ++ List.replicate k fullSlice) S = .ok R) : npSelect (zs.map intIndex) S = .ok R := by
  by_cases hl : zs.length + k ≤ S.length
  · rw [npSelect, items_full zs k S hl] at h
    exact h
  · obtain ⟨e, he⟩ := items_too_many zs k S (by omega)
    rw [npSelect, he] at h
    cases h

theorem pick_full : ∀ (S c : List ℕ), InRange c S → pick [] (S.map fun n => .sl (List.range n)) c = c
  | [], _, h => by cases h; rfl
  | n :: S, _, h => by
    cases h with
    | @cons i _ c _ hi hc =>
      simp only [List.map_cons, pick, List.headD_cons, List.tail_cons, pick_full S c hc]
      simp [List.getD, List.getElem?_range hi]

/-- `x[i]` for an integer. -/
theorem select_int {N : ℕ} {S : List ℕ} {i : ℤ} (hi : -(N : ℤ) ≤ i ∧ i < N) :
    ∃ R, npSelect [intIndex i] (N :: S) = .ok R ∧ R.shape = S ∧ ∀ c, InRange c S → R.get c = wrap N i :: c := by
  have h1 : items [intIndex i] (N :: S) = .ok (.adv ⟨[], fun _ => wrap N i⟩ :: S.map fun n => .sl (List.range n)) := by
    rw [intIndex, items, if_pos (fun _ _ => hi), items_nil]
    rfl
  have hf : (S.map fun n => Item.sl (List.range n)).filterMap Item.advShape = [] := by
    rw [List.filterMap_map, List.filterMap_eq_nil_iff]
    intro n _
    rfl
  have hb : ((S.map fun n => Item.sl (List.range n)).filter Item.basic).map Item.len = S := by
    rw [List.filter_eq_self.2 (by simp [Item.basic]), List.map_map]
    conv_rhs => rw [← List.map_id S]
    refine List.map_congr_left fun n _ => ?_
    simp [Item.len]
  have hk : blockAt (.adv ⟨[], fun _ => wrap N i⟩ :: S.map fun n => .sl (List.range n)) = 0 := by
    simp [blockAt, Item.basic]
  have hs : bshape [([] : List ℕ)] = some [] := rfl
  refine ⟨_, by rw [npSelect, h1]; simp only [bind, Except.bind, List.filterMap_cons, Item.advShape, hf, hs]; rfl, ?_, fun c hc => ?_⟩
  · simp [hk, hb, Item.basic, List.filter_cons]
  · simp only [hk, List.drop_zero, List.take_zero, List.length_nil, List.nil_append, Nat.add_zero]
    rw [pick, pick_full S c hc]

/-- The indices of a node with integers and full slices at the end. -/
theorem nodeIndices_ints (zs : List ℤ) (k : ℕ) : nodeIndices (zs.map intIndex ++ List.replicate k fullSlice) = zs.map intIndex := by
  have h1 : (zs.map intIndex ++ List.replicate k fullSlice).all Index.isScalar = true := by
    rw [List.all_eq_true]
    intro i hi
    rcases List.mem_append.1 hi with hi | hi
    · obtain ⟨z, -, rfl⟩ := List.mem_map.1 hi; rfl
    · rw [List.eq_of_mem_replicate hi]; rfl
  rw [nodeIndices, if_pos h1, List.flatMap_append]
  have h2 : (List.replicate k fullSlice).flatMap Index.scalars = [] := by
    rw [List.flatMap_eq_nil_iff]
    intro i hi
    rw [List.eq_of_mem_replicate hi]; rfl
  have h3 : (zs.map intIndex).flatMap Index.scalars = zs.map intIndex := by
    induction zs with
    | nil => rfl
    | cons z zs ih => rw [List.map_cons, List.flatMap_cons, ih (by simp [Index.isScalar, intIndex, fullSlice])]; rfl
  rw [h2, h3, List.append_nil]

theorem badd_same {s : List ℕ} {a b : Arr FVal} (ha : a.shape = s ∨ a.shape = []) (hb : b.shape = s) :
    ∃ o, a.badd b = .ok o ∧ o.shape = s ∧ ∀ c, InRange c s → o.get c = a.get (project c a.shape) + b.get c := by
  rcases ha with ha | ha
  · refine ⟨_, by rw [Arr.badd, ha, hb, bshape_self], rfl, fun c hc => ?_⟩
    simp only [ha, project_self hc]
  · refine ⟨_, by rw [Arr.badd, ha, hb, bshape_nil_left], rfl, fun c hc => ?_⟩
    simp only [ha, project_self hc]

/-- The loop over the components for a scalar index; `t` are the terms. -/
theorem scalar_fold {s : List ℕ} {value : Arr FVal} {index : ℤ} (hv : value.shape = s) : ∀ (comps : List StackComp) (k : ℕ) (acc : Arr FVal),
    (∀ c ∈ comps, c.dims ≤ s.length) → (acc.shape = s ∨ acc.shape = []) →
    (∀ m (h : m < comps.length), index = (k + m : ℕ) → ∃ o, comps[m].whole value = .ok o ∧ o.shape = s) →
    ∃ out, (comps.zipIdx k).foldlM (scalarTurn index value) acc = .ok out ∧ (comps ≠ [] → out.shape = s) ∧ (comps = [] → out = acc) ∧
      ((∀ m < comps.length, index ≠ (k + m : ℕ)) → ∀ c, InRange c s → out.get (project c out.shape) = acc.get (project c acc.shape)) ∧
      ∀ m (h : m < comps.length), index = (k + m : ℕ) → ∀ o, comps[m].whole value = .ok o → ∀ c, InRange c s → out.get (project c out.shape) = acc.get (project c acc.shape) + o.get c
  | [], k, acc, _, _, _ => ⟨acc, rfl, fun h => absurd rfl h, fun _ => rfl, fun _ _ _ => rfl, fun m h => by simp at h⟩
  | c :: comps, k, acc, hd, ha, hw => by
    rw [List.zipIdx_cons, List.foldlM_cons]
    obtain ⟨t, ht, hts, htg⟩ : ∃ t, scalarTerm index value (c, k) = .ok t ∧ t.shape = s ∧
        (index ≠ (k : ℕ) → ∀ c, InRange c s → t.get c = 0) := by
      by_cases hi : index = (k : ℕ)
      · obtain ⟨o, h1, h2⟩ := hw 0 (by simp) hi
        exact ⟨o, by rw [scalarTerm, if_pos hi]; exact h1, h2, fun h => absurd hi h⟩
      · exact ⟨⟨value.shape, fun _ => 0⟩, by rw [scalarTerm, if_neg hi], hv, fun _ _ _ => rfl⟩
    obtain ⟨acc', h1, h2, h3⟩ := badd_same ha hts
    have hturn : scalarTurn index value acc (c, k) = .ok acc' := by
      rw [scalarTurn, if_neg (by rw [hv]; exact not_lt.2 (hd c (by simp))), ht]
      exact h1
    obtain ⟨out, h4, h5, h6, h7, h8⟩ := scalar_fold (index := index) hv comps (k + 1) acc' (fun c hc => hd c (by simp [hc])) (.inl h2)
      fun m h he => hw (m + 1) (by simpa using h) (by rw [he]; congr 1; omega)
    have hos : out.shape = s := by
      rcases comps with _ | ⟨c', cs⟩
      · rw [h6 rfl, h2]
      · exact h5 (by simp)
    refine ⟨out, by rw [hturn]; exact h4, fun _ => hos, fun h => by simp at h, fun hne x hx => ?_, fun m h he o ho x hx => ?_⟩
    · rw [h7 (fun m hm => by have := hne (m + 1) (by simpa using hm); rwa [show k + 1 + m = k + (m + 1) by omega]) x hx, h2, project_self hx, h3 x hx,
        htg (by simpa using hne 0 (by simp)) x hx, FVal.add_zero']
    · cases m with
      | zero =>
        have hi : index = (k : ℕ) := by simpa using he
        rw [h7 (fun m _ => by rw [hi]; intro h; have := Int.ofNat.inj h; omega) x hx, h2, project_self hx, h3 x hx]
        have : t = o := by
          rw [scalarTerm, if_pos hi] at ht
          rw [List.getElem_cons_zero] at ho
          rw [show (c, k).1 = c from rfl, ho] at ht
          cases ht; rfl
        rw [this]
      | succ m =>
        have he' : index = (k + 1 + m : ℕ) := by rw [he]; congr 1; omega
        rw [h8 m (by simpa using h) he' o (by simpa using ho) x hx, h2, project_self hx, h3 x hx, htg (by rw [he']; intro h; have := Int.ofNat.inj h; omega) x hx, FVal.add_zero']

/-- A scalar index selects the log-probability of its component; without such a component the result is zero. -/
theorem scalarIndex_spec {comps : List StackComp} (hne : comps ≠ []) {value : Arr FVal} {index : ℤ} (hd : ∀ c ∈ comps, c.dims ≤ value.shape.length)
    (hw : ∀ m (h : m < comps.length), index = m → ∃ o, comps[m].whole value = .ok o ∧ o.shape = value.shape) :
    ∃ out, scalarIndexLogprob comps index value = .ok out ∧ out.shape = value.shape ∧
      ((∀ m < comps.length, index ≠ m) → ∀ c, InRange c value.shape → out.get c = 0) ∧
      ∀ m (h : m < comps.length), index = m → ∀ o, comps[m].whole value = .ok o → ∀ c, InRange c value.shape → out.get c = o.get c := by
  obtain ⟨out, h1, h2, -, h4, h5⟩ := scalar_fold (s := value.shape) (index := index) rfl comps 0 ⟨[], fun _ => 0⟩ hd (.inr rfl)
    fun m h he => hw m h (by simpa using he)
  have hs := h2 hne
  refine ⟨out, h1, hs, fun h c hc => ?_, fun m h he o ho c hc => ?_⟩
  · have := h4 (by simpa using h) c hc
    rwa [hs, project_self hc] at this
  · have := h5 m h (by simpa using he) o ho c hc
    rw [hs, project_self hc, FVal.zero_add'] at this
    exact this

/-- **C122** Any number of components of any shape `S`, stacked along a new first axis and indexed by integers, the first of which is not negative, and full slices after them, `stack[i]`, `stack[i, :]`,
`stack[i, j, :]`: at every place the derived log-probability is that of the selected component's selected element at the value of the place (`f k` is the elementwise log-probability of component `k`).
Missing: indices on all axes (`C122_element_raises`), slices before an integer (`C122_column_wrong`) and slices with bounds (`C122_slice_wrong`, `C122_bounds_raises`). -/
theorem C122_leading_partial {comps : List StackComp} {S : List ℕ} {f : ℕ → List ℕ → FVal → FVal} (hne : comps ≠ []) (hshape : ∀ c ∈ comps, c.shape = 1 :: S)
    (hlp : ∀ m (h : m < comps.length) ps vs, ps.length = vs.length → (∀ p ∈ ps, InRange p (1 :: S)) → comps[m].lp ps vs = .ok (List.zipWith (f m) ps vs))
    (hdims : ∀ c ∈ comps, c.dims ≤ S.length)
    (hwhole : ∀ m (h : m < comps.length) v, v.shape = S → ∃ o, comps[m].whole v = .ok o ∧ o.shape = S ∧ ∀ c, InRange c S → o.get c = f m (0 :: c) (v.get c))
    {i : ℤ} (hi : 0 ≤ i) {js : List ℤ} {k : ℕ} {R : Arr (List ℕ)} (hR : npSelect ((i :: js).map intIndex ++ List.replicate k fullSlice) (comps.length :: S) = .ok R)
    (hR0 : R.shape ≠ [] ∨ js = []) (empty : List ℕ → FVal) (value : Arr FVal) (hv : value.shape = R.shape) :
    ∃ out, indexedMixtureLogprob (some 0) ((i :: js).map intIndex ++ List.replicate k fullSlice) comps empty value = .ok out ∧ out.shape = R.shape ∧
      ∀ c, InRange c R.shape → ∃ k rs, R.get c = k :: rs ∧ k < comps.length ∧ out.get c = f k (0 :: rs) (value.get c) := by
  have hR' := select_full hR
  have hlt : -(comps.length : ℤ) ≤ i ∧ i < comps.length := by
    rw [npSelect] at hR'
    obtain ⟨its, h1, -⟩ := bind_ok hR'
    rw [List.map_cons, intIndex, items] at h1
    split_ifs at h1 with h
    exact h [] .nil
  rw [indexedMixtureLogprob, nodeIndices_ints]
  rcases js with _ | ⟨j, js⟩
  · obtain ⟨R', h1, h2, h3⟩ := select_int (S := S) hlt
    have : R' = R := by
      rw [List.map_cons, List.map_nil, h1] at hR'
      cases hR'; rfl
    subst this
    rw [h2] at hv
    have hm : i.toNat < comps.length := by omega
    obtain ⟨o, h4, h5, h6⟩ := hwhole i.toNat hm value hv
    obtain ⟨out, h7, h8, -, h9⟩ := scalarIndex_spec hne (value := value) (index := i) (by rw [hv]; exact hdims) fun m h he => by
      obtain ⟨o, h4, h5, -⟩ := hwhole m h value hv
      exact ⟨o, h4, by rw [h5, hv]⟩
    refine ⟨out, h7, by rw [h8, hv, h2], fun c hc => ?_⟩
    rw [h2] at hc
    refine ⟨wrap comps.length i, c, h3 c hc, ?_, ?_⟩
    · rw [wrap, if_neg (by omega)]; exact hm
    · rw [h9 i.toNat hm (by omega) o h4 c (by rw [hv]; exact hc), h6 c hc, wrap, if_neg (by omega)]
  · have hR0' : R.shape ≠ [] := hR0.resolve_right (by simp)
    obtain ⟨out, h1, h2, h3⟩ := mixture_spec (join_axis := some 0) (comps := comps.map StackComp.toMixComp) (S := S) (f := f) (.inl rfl) (by simpa using hne)
      (fun c hc => by obtain ⟨c', hc', rfl⟩ := List.mem_map.1 hc; exact ⟨1, hshape c' hc'⟩)
      (fun m h ps vs hl hp => by rw [List.getElem_map]; exact hlp m (by simpa using h) ps vs hl hp)
      (r := 0) (I := ⟨[], fun _ => i⟩) (rest := (j :: js).map intIndex)
      (fun i hi => by obtain ⟨z, -, rfl⟩ := List.mem_map.1 hi; trivial) (N := comps.length) (R := R) hR' hR0' empty value
    refine ⟨out, h1, h2, fun c hc => ?_⟩
    obtain ⟨c', rs, -, hr, h4, h5⟩ := h3 c hc
    rw [if_pos ⟨hi, by simpa using hlt.2⟩] at h5
    refine ⟨_, rs, h4, ?_, ?_⟩
    · simp only [wrap]; rw [if_neg (by omega)]; omega
    · rw [h5]; simp only [wrap]; rw [if_neg (by omega)]

/-- **C122** (refuted part) An element of a stack of arrays, `stack[i, j]`: all places are given by integers in range, so that there is no array of log-probabilities to be filled, and the derivation raises. -/
theorem C122_element_raises {comps : List StackComp} {S : List ℕ} (hne : comps ≠ []) (hshape : ∀ c ∈ comps, c.shape = 1 :: S) (hS : S ≠ []) {zs : List ℤ}
    (hz : List.Forall₂ (fun (z : ℤ) (n : ℕ) => -(n : ℤ) ≤ z ∧ z < n) zs (comps.length :: S)) (empty : List ℕ → FVal) (value : Arr FVal) :
    (∃ R, npSelect (zs.map intIndex) (comps.length :: S) = .ok R ∧ R.shape = [] ∧ R.get [] = List.zipWith (fun z n => wrap n z) zs (comps.length :: S)) ∧
    indexedMixtureLogprob (some 0) (zs.map intIndex) comps empty value = .error .valueError := by
  obtain ⟨R, h1, h2, h3⟩ := npSelect_adv (as := zs.map fun z => (⟨[], fun _ => z⟩ : Arr ℤ)) (sh := comps.length :: S) (s := [])
    (by cases hz; simp) (by simp) (by rw [List.forall₂_map_left_iff]; exact hz.imp fun z n h c _ => h)
  have h1' : npSelect (zs.map intIndex) (comps.length :: S) = .ok R := by
    rw [← h1, List.map_map]; rfl
  refine ⟨⟨R, h1', h2, ?_⟩, ?_⟩
  · rw [h3 [] .nil, List.zipWith_map_left]
  · obtain ⟨adv, h4, h5, h6, -⟩ := expand_spec (by simp) (fun i hi => by obtain ⟨z, -, rfl⟩ := List.mem_map.1 hi; trivial) h1'
    rcases hadv : adv with _ | ⟨b, bs⟩
    · simp [hadv] at h5
    have hb : b.shape = [] := by rw [h6 b (by simp [hadv]), h2]
    rcases comps with _ | ⟨c0, cs⟩
    · exact absurd rfl hne
    have h0 := hshape c0 (by simp)
    have hni := nodeIndices_ints zs 0
    rw [List.replicate_zero, List.append_nil] at hni
    have hl := hz.length_eq
    have harr : indexedMixtureLogprob (some 0) (zs.map intIndex) (c0 :: cs) empty value = arrayMixtureLogprob (some 0) (zs.map intIndex) ((c0 :: cs).map StackComp.toMixComp) empty value := by
      rw [indexedMixtureLogprob, hni]
      rcases zs with _ | ⟨z, _ | ⟨z', zs⟩⟩
      · simp at hl
      · rcases S with _ | ⟨n, S⟩
        · exact absurd rfl hS
        · simp at hl
      · rfl
    rw [harr]
    simp only [arrayMixtureLogprob, bind, Except.bind, List.map_cons, h0]
    have hex : expandIndices (zs.map intIndex) (1 :: S) = .ok adv := by
      rcases zs with _ | ⟨z, zs⟩
      · simp at hl
      · rw [← h4]
        exact expand_first_axis (r := 0) (I := ⟨[], fun _ => z⟩) (rest := zs.map intIndex)
    rw [hex, hadv]
    have hp : pyGet? (b :: bs) 0 = some b := rfl
    simp only [List.zipIdx_cons, List.foldlM_cons, mixtureTurn, Option.getD_some, hp, if_pos hb]
    rfl

theorem slicePositions_prefix (k n : ℕ) : slicePositions none (some (k : ℤ)) 1 n = (List.range (min k n)).map fun k : ℕ => (k : ℤ) := by
  have h : ((min (k : ℤ) n - 0 + 1 - 1) / 1).toNat = min k n := by omega
  simp only [slicePositions, sliceEnds]
  rw [if_neg (by omega : ¬ ((k : ℤ) < 0))]
  simp only [if_pos (by omega : (0 : ℤ) < 1), h, zero_add, mul_one]

/-- `x[:k]` -/
theorem select_prefix (k N : ℕ) (S : List ℕ) :
    ∃ R, npSelect [.slice none (some (k : ℤ)) none] (N :: S) = .ok R ∧ R.shape = min k N :: S ∧ ∀ c, InRange c (min k N :: S) → R.get c = c := by
  have h1 : items [.slice none (some (k : ℤ)) none] (N :: S) = .ok (.sl (List.range (min k N)) :: S.map fun n => .sl (List.range n)) := by
    rw [items, if_neg (by simp), items_nil, show (none : Option ℤ).getD 1 = 1 from rfl, slicePositions_prefix]
    simp only [List.map_map, Function.comp_def, Int.toNat_natCast, List.map_id']
    rfl
  have h1' : (Item.sl (List.range (min k N)) :: S.map fun n => .sl (List.range n)) = (min k N :: S).map fun n => .sl (List.range n) := rfl
  rw [h1'] at h1
  generalize min k N :: S = T at h1 ⊢
  have hf : (T.map fun n => Item.sl (List.range n)).filterMap Item.advShape = [] := by
    rw [List.filterMap_map, List.filterMap_eq_nil_iff]
    intro n _
    rfl
  have hall : ∀ i ∈ T.map fun n => Item.sl (List.range n), Item.basic i = true := by simp [Item.basic]
  have hb : ((T.map fun n => Item.sl (List.range n)).filter Item.basic).map Item.len = T := by
    rw [List.filter_eq_self.2 hall, List.map_map]
    conv_rhs => rw [← List.map_id T]
    refine List.map_congr_left fun n _ => ?_
    simp [Item.len]
  have hs : bshape ([] : List (List ℕ)) = some [] := rfl
  refine ⟨_, by rw [npSelect, h1]; simp only [bind, Except.bind, hf, hs]; rfl, ?_, fun c hc => ?_⟩
  · simp [hb]
  · simp only [List.length_nil, Nat.add_zero, List.take_append_drop, List.take_zero]
    exact pick_full T c hc

/-- `x[:, i]` -/
theorem select_column_int {N n : ℕ} {i : ℤ} (hi : -(n : ℤ) ≤ i ∧ i < n) :
    ∃ R, npSelect [fullSlice, intIndex i] [N, n] = .ok R ∧ R.shape = [N] ∧ ∀ m < N, R.get [m] = [m, wrap n i] := by
  have h1 : items [fullSlice, intIndex i] [N, n] = .ok [.sl (List.range N), .adv ⟨[], fun _ => wrap n i⟩] := by
    simp only [fullSlice, intIndex, items]
    rw [if_neg (by simp), if_pos (fun _ _ => hi), show (none : Option ℤ).getD 1 = 1 from rfl, slicePositions_full]
    simp only [List.map_map, Function.comp_def, Int.toNat_natCast, List.map_id']
    rfl
  have hs : bshape ([[]] : List (List ℕ)) = some [] := rfl
  refine ⟨_, by rw [npSelect, h1]; simp only [bind, Except.bind, List.filterMap_cons, List.filterMap_nil, Item.advShape, hs]; rfl, ?_, fun m hm => ?_⟩
  · simp [blockAt, adjacent, Item.basic, Item.len, List.filter_cons]
  · simp [blockAt, adjacent, Item.basic, pick, List.getElem?_range hm]

/-- The log-probability of a component with scalar parameters: the same formula for every element. -/
def Uniform (g : ℕ → FVal → FVal) (comps : List StackComp) : Prop :=
  ∀ m (h : m < comps.length), comps[m].dims = 0 ∧ ∀ v, comps[m].whole v = .ok (v.map (g m))

theorem scalarIndex_uniform {comps : List StackComp} (hne : comps ≠ []) {g : ℕ → FVal → FVal} (hg : Uniform g comps) (k : ℕ) (value : Arr FVal) :
    ∃ out, scalarIndexLogprob comps k value = .ok out ∧ out.shape = value.shape ∧
      ∀ c, InRange c value.shape → out.get c = if k < comps.length then g k (value.get c) else 0 := by
  obtain ⟨out, h1, h2, h3, h4⟩ := scalarIndex_spec hne (value := value) (index := (k : ℤ))
    (fun c hc => by
      obtain ⟨m, hm, rfl⟩ := List.mem_iff_getElem.1 hc
      rw [(hg m hm).1]; exact Nat.zero_le _)
    (fun m h _ => ⟨_, (hg m h).2 value, rfl⟩)
  refine ⟨out, h1, h2, fun c hc => ?_⟩
  by_cases hk : k < comps.length
  · rw [if_pos hk, h4 k hk rfl _ ((hg k hk).2 value) c hc]
    rfl
  · rw [if_neg hk, h3 (fun m hm h => by have := Int.ofNat.inj h; omega) c hc]

/-- **C122** (refuted part) The first `k` of any number of arrays, `at.stack([X, Y, ..])[:k]`: element by element the variables selected are those of the components in order, but every place is given the
log-probability of component number `k`, which is not even selected, and zero if there is none. -/
theorem C122_slice_wrong {comps : List StackComp} (hne : comps ≠ []) {S : List ℕ} {g : ℕ → FVal → FVal} (hg : Uniform g comps) (k : ℕ) (join_axis : Option ℤ) (empty : List ℕ → FVal)
    {value : Arr FVal} (hv : value.shape = min k comps.length :: S) :
    (∃ R, npSelect [.slice none (some (k : ℤ)) none] (comps.length :: S) = .ok R ∧ R.shape = min k comps.length :: S ∧ ∀ c, InRange c (min k comps.length :: S) → R.get c = c) ∧
    ∃ out, indexedMixtureLogprob join_axis [.slice none (some (k : ℤ)) none] comps empty value = .ok out ∧ out.shape = min k comps.length :: S ∧
      ∀ m c, InRange (m :: c) (min k comps.length :: S) → out.get (m :: c) = if k < comps.length then g k (value.get (m :: c)) else 0 := by
  refine ⟨select_prefix k _ S, ?_⟩
  obtain ⟨out, h1, h2, h3⟩ := scalarIndex_uniform hne hg k value
  refine ⟨out, h1, by rw [h2, hv], fun m c hc => h3 _ (by rw [hv]; exact hc)⟩

/-- **C122** (refuted part) A column of a stack of vectors, `at.stack([X, Y, ..])[:, i]`: element `i` of every component is selected, but every place is given the log-probability of component number `i`,
and zero if there is none. -/
theorem C122_column_wrong {comps : List StackComp} (hne : comps ≠ []) {g : ℕ → FVal → FVal} (hg : Uniform g comps) {n i : ℕ} (hi : i < n) (join_axis : Option ℤ) (empty : List ℕ → FVal)
    {value : Arr FVal} (hv : value.shape = [comps.length]) :
    (∃ R, npSelect [fullSlice, intIndex i] [comps.length, n] = .ok R ∧ R.shape = [comps.length] ∧ ∀ m < comps.length, R.get [m] = [m, i]) ∧
    ∃ out, indexedMixtureLogprob join_axis [fullSlice, intIndex i] comps empty value = .ok out ∧ out.shape = [comps.length] ∧
      ∀ m < comps.length, out.get [m] = if i < comps.length then g i (value.get [m]) else 0 := by
  obtain ⟨R, h1, h2, h3⟩ := select_column_int (N := comps.length) (n := n) (i := (i : ℤ)) (by omega)
  refine ⟨⟨R, h1, h2, fun m hm => ?_⟩, ?_⟩
  · rw [h3 m hm, wrap, if_neg (by omega), Int.toNat_natCast]
  · obtain ⟨out, h4, h5, h6⟩ := scalarIndex_uniform hne hg i value
    refine ⟨out, h4, by rw [h5, hv], fun m hm => h6 _ (by rw [hv]; exact .cons hm .nil)⟩

/-- **C122** (refuted part) Vectors of length `n` stacked as the columns of a matrix, `at.stack([X, Y, ..], axis=1)[i]`: element `i` of every component is selected, but every place is given the
log-probability of component number `i`, and zero if there is none. -/
theorem C122_row_wrong {comps : List StackComp} (hne : comps ≠ []) {g : ℕ → FVal → FVal} (hg : Uniform g comps) {n i : ℕ} (hi : i < n) (empty : List ℕ → FVal)
    {value : Arr FVal} (hv : value.shape = [comps.length]) :
    (∃ R, npSelect [intIndex i] [n, comps.length] = .ok R ∧ R.shape = [comps.length] ∧ ∀ m < comps.length, R.get [m] = [i, m]) ∧
    ∃ out, indexedMixtureLogprob (some 1) [intIndex i] comps empty value = .ok out ∧ out.shape = [comps.length] ∧
      ∀ m < comps.length, out.get [m] = if i < comps.length then g i (value.get [m]) else 0 := by
  obtain ⟨R, h1, h2, h3⟩ := select_int (N := n) (S := [comps.length]) (i := (i : ℤ)) (by omega)
  refine ⟨⟨R, h1, h2, fun m hm => ?_⟩, ?_⟩
  · rw [h3 [m] (.cons hm .nil), wrap, if_neg (by omega), Int.toNat_natCast]
  · obtain ⟨out, h4, h5, h6⟩ := scalarIndex_uniform hne hg i value
    refine ⟨out, h4, by rw [h5, hv], fun m hm => h6 _ (by rw [hv]; exact .cons hm .nil)⟩

/-- **C122** Vectors of length `n` stacked as the columns of a matrix, `at.stack([X, Y, ..], axis=1)[:, i]`: the elements of component number `i` are selected, and every place is given the log-probability of
that component.  Missing: everything else about stacks along other axes than the first (`C122_row_wrong`, `C63_other_axis_raises`, `C63_negative_axis_raises`). -/
theorem C122_column_partial {comps : List StackComp} {g : ℕ → FVal → FVal} (hg : Uniform g comps) {n i : ℕ} (hi : i < comps.length) (empty : List ℕ → FVal)
    {value : Arr FVal} (hv : value.shape = [n]) :
    (∃ R, npSelect [fullSlice, intIndex i] [n, comps.length] = .ok R ∧ R.shape = [n] ∧ ∀ j < n, R.get [j] = [j, i]) ∧
    ∃ out, indexedMixtureLogprob (some 1) [fullSlice, intIndex i] comps empty value = .ok out ∧ out.shape = [n] ∧ ∀ j < n, out.get [j] = g i (value.get [j]) := by
  obtain ⟨R, h1, h2, h3⟩ := select_column_int (N := n) (n := comps.length) (i := (i : ℤ)) (by omega)
  refine ⟨⟨R, h1, h2, fun j hj => ?_⟩, ?_⟩
  · rw [h3 j hj, wrap, if_neg (by omega), Int.toNat_natCast]
  · obtain ⟨out, h4, h5, h6⟩ := scalarIndex_uniform (List.ne_nil_of_length_pos (by omega)) hg i value
    refine ⟨out, h4, by rw [h5, hv], fun j hj => ?_⟩
    rw [h6 _ (by rw [hv]; exact .cons hj .nil), if_pos hi]

/-- **C122** (refuted part) A slice of a component of a stack of vectors, `stack[i, a:b]`, a valid selection: the bounds are taken for two more indices, and the derivation raises. -/
theorem C122_bounds_raises {comps : List StackComp} {n : ℕ} (hshape : ∀ c ∈ comps, c.shape = [1, n]) {i : ℤ} (hi : -(comps.length : ℤ) ≤ i ∧ i < comps.length) (a b : ℤ) (empty : List ℕ → FVal)
    (value : Arr FVal) :
    (∃ R, npSelect [intIndex i, .slice (some a) (some b) none] [comps.length, n] = .ok R) ∧
    indexedMixtureLogprob (some 0) [intIndex i, .slice (some a) (some b) none] comps empty value = .error .indexError := by
  constructor
  · simp only [npSelect, intIndex, items]
    rw [if_pos (fun _ _ => hi), if_neg (by simp)]
    exact ⟨_, rfl⟩
  · rcases comps with _ | ⟨c, cs⟩
    · simp at hi; omega
    · have hc := hshape c (by simp)
      have : expandIndices [intIndex i, intIndex a, intIndex b] [1, n] = .error .indexError := rfl
      show arrayMixtureLogprob (some 0) [intIndex i, intIndex a, intIndex b] ((c :: cs).map StackComp.toMixComp) empty value = _
      simp only [arrayMixtureLogprob, bind, Except.bind, List.map_cons, hc, this]

namespace MixtureBasicDemo
open MixtureArrayDemo

/-- Arrays of shape `S` of normal variables around the number of the component, stacked. -/
noncomputable def piece (m : ℕ) (S : List ℕ) : StackComp := ⟨comp m (1 :: S), 0, fun v => .ok (v.map (unit m))⟩

noncomputable def pieces (S : List ℕ) : List StackComp := [piece 0 S, piece 1 S, piece 2 S]

theorem uniform (S : List ℕ) : Uniform unit (pieces S)
  | 0, _ => ⟨rfl, fun _ => rfl⟩
  | 1, _ => ⟨rfl, fun _ => rfl⟩
  | 2, _ => ⟨rfl, fun _ => rfl⟩
  | _ + 3, h => absurd h (by simp [pieces])

theorem shapes (S : List ℕ) : ∀ c ∈ pieces S, c.shape = 1 :: S := by simp [pieces, piece, comp]

theorem lps (S : List ℕ) : ∀ m (h : m < (pieces S).length) ps vs, (pieces S)[m].lp ps vs = .ok (List.zipWith (fun _ v => unit m v) ps vs)
  | 0, _, _, _ => rfl
  | 1, _, _, _ => rfl
  | 2, _, _, _ => rfl
  | _ + 3, h, _, _ => absurd h (by simp [pieces])

theorem row (j : List ℤ) (h : ∀ z ∈ j, z = 0) (hj : j.length ≤ 1) (k : ℕ) (hk : j.length + k ≤ 2) :
    ∃ R, npSelect ((1 :: j).map intIndex ++ List.replicate k fullSlice) [3, 2, 2] = .ok R ∧ R.shape ≠ [] := by
  rcases j with _ | ⟨z, _ | ⟨z', j⟩⟩
  · obtain ⟨R, h1, h2, -⟩ := select_int (N := 3) (S := [2, 2]) (i := 1) (by omega)
    refine ⟨R, ?_, by simp [h2]⟩
    rw [npSelect, items_full _ k _ (by simp at hk ⊢; omega)]
    exact h1
  · obtain rfl := h z (by simp)
    have hi : items [intIndex 1, intIndex 0] [3, 2, 2] = .ok [.adv ⟨[], fun _ => 1⟩, .adv ⟨[], fun _ => 0⟩, .sl [0, 1]] := by
      simp only [intIndex, items]
      rw [if_pos (fun _ _ => by omega), if_pos (fun _ _ => by omega)]
      rfl
    rw [npSelect, items_full _ k _ (by simp at hk ⊢; omega)]
    simp only [List.map_cons, List.map_nil, hi, bind, Except.bind, List.filterMap_cons, List.filterMap_nil, Item.advShape, show bshape [([] : List ℕ), []] = some [] from rfl]
    refine ⟨_, rfl, ?_⟩
    simp [blockAt, adjacent, Item.basic, Item.len, List.filter_cons]
  · simp at hj

/-- `stack[1, :, :]` and `stack[1, 0, :]` of three matrices. -/
example (j : List ℤ) (h : ∀ z ∈ j, z = 0) (hj : j.length ≤ 1) (k : ℕ) (hk : j.length + k ≤ 2) (empty : List ℕ → FVal) (g : List ℕ → FVal) :
    ∃ R out, npSelect ((1 :: j).map intIndex ++ List.replicate k fullSlice) [3, 2, 2] = .ok R ∧
      indexedMixtureLogprob (some 0) ((1 :: j).map intIndex ++ List.replicate k fullSlice) (pieces [2, 2]) empty ⟨R.shape, g⟩ = .ok out ∧ out.shape = R.shape := by
  obtain ⟨R, hR, h0⟩ := row j h hj k hk
  obtain ⟨out, h1, h2, -⟩ := C122_leading_partial (comps := pieces [2, 2]) (S := [2, 2]) (f := fun m _ v => unit m v) (by simp [pieces]) (shapes _) (fun m h ps vs _ _ => lps _ m h ps vs)
    (fun c hc => by
      obtain ⟨m, hm, rfl⟩ := List.mem_iff_getElem.1 hc
      rw [(uniform _ m hm).1]; simp)
    (fun m h v hv => ⟨_, (uniform _ m h).2 v, hv, fun _ _ => rfl⟩) (i := 1) (by omega) hR (.inl h0) empty ⟨R.shape, g⟩ rfl
  exact ⟨R, out, hR, h1, h2⟩

/-- `stack[1, 0]` of three vectors. -/
example (empty : List ℕ → FVal) (value : Arr FVal) :=
  C122_element_raises (comps := pieces [2]) (S := [2]) (by simp [pieces]) (shapes _) (by simp) (zs := [1, 0]) (.cons (by simp [pieces]) (.cons (by simp) .nil)) empty value

/-- `stack[:1]` of three vectors. -/
example (empty : List ℕ → FVal) (g : List ℕ → FVal) :=
  C122_slice_wrong (comps := pieces [2]) (by simp [pieces]) (S := [2]) (uniform _) 1 (some 0) empty (value := ⟨[1, 2], g⟩) (by simp [pieces])

theorem unit_ne : unit 1 (fin 1) ≠ unit 0 (fin 1) := by
  unfold unit
  rw [normal_eval 1 _ one_pos, normal_eval 1 _ one_pos]
  simp only [ne_eq, FVal.fin.injEq]
  have hv : ((1 : ℝ) ^ 2).toNNReal ≠ 0 := by simp
  intro h
  have h := Real.log_injOn_pos (ProbabilityTheory.gaussianPDFReal_pos _ _ _ hv) (ProbabilityTheory.gaussianPDFReal_pos _ _ _ hv) h
  simp only [ProbabilityTheory.gaussianPDFReal] at h
  have h := mul_left_cancel₀ (by positivity) h
  rw [Real.exp_eq_exp] at h
  norm_num at h

/-- Its first row, a standard normal vector, does not get its log-probability. -/
example (empty : List ℕ → FVal) : ∃ out, indexedMixtureLogprob (some 0) [.slice none (some 1) none] (pieces [2]) empty ⟨[1, 2], fun _ => fin 1⟩ = .ok out ∧ out.get [0, 0] ≠ unit 0 (fin 1) := by
  obtain ⟨-, out, h1, -, h3⟩ := C122_slice_wrong (comps := pieces [2]) (by simp [pieces]) (S := [2]) (uniform _) 1 (some 0) empty (value := ⟨[1, 2], fun _ => fin 1⟩) (by simp [pieces])
  refine ⟨out, h1, ?_⟩
  rw [h3 0 [0] (.cons (by simp [pieces]) (.cons (by simp) .nil)), if_pos (by simp [pieces])]
  exact unit_ne

/-- `stack[:, 0]` of three vectors. -/
example (empty : List ℕ → FVal) (g : List ℕ → FVal) :=
  C122_column_wrong (comps := pieces [2]) (by simp [pieces]) (uniform _) (n := 2) (i := 0) (by omega) (some 0) empty (value := ⟨[3], g⟩) (by simp [pieces])

/-- Three vectors of two elements each, as the columns of a matrix. -/
noncomputable def columns : List StackComp := [0, 1, 2].map fun m => ⟨comp m [2, 1], 0, fun v => .ok (v.map (unit m))⟩

theorem columns_uniform : Uniform unit columns
  | 0, _ => ⟨rfl, fun _ => rfl⟩
  | 1, _ => ⟨rfl, fun _ => rfl⟩
  | 2, _ => ⟨rfl, fun _ => rfl⟩
  | _ + 3, h => absurd h (by simp [columns])

/-- Row 1 of the matrix; its first element, a standard normal variable, does not get its log-probability. -/
example (empty : List ℕ → FVal) : ∃ out, indexedMixtureLogprob (some 1) [intIndex (1 : ℕ)] columns empty ⟨[3], fun _ => fin 1⟩ = .ok out ∧ out.get [0] ≠ unit 0 (fin 1) := by
  obtain ⟨-, out, h1, -, h3⟩ := C122_row_wrong (comps := columns) (by simp [columns]) columns_uniform (n := 2) (i := 1) (by omega) empty (value := ⟨[3], fun _ => fin 1⟩) (by simp [columns])
  refine ⟨out, h1, ?_⟩
  rw [h3 0 (by simp [columns]), if_pos (by simp [columns])]
  exact unit_ne

/-- Column 2 of the matrix. -/
example (empty : List ℕ → FVal) (g : List ℕ → FVal) := C122_column_partial (comps := columns) columns_uniform (n := 2) (i := 2) (by simp [columns]) empty (value := ⟨[2], g⟩) rfl

/-- `stack[1, 0:2]` of three vectors. -/
example (empty : List ℕ → FVal) (value : Arr FVal) :=
  C122_bounds_raises (comps := pieces [4]) (n := 4) (shapes _) (i := 1) (by simp [pieces]) 0 2 empty value

end MixtureBasicDemo

end Verif
