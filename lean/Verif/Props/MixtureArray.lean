import Verif.Model.MixtureArray
import Verif.Props.Indices
import Verif.Lemmas.FVal

/-! # C63: mixtures with array indices -/

namespace Verif
open FVal

theorem mem_allCoords : ∀ {s c : List ℕ}, c ∈ allCoords s ↔ InRange c s
  | [], c => by simp [allCoords, InRange]
  | n :: s, c => by
    simp only [allCoords, List.mem_flatMap, List.mem_range, List.mem_map, mem_allCoords (s := s)]
    constructor
    · rintro ⟨i, hi, c', hc', rfl⟩; exact .cons hi hc'
    · rintro (_ | ⟨h1, h2⟩); exact ⟨_, h1, _, h2, rfl⟩

theorem mapM_ok {α β : Type} {f : α → Except Err β} {g : α → β} : ∀ {l : List α}, (∀ x ∈ l, f x = .ok (g x)) → l.mapM f = .ok (l.map g)
  | [], _ => rfl
  | a :: l, h => by
    rw [List.mapM_cons, h a (by simp), mapM_ok (l := l) fun x hx => h x (by simp [hx])]; rfl

theorem setAt_get {α : Type} (x : Arr α) (ps : List (List ℕ)) (g : List ℕ → α) (c : List ℕ) :
    (x.setAt ps (ps.map g)).get c = if c ∈ ps then g c else x.get c := by
  simp only [Arr.setAt]
  rcases h : ps.idxOf? c with _ | k
  · rw [List.idxOf?_eq_none_iff] at h
    rw [if_neg h]
  · have h' := h
    rw [List.idxOf?, List.findIdx?_eq_some_iff_getElem] at h'
    obtain ⟨hk, h1, -⟩ := h'
    have h2 : ps[k] = c := by simpa using h1
    have hm : c ∈ ps := h2 ▸ List.getElem_mem hk
    rw [if_pos hm]
    change (List.map g ps).getD k _ = _
    rw [List.getD_eq_getElem _ _ (by simpa using hk), List.getElem_map, h2]

theorem elementCoord_ok {S : List ℕ} {rest : List ℤ} (h : List.Forall₂ (fun (z : ℤ) (n : ℕ) => -(n : ℤ) ≤ z ∧ z < n) rest S) (n : ℕ) :
    elementCoord (n :: S) rest = .ok (0 :: List.zipWith (fun z n => wrap n z) rest S) := by
  have hl := h.length_eq
  rw [elementCoord, if_neg (by simpa using hl), if_pos]
  · rfl
  · rw [List.all_eq_true]
    intro b hb
    obtain ⟨i, hi, rfl⟩ := List.mem_iff_getElem.1 hb
    simp only [List.length_zipWith, List.tail_cons, lt_min_iff] at hi
    have := (List.forall₂_iff_get.1 h).2 i hi.1 hi.2
    simp only [List.getElem_zipWith, id, List.tail_cons, decide_eq_true_eq]
    simpa using this

theorem wrap_inRange {rest : List ℤ} {S : List ℕ} (h : List.Forall₂ (fun (z : ℤ) (n : ℕ) => -(n : ℤ) ≤ z ∧ z < n) rest S) : InRange (List.zipWith (fun z n => wrap n z) rest S) S := by
  induction h with
  | nil => exact .nil
  | cons h _ ih =>
    refine .cons ?_ ih
    simp only [wrap]
    split_ifs <;> omega

theorem items_advShape {idx : List Index} : ∀ {shape : List ℕ} {its : List Item}, items idx shape = .ok its → ∀ a, Index.adv a ∈ idx → a.shape ∈ its.filterMap Item.advShape := by
  induction idx with
  | nil => intro _ _ _ a ha; simp at ha
  | cons i idx ih =>
    intro shape its h a ha
    cases i with
    | newaxis =>
      rw [items] at h
      obtain ⟨rest, h1, h2⟩ := bind_ok h
      cases h2
      have := ih h1 a (by simpa using ha)
      simpa [Item.advShape] using this
    | slice b e st =>
      cases shape with
      | nil => simp [items] at h
      | cons n shape =>
        rw [items] at h
        split_ifs at h
        obtain ⟨rest, h1, h2⟩ := bind_ok h
        cases h2
        have := ih h1 a (by simpa using ha)
        simpa [Item.advShape] using this
    | adv a' =>
      cases shape with
      | nil => simp [items] at h
      | cons n shape =>
        rw [items] at h
        split_ifs at h
        obtain ⟨rest, h1, h2⟩ := bind_ok h
        cases h2
        rw [List.mem_cons] at ha
        rcases ha with ha | ha
        · cases ha
          simp [Item.advShape, Arr.map]
        · have := ih h1 a ha
          simp only [List.filterMap_cons, Item.advShape]
          exact List.mem_cons_of_mem _ this

/-- Advanced indexing gives an array with at least one dimension. -/
theorem Advanced.ndim {idx : List Index} (h : Advanced idx) {shape : List ℕ} {R : Arr (List ℕ)} (hR : npSelect idx shape = .ok R) : R.shape ≠ [] := by
  obtain ⟨a, ha, ha0⟩ := h
  rw [npSelect] at hR
  obtain ⟨its, h1, h2⟩ := bind_ok hR
  cases hb : bshape (its.filterMap Item.advShape) with
  | none => rw [hb] at h2; cases h2
  | some block =>
    rw [hb] at h2
    cases h2
    have hm := items_advShape h1 a ha
    have hl := (bshape_some.1 hb).1
    have : block ≠ [] := by
      rintro rfl
      have hmax := le_maxDims hm
      rw [← hl] at hmax
      exact ha0 (List.length_eq_zero_iff.1 (by simpa using hmax))
    simp [this]

theorem pyGet?_natCast {α : Type} (l : List α) (k : ℕ) : pyGet? l (k : ℤ) = l[k]? := by
  rw [pyGet?, if_pos (by omega), Int.toNat_natCast]

theorem withoutPlace_natCast {α : Type} (l : List α) (k : ℕ) : withoutPlace l (k : ℤ) = l.eraseIdx k := by
  rw [withoutPlace, if_pos (by omega), Int.toNat_natCast]

/-- The loop over the components. -/
theorem fold_turn {S : List ℕ} {f : ℕ → List ℕ → FVal → FVal} {b : Arr ℤ} (hb0 : b.shape ≠ []) {bcast bs : List (Arr ℤ)} {k : ℕ} (hb : bcast[k]? = some b)
    (hbs : bcast.eraseIdx k = bs) (hlen : bs.length = S.length) {value : Arr FVal} (hrange : ∀ c, InRange c b.shape → List.Forall₂ (fun (z : ℤ) (n : ℕ) => -(n : ℤ) ≤ z ∧ z < n) (bs.map fun v => v.get c) S) :
    ∀ (cs : List MixComp) (m0 : ℕ) (acc : Arr FVal), (∀ c ∈ cs, ∃ n, c.shape = n :: S) →
      (∀ m (h : m < cs.length) ps vs, ps.length = vs.length → (∀ p ∈ ps, InRange p (1 :: S)) → cs[m].lp ps vs = .ok (List.zipWith (f (m0 + m)) ps vs)) →
      ∃ out, (cs.zipIdx m0).foldlM (mixtureTurn bcast k value) acc = .ok out ∧ out.shape = acc.shape ∧
        ∀ c, InRange c b.shape → out.get c = if (m0 : ℤ) ≤ b.get c ∧ b.get c < m0 + cs.length then
          f (b.get c).toNat (0 :: List.zipWith (fun z n => wrap n z) (bs.map fun v => v.get c) S) (value.get c) else acc.get c
  | [], m0, acc, _, _ => ⟨acc, rfl, rfl, fun c _ => by rw [if_neg (by simp)]⟩
  | comp :: cs, m0, acc, hs, hlp => by
    obtain ⟨n, hn⟩ := hs comp (by simp)
    set g : List ℕ → List ℕ := fun c => 0 :: List.zipWith (fun z n => wrap n z) (bs.map fun v => v.get c) S with hg
    have hturn : mixtureTurn bcast k value acc (comp, m0) =
        .ok (acc.setAt (nonzeroEq b m0) ((nonzeroEq b m0).map fun c => f m0 (g c) (value.get c))) := by
      have h1 : (nonzeroEq b m0).mapM (fun p => elementCoord comp.shape (bs.map fun v => v.get p)) =
          .ok ((nonzeroEq b m0).map g) := by
        refine mapM_ok fun c hc => ?_
        have hc' : InRange c b.shape := by
          rw [nonzeroEq, List.mem_filter, mem_allCoords] at hc
          exact hc.1
        rw [hn]
        exact elementCoord_ok (hrange c hc') n
      have h2 := hlp 0 (by simp) ((nonzeroEq b m0).map g) ((nonzeroEq b m0).map value.get) (by simp) fun p hp => by
        obtain ⟨c, hc, rfl⟩ := List.mem_map.1 hp
        have hc' : InRange c b.shape := by
          rw [nonzeroEq, List.mem_filter, mem_allCoords] at hc
          exact hc.1
        exact .cons one_pos (wrap_inRange (hrange c hc'))
      simp only [List.getElem_cons_zero, Nat.add_zero] at h2
      simp only [mixtureTurn, pyGet?_natCast, hb, withoutPlace_natCast, hbs, if_neg hb0, h1, bind, Except.bind, h2]
      rw [if_neg (by rw [hn, List.length_cons]; omega)]
      rw [List.zipWith_map, List.zipWith_self]
      rfl
    obtain ⟨out, h1, h2, h3⟩ := fold_turn (f := f) hb0 hb hbs hlen hrange cs (m0 + 1) (acc.setAt (nonzeroEq b m0) ((nonzeroEq b m0).map fun c => f m0 (g c) (value.get c)))
      (fun c hc => hs c (by simp [hc])) (fun m h ps vs hl hp => by
        have := hlp (m + 1) (by simpa using h) ps vs hl hp
        simp only [List.getElem_cons_succ] at this
        rw [this, show m0 + (m + 1) = m0 + 1 + m by omega])
    refine ⟨out, ?_, h2, fun c hc => ?_⟩
    · rw [List.zipIdx_cons, List.foldlM_cons, hturn]; exact h1
    · rw [h3 c hc, setAt_get]
      have hmem : c ∈ nonzeroEq b m0 ↔ b.get c = m0 := by
        rw [nonzeroEq, List.mem_filter, mem_allCoords]; simp [hc]
      by_cases hbm : b.get c = m0
      · rw [if_neg (by push_cast; omega), if_pos (hmem.2 hbm), if_pos (by simp only [List.length_cons]; push_cast; omega), hbm]; rfl
      · rw [if_neg (fun h => hbm (hmem.1 h))]
        congr 1
        simp only [List.length_cons, eq_iff_iff]
        push_cast
        omega

/-- The size of the first axis does not matter if an integer array indexes it. -/
theorem expand_first_axis {m n : ℕ} {S : List ℕ} {r : ℕ} {I : Arr ℤ} {rest : List Index} :
    expandIndices (List.replicate r .newaxis ++ .adv I :: rest) (m :: S) = expandIndices (List.replicate r .newaxis ++ .adv I :: rest) (n :: S) := by
  have hloop : ∀ (moved : Bool) (first nb ns nout : ℕ) (fi : List Index) (r d j : ℕ),
      expandLoop moved first nb ns nout d j (List.replicate r .newaxis ++ .adv I :: fi) (m :: S) =
        expandLoop moved first nb ns nout d j (List.replicate r .newaxis ++ .adv I :: fi) (n :: S) := by
    intro moved first nb ns nout fi r
    induction r with
    | zero => intro d j; rw [List.replicate_zero, List.nil_append, expandLoop, expandLoop]
    | succ r ih => intro d j; rw [List.replicate_succ, List.cons_append, expandLoop, expandLoop, ih]
  have hfull : fullIndices (List.replicate r .newaxis ++ .adv I :: rest) (m :: S) = fullIndices (List.replicate r .newaxis ++ .adv I :: rest) (n :: S) := by
    simp only [fullIndices, List.length_cons]
  simp only [expandIndices, List.length_cons]
  rw [hfull]
  obtain ⟨fi, hfi⟩ : ∃ fi, fullIndices (List.replicate r .newaxis ++ .adv I :: rest) (n :: S) = List.replicate r .newaxis ++ .adv I :: fi := by
    rw [fullIndices]; simp
  rw [hfi]
  simp only [hloop]

/-- The shape `expand_indices` is called with: that of the joined array, except for the joined axis. -/
theorem mixture_spec {join_axis : Option ℤ} {comps : List MixComp} {S : List ℕ} {f : ℕ → List ℕ → FVal → FVal}
    (hjoin : join_axis = some 0 ∨ join_axis = none ∧ S = []) (hne : comps ≠ []) (hshape : ∀ c ∈ comps, ∃ n, c.shape = n :: S)
    (hlp : ∀ m (h : m < comps.length) ps vs, ps.length = vs.length → (∀ p ∈ ps, InRange p (1 :: S)) → comps[m].lp ps vs = .ok (List.zipWith (f m) ps vs))
    {r : ℕ} {I : Arr ℤ} {rest : List Index} (hasc : ∀ i ∈ rest, i.Ascending) {N : ℕ} {R : Arr (List ℕ)}
    (hR : npSelect (List.replicate r .newaxis ++ .adv I :: rest) (N :: S) = .ok R) (hR0 : R.shape ≠ []) (empty : List ℕ → FVal) (value : Arr FVal) :
    ∃ out, arrayMixtureLogprob join_axis (List.replicate r .newaxis ++ .adv I :: rest) comps empty value = .ok out ∧ out.shape = R.shape ∧
      ∀ c, InRange c R.shape → ∃ c' rs, InRange c' I.shape ∧ (-(N : ℤ) ≤ I.get c' ∧ I.get c' < N) ∧ R.get c = wrap N (I.get c') :: rs ∧
        out.get c = if 0 ≤ I.get c' ∧ I.get c' < comps.length then f (I.get c').toNat (0 :: rs) (value.get c) else empty c := by
  obtain ⟨adv, h1, h2, h3, h4, h5, h6⟩ := expand_spec (by simp) (fun i hi => by
    simp only [List.mem_append, List.mem_replicate, List.mem_cons] at hi
    rcases hi with ⟨-, rfl⟩ | rfl | hi
    · trivial
    · trivial
    · exact hasc i hi) hR
  rcases adv with _ | ⟨b, bs⟩
  · simp at h2
  have hb : b.shape = R.shape := h3 b (by simp)
  obtain ⟨out, h7, h8, h9⟩ := fold_turn (S := S) (f := f) (b := b) (by rw [hb]; exact hR0) (bcast := b :: bs) (bs := bs) (k := 0) rfl rfl (by simpa using h2)
    (value := value) (fun c hc => by
    rw [hb] at hc
    rw [List.forall₂_map_left_iff]
    have := h4 c hc
    cases this with
    | cons _ h => exact h) comps 0 ⟨b.shape, empty⟩ hshape (fun m h ps vs hl hp => by rw [Nat.zero_add]; exact hlp m h ps vs hl hp)
  refine ⟨out, ?_, by rw [h8, hb], fun c hc => ?_⟩
  · rcases comps with _ | ⟨c0, cs⟩
    · exact absurd rfl hne
    obtain ⟨n0, hn0⟩ := hshape c0 (by simp)
    rcases hjoin with rfl | ⟨rfl, rfl⟩
    · simp only [arrayMixtureLogprob, bind, Except.bind, hn0]
      rw [expand_first_axis (n := N), h1]
      exact h7
    · simp only [arrayMixtureLogprob, bind, Except.bind]
      rw [expand_first_axis (n := N), h1]
      exact h7
  · obtain ⟨c', hc', he⟩ := h6 r I rest rfl b (by simp) c hc
    refine ⟨c', List.zipWith (fun a n => wrap n (a.get c)) bs S, hc', ?_, ?_, ?_⟩
    · have := h4 c hc
      rw [← he]
      cases this with
      | cons h _ => exact h
    · rw [h5 c hc, List.zipWith_cons_cons, he]
    · rw [h9 c (by rw [hb]; exact hc), ← he, List.zipWith_map_left]
      simp

/-- **C63** Any number of components of any shape `S`, stacked along a new first axis and indexed with an array of non-negative integers
along it, together with ascending slices, `newaxis` and integer arrays along the other axes: at every place the derived log-probability
is that of the selected component's selected element at the value of the place (`f k` is the elementwise log-probability of component
`k`; its coordinates have the zero of the axis added by the stack in front), whatever memory `at.empty` returns.  Missing:
negative indices (`C63_negative_index_wrong`), stacks along other axes (`C63_shifted`, `C63_shifted_raises`, `C63_negative_axis_raises`), concatenations (`C63_concatenate_wrong`),
and slices along the stacked axis (`C63_slice_wrong`). -/
theorem C63_stack_partial {comps : List MixComp} {S : List ℕ} {f : ℕ → List ℕ → FVal → FVal} (hne : comps ≠ []) (hshape : ∀ c ∈ comps, c.shape = 1 :: S)
    (hlp : ∀ m (h : m < comps.length) ps vs, ps.length = vs.length → (∀ p ∈ ps, InRange p (1 :: S)) → comps[m].lp ps vs = .ok (List.zipWith (f m) ps vs))
    {r : ℕ} {I : Arr ℤ} (hI : ∀ c, InRange c I.shape → 0 ≤ I.get c) {rest : List Index} (hadv : Advanced (.adv I :: rest)) (hasc : ∀ i ∈ rest, i.Ascending) {R : Arr (List ℕ)}
    (hR : npSelect (List.replicate r .newaxis ++ .adv I :: rest) (comps.length :: S) = .ok R) (empty : List ℕ → FVal) (value : Arr FVal) :
    ∃ out, arrayMixtureLogprob (some 0) (List.replicate r .newaxis ++ .adv I :: rest) comps empty value = .ok out ∧ out.shape = R.shape ∧
      ∀ c, InRange c R.shape → ∃ k rs, R.get c = k :: rs ∧ k < comps.length ∧ out.get c = f k (0 :: rs) (value.get c) := by
  obtain ⟨out, h1, h2, h3⟩ := mixture_spec (join_axis := some 0) (.inl rfl) hne (fun c hc => ⟨1, hshape c hc⟩) hlp hasc hR
    (Advanced.ndim (hadv.imp fun a h => ⟨List.mem_append_right _ h.1, h.2⟩) hR) empty value
  refine ⟨out, h1, h2, fun c hc => ?_⟩
  obtain ⟨c', rs, hc', hr, h4, h5⟩ := h3 c hc
  have h0 := hI c' hc'
  rw [if_pos ⟨h0, hr.2⟩] at h5
  refine ⟨_, rs, h4, ?_, ?_⟩
  · rw [wrap, if_neg (by omega)]; omega
  · rw [h5, wrap, if_neg (by omega)]

theorem select_vector {I : Arr ℤ} {n : ℕ} (hI : ∀ c, InRange c I.shape → -(n : ℤ) ≤ I.get c ∧ I.get c < n) :
    ∃ R, npSelect [.adv I] [n] = .ok R ∧ R.shape = I.shape ∧ ∀ c, InRange c I.shape → R.get c = [wrap n (I.get c)] :=
  npSelect_adv (as := [I]) (sh := [n]) (s := I.shape) (by simp) (by simp) (.cons hI .nil)

/-- **C63** (vectors of scalar components, `at.stack([X, Y, ..])[I]`) Any number of components and an array of non-negative indices of any
shape: at every place the log-probability of the component with that index at the value of the place. -/
theorem C63_vector_partial {comps : List MixComp} {g : ℕ → FVal → FVal} (hshape : ∀ c ∈ comps, c.shape = [1])
    (hlp : ∀ m (h : m < comps.length) ps vs, ps.length = vs.length → comps[m].lp ps vs = .ok (vs.map (g m)))
    {I : Arr ℤ} (hI : ∀ c, InRange c I.shape → 0 ≤ I.get c ∧ I.get c < comps.length) (hI0 : I.shape ≠ []) (hne : comps ≠ []) (empty : List ℕ → FVal) (value : Arr FVal) :
    ∃ out, arrayMixtureLogprob none [.adv I] comps empty value = .ok out ∧ out.shape = I.shape ∧
      ∀ c, InRange c I.shape → out.get c = g (I.get c).toNat (value.get c) := by
  obtain ⟨R, hR, hRs, hRg⟩ := select_vector (I := I) (n := comps.length) (fun c hc => by have := hI c hc; omega)
  obtain ⟨out, h1, h2, h3⟩ := mixture_spec (join_axis := none) (S := []) (f := fun m _ v => g m v) (r := 0) (I := I) (rest := []) (.inr ⟨rfl, rfl⟩) hne
    (fun c hc => ⟨1, hshape c hc⟩) (fun m h ps vs hl _ => by
      rw [hlp m h ps vs hl]
      congr 1
      refine List.ext_getElem (by simp [hl]) fun i h1 h2 => by simp) (by simp) hR (by rw [hRs]; exact hI0) empty value
  refine ⟨out, h1, by rw [h2, hRs], fun c hc => ?_⟩
  obtain ⟨c', rs, hc', hr, h4, h5⟩ := h3 c (by rw [hRs]; exact hc)
  have h0 := hI c' hc'
  have h6 := hI c hc
  rw [hRg c hc, wrap, wrap, if_neg (by omega), if_neg (by omega)] at h4
  simp only [List.cons.injEq] at h4
  rw [h5, if_pos ⟨h0.1, h0.2⟩, h4.1]

/-- **C63** (refuted part) With negative indices, which NumPy counts from the last component, the derived log-probability is at every place
whatever the uninitialised memory holds, although the selection is a valid one (`hR`). -/
theorem C63_negative_index_wrong {comps : List MixComp} {S : List ℕ} {f : ℕ → List ℕ → FVal → FVal} (hne : comps ≠ []) (hshape : ∀ c ∈ comps, c.shape = 1 :: S)
    (hlp : ∀ m (h : m < comps.length) ps vs, ps.length = vs.length → (∀ p ∈ ps, InRange p (1 :: S)) → comps[m].lp ps vs = .ok (List.zipWith (f m) ps vs))
    {r : ℕ} {I : Arr ℤ} (hI : ∀ c, InRange c I.shape → I.get c < 0) {rest : List Index} (hadv : Advanced (.adv I :: rest)) (hasc : ∀ i ∈ rest, i.Ascending) {R : Arr (List ℕ)}
    (hR : npSelect (List.replicate r .newaxis ++ .adv I :: rest) (comps.length :: S) = .ok R) (empty : List ℕ → FVal) (value : Arr FVal) :
    ∃ out, arrayMixtureLogprob (some 0) (List.replicate r .newaxis ++ .adv I :: rest) comps empty value = .ok out ∧ out.shape = R.shape ∧
      ∀ c, InRange c R.shape → (∃ k rs, R.get c = k :: rs ∧ k < comps.length) ∧ out.get c = empty c := by
  obtain ⟨out, h1, h2, h3⟩ := mixture_spec (join_axis := some 0) (.inl rfl) hne (fun c hc => ⟨1, hshape c hc⟩) hlp hasc hR
    (Advanced.ndim (hadv.imp fun a h => ⟨List.mem_append_right _ h.1, h.2⟩) hR) empty value
  refine ⟨out, h1, h2, fun c hc => ?_⟩
  obtain ⟨c', rs, hc', hr, h4, h5⟩ := h3 c hc
  have h0 := hI c' hc'
  rw [if_neg (by omega)] at h5
  refine ⟨⟨_, rs, h4, ?_⟩, h5⟩
  rw [wrap, if_pos h0]; omega

/-- **C63** (refuted part) `at.concatenate([X, Y, ..])[I]`: an index smaller than the number of components is taken for the number of a component
and the first element of that component is used, whatever the lengths of the components are. -/
theorem C63_concatenate_wrong {comps : List MixComp} {f : ℕ → List ℕ → FVal → FVal} {n : ℕ} (hlong : comps.length ≤ n)
    (hshape : ∀ c ∈ comps, c.shape = [n])
    (hlp : ∀ m (h : m < comps.length) ps vs, ps.length = vs.length → (∀ p ∈ ps, InRange p [1]) → comps[m].lp ps vs = .ok (List.zipWith (f m) ps vs))
    {I : Arr ℤ} (hI : ∀ c, InRange c I.shape → 0 ≤ I.get c ∧ I.get c < comps.length) (hI0 : I.shape ≠ []) (hne : comps ≠ []) (empty : List ℕ → FVal) (value : Arr FVal) :
    -- every index points into the first component of the concatenation ...
    (∃ R, npSelect [.adv I] [comps.length * n] = .ok R ∧ R.shape = I.shape ∧ ∀ c, InRange c I.shape → R.get c = [(I.get c).toNat] ∧ (I.get c).toNat < n) ∧
    -- ... but the first element of another one is used
    ∃ out, arrayMixtureLogprob (some 0) [.adv I] comps empty value = .ok out ∧ out.shape = I.shape ∧
      ∀ c, InRange c I.shape → out.get c = f (I.get c).toNat [0] (value.get c) := by
  have hpos := List.length_pos_iff.2 hne
  have hle : comps.length ≤ comps.length * n := Nat.le_mul_of_pos_right _ (by omega)
  obtain ⟨R, hR, hRs, hRg⟩ := select_vector (I := I) (n := comps.length * n) (fun c hc => by have := hI c hc; omega)
  refine ⟨⟨R, hR, hRs, fun c hc => ?_⟩, ?_⟩
  · have := hI c hc
    rw [hRg c hc, wrap, if_neg (by omega)]
    exact ⟨rfl, by omega⟩
  obtain ⟨out, h1, h2, h3⟩ := mixture_spec (join_axis := some 0) (S := []) (f := f) (r := 0) (I := I) (rest := []) (.inl rfl) hne
    (fun c hc => ⟨n, hshape c hc⟩) hlp (by simp) hR (by rw [hRs]; exact hI0) empty value
  refine ⟨out, h1, by rw [h2, hRs], fun c hc => ?_⟩
  obtain ⟨c', rs, hc', hr, h4, h5⟩ := h3 c (by rw [hRs]; exact hc)
  have h0 := hI c' hc'
  have h6 := hI c hc
  rw [hRg c hc, wrap, wrap, if_neg (by omega), if_neg (by omega)] at h4
  simp only [List.cons.injEq] at h4
  rw [h5, if_pos ⟨h0.1, h0.2⟩, h4.1, ← h4.2]

/-- `[0]`. -/
def zeroIdx : Arr ℤ := ⟨[1], fun _ => 0⟩

/-- `M[:, [0]]` for a matrix `M` with two rows and two columns. -/
theorem select_column : ∃ R, npSelect [.slice none none none, .adv zeroIdx] [2, 2] = .ok R ∧ R.shape = [2, 1] := by
  have hz : ∀ c, InRange c zeroIdx.shape → -((2 : ℕ) : ℤ) ≤ zeroIdx.get c ∧ zeroIdx.get c < (2 : ℕ) := fun c _ => by simp [zeroIdx]
  have hi : items [.slice none none none, .adv zeroIdx] [2, 2] = .ok [.sl [0, 1], .adv (zeroIdx.map (wrap 2))] := by
    simp only [items]
    rw [if_pos hz, if_neg (by decide)]
    rfl
  rw [npSelect, hi]
  exact ⟨_, rfl, rfl⟩

theorem expand_column {n : ℕ} {sh : List ℕ} {g : List ℤ}
    (h : (expandIndices [.slice none none none, .adv zeroIdx] [n, 1]).map (List.map fun a => (a.shape, (allCoords a.shape).map a.get)) = .ok [(sh, g), (sh, [0, 0])]) :
    ∃ b0 b1, expandIndices [.slice none none none, .adv zeroIdx] [n, 1] = .ok [b0, b1] ∧ b0.shape = sh ∧ b1.shape = sh ∧
      (allCoords sh).map b0.get = g ∧ (allCoords sh).map b1.get = [0, 0] := by
  rcases he : expandIndices [.slice none none none, .adv zeroIdx] [n, 1] with e | l
  · rw [he] at h; cases h
  · rw [he] at h
    simp only [Except.map, Except.ok.injEq] at h
    rcases l with _ | ⟨b0, _ | ⟨b1, _ | ⟨b2, l⟩⟩⟩ <;> simp at h
    obtain ⟨⟨h1, h2⟩, h3, h4⟩ := h
    exact ⟨b0, b1, rfl, h1, h3, by rw [← h1]; exact h2, by rw [← h3]; exact h4⟩

/-- **C63** (refuted part) Two vectors of length two stacked along the second axis, `at.stack([X, Y], axis=1)[:, [0]]`, a valid selection: the first
axis of the component is dropped instead of the second, and the derivation raises. -/
theorem C63_other_axis_raises (lp : ℕ → List (List ℕ) → List FVal → Except Err (List FVal)) (empty : List ℕ → FVal) (value : Arr FVal) :
    (∃ R, npSelect [.slice none none none, .adv zeroIdx] [2, 2] = .ok R ∧ R.shape = [2, 1]) ∧
    arrayMixtureLogprob (some 1) [.slice none none none, .adv zeroIdx] [⟨[2, 1], lp 0⟩, ⟨[2, 1], lp 1⟩] empty value = .error .indexError := by
  refine ⟨select_column, ?_⟩
  obtain ⟨b0, b1, h1, h2, h3, h4, h5⟩ := expand_column (n := 2) (sh := [2, 1]) (g := [0, 1]) (by decide +kernel)
  have hc : allCoords [2, 1] = [[0, 0], [1, 0]] := rfl
  rw [hc] at h4 h5
  simp only [List.map_cons, List.map_nil, List.cons.injEq, and_true] at h4 h5
  have hn : nonzeroEq b1 0 = [[0, 0], [1, 0]] := by
    rw [nonzeroEq, h3, hc]
    simp [h5]
  have hp : pyGet? [b0, b1] 1 = some b1 := rfl
  have hw : withoutPlace [b0, b1] 1 = [b0] := rfl
  simp only [arrayMixtureLogprob, bind, Except.bind, h1, List.zipIdx_cons, List.foldlM_cons, mixtureTurn, Option.getD_some, hp, hw, h3, reduceCtorEq, if_false, hn, List.length_cons, List.length_nil,
    List.map_cons, List.map_nil, List.mapM_cons, h4]
  rfl

/-- **C63** (refuted part) Two vectors stacked along a new first axis and indexed by a slice along it, `at.stack([X, Y])[:, [0]]`:
the selection has two rows, the derived log-probability only one. -/
theorem C63_slice_wrong (g : ℕ → FVal → FVal) (empty : List ℕ → FVal) (value : Arr FVal) :
    (∃ R, npSelect [.slice none none none, .adv zeroIdx] [2, 2] = .ok R ∧ R.shape = [2, 1]) ∧
    ∃ out, arrayMixtureLogprob (some 0) [.slice none none none, .adv zeroIdx]
      [⟨[1, 2], fun _ vs => .ok (vs.map (g 0))⟩, ⟨[1, 2], fun _ vs => .ok (vs.map (g 1))⟩] empty value = .ok out ∧ out.shape = [1, 1] := by
  refine ⟨select_column, ?_⟩
  have h : (expandIndices [.slice none none none, .adv zeroIdx] [1, 2]).map (List.map fun a => (a.shape, (allCoords a.shape).map a.get)) =
    .ok [([1, 1], [0]), ([1, 1], [0])] := by decide +kernel
  obtain ⟨b0, b1, h1, h2, h3, h4, h5⟩ : ∃ b0 b1, expandIndices [.slice none none none, .adv zeroIdx] [1, 2] = .ok [b0, b1] ∧ b0.shape = [1, 1] ∧ b1.shape = [1, 1] ∧
      b0.get [0, 0] = 0 ∧ b1.get [0, 0] = 0 := by
    rcases he : expandIndices [.slice none none none, .adv zeroIdx] [1, 2] with e | l
    · rw [he] at h; cases h
    · rw [he] at h
      simp only [Except.map, Except.ok.injEq] at h
      rcases l with _ | ⟨b0, _ | ⟨b1, _ | ⟨b2, l⟩⟩⟩ <;> simp at h
      obtain ⟨⟨h1, h2⟩, h3, h4⟩ := h
      rw [h1] at h2
      rw [h3] at h4
      simp only [allCoords] at h2 h4
      simp at h2 h4
      exact ⟨b0, b1, rfl, h1, h3, h2, h4⟩
  have hc : allCoords [1, 1] = [[0, 0]] := rfl
  have hn0 : nonzeroEq b0 0 = [[0, 0]] := by rw [nonzeroEq, h2, hc]; simp [h4]
  have hn1 : nonzeroEq b0 1 = [] := by rw [nonzeroEq, h2, hc]; simp [h4]
  have he : elementCoord [1, 2] [0] = .ok [0, 0] := rfl
  refine ⟨((⟨b0.shape, empty⟩ : Arr FVal).setAt [[0, 0]] [g 0 (value.get [0, 0])]).setAt [] [], ?_, h2⟩
  have hp : pyGet? [b0, b1] 0 = some b0 := rfl
  have hw : withoutPlace [b0, b1] 0 = [b1] := rfl
  simp only [arrayMixtureLogprob, bind, Except.bind, h1, List.zipIdx_cons, List.foldlM_cons, mixtureTurn, Option.getD_some, hp, hw, hn0, hn1, List.length_cons, List.length_nil, List.map_cons, List.map_nil, List.mapM_cons, List.mapM_nil, h5, he, pure, Except.pure, Nat.zero_add,
    List.zipIdx_nil, List.foldlM_nil]
  have hb : ¬ b0.shape = [] := by rw [h2]; simp
  simp only [if_neg hb]
  rfl

theorem checked_length {nout : ℕ} {E : Arr ℤ} {X : Except Err (List (Arr ℤ))} {l : List (Arr ℤ)}
    (h : (if nout < E.ndim then .error .assertion else do let adv ← X; return E :: adv) = Except.ok l) : ∃ l', X = .ok l' ∧ l.length = l'.length + 1 := by
  split at h
  · cases h
  · obtain ⟨l', h1, h2⟩ := bind_ok h
    cases h2
    exact ⟨l', h1, rfl⟩

/-- There is one expanded index for every entry that is not `newaxis`. -/
theorem expandLoop_length {moved : Bool} {first nb ns nout : ℕ} : ∀ {d j : ℕ} {idx : List Index} {shape : List ℕ} {l : List (Arr ℤ)},
    expandLoop moved first nb ns nout d j idx shape = .ok l → l.length = (idx.filter fun i => ! i.isNewaxis).length
  | _, _, [], _, _, h => by rw [expandLoop] at h; cases h; rfl
  | d, j, .newaxis :: idx, shape, l, h => by
    rw [expandLoop] at h
    rw [expandLoop_length h]
    simp [Index.isNewaxis]
  | d, j, .slice a b c :: idx, [], l, h => by rw [expandLoop] at h; cases h; simp
  | d, j, .adv a :: idx, [], l, h => by rw [expandLoop] at h; cases h; simp
  | d, j, .adv a :: idx, n :: shape, l, h => by
    rw [expandLoop] at h
    obtain ⟨l', h1, h2⟩ := checked_length h
    rw [h2, expandLoop_length h1]
    simp [Index.isNewaxis]
  | d, j, .slice a b c :: idx, n :: shape, l, h => by
    rw [expandLoop] at h
    obtain ⟨ps, -, h⟩ := bind_ok h
    obtain ⟨l', h1, h2⟩ := checked_length h
    rw [h2, expandLoop_length h1]
    simp [Index.isNewaxis]

/-- `expand_indices` returns an index for every axis. -/
theorem expandIndices_length {idx : List Index} {shape : List ℕ} {l : List (Arr ℤ)} (h : expandIndices idx shape = .ok l) : shape.length ≤ l.length := by
  rw [expandIndices] at h
  obtain ⟨l', h1, h2⟩ := bind_ok h
  have h3 := expandLoop_length h1
  rw [broadcastArrays] at h2
  split at h2
  · cases h2
    rw [List.length_map, h3, fullIndices, List.filter_append, List.length_append, List.filter_replicate_of_pos (by rfl), List.length_replicate]
    omega
  · cases h2

/-- **C63** (refuted part) A stack or concatenation along an axis counted from the end, `at.stack([X, Y, ..], axis=-1)[idx]`: with array indices the derivation always raises, whatever is selected, since the
index of the joined axis is used for the components, too. -/
theorem C63_negative_axis_raises {comps : List MixComp} (hne : comps ≠ []) {axis : ℤ} (haxis : axis < 0) (idx : List Index) (empty : List ℕ → FVal) (value : Arr FVal) :
    ∃ e, arrayMixtureLogprob (some axis) idx comps empty value = .error e := by
  rcases comps with _ | ⟨c0, cs⟩
  · exact absurd rfl hne
  simp only [arrayMixtureLogprob, bind, Except.bind]
  rcases h : expandIndices idx c0.shape with e | bs
  · exact ⟨e, rfl⟩
  have hl := expandIndices_length h
  rcases bs with _ | ⟨b0, bs⟩
  · exact ⟨_, rfl⟩
  simp only [List.zipIdx_cons, List.foldlM_cons, bind, Except.bind, Option.getD_some, mixtureTurn, withoutPlace, if_neg (not_le.2 haxis), if_pos hl]
  rcases pyGet? (b0 :: bs) axis with _ | b
  · exact ⟨_, rfl⟩
  · dsimp only
    split_ifs
    · exact ⟨_, rfl⟩
    · exact ⟨_, rfl⟩

namespace MixtureArrayDemo

/-- The log-density of a normal variable with unit variance. -/
noncomputable def unit (m : ℕ) (v : FVal) : FVal :=
  match normalLogprob v (fin m) (fin 1) with
  | .ok x => x
  | .error _ => nan

/-- A component with normal elements around the number of the component. -/
noncomputable def comp (m : ℕ) (sh : List ℕ) : MixComp := ⟨sh, fun ps vs => .ok (List.zipWith (fun _ v => unit m v) ps vs)⟩

theorem comp_lp (sh : List ℕ) : ∀ m (h : m < [comp 0 sh, comp 1 sh].length) ps vs, ps.length = vs.length →
    [comp 0 sh, comp 1 sh][m].lp ps vs = .ok (List.zipWith ((fun m _ v => unit m v) m) ps vs)
  | 0, _, _, _, _ => rfl
  | 1, _, _, _, _ => rfl
  | _ + 2, h, _, _, _ => absurd h (by simp)

theorem comp_lp' : ∀ m (h : m < [comp 0 [1], comp 1 [1]].length) ps vs, ps.length = vs.length →
    [comp 0 [1], comp 1 [1]][m].lp ps vs = .ok (vs.map (unit m)) := fun m h ps vs hl => by
  rw [comp_lp [1] m h ps vs hl]
  congr 1
  exact List.ext_getElem (by simp [hl]) fun i h1 h2 => by simp

/-- `[0, 1]` and `[-2, -1]`. -/
def I : Arr ℤ := ⟨[2], fun c => c.headD 0⟩
def J : Arr ℤ := ⟨[2], fun c => (c.headD 0 : ℤ) - 2⟩

theorem hI : ∀ c, InRange c I.shape → 0 ≤ I.get c ∧ I.get c < 2 := fun c hc => by
  cases hc with
  | cons h hc => simp only [I, List.headD_cons]; omega

theorem hJ : ∀ c, InRange c J.shape → -2 ≤ J.get c ∧ J.get c < 0 := fun c hc => by
  cases hc with
  | cons h hc => simp only [J, List.headD_cons]; omega

theorem select {K : Arr ℤ} (h : ∀ c, InRange c K.shape → -((2 : ℕ) : ℤ) ≤ K.get c ∧ K.get c < (2 : ℕ)) (hs : K.shape = [2]) :
    ∃ R, npSelect (List.replicate 0 .newaxis ++ .adv K :: [.slice none none none]) [2, 3] = .ok R := by
  have hi : items (List.replicate 0 .newaxis ++ .adv K :: [.slice none none none]) [2, 3] = .ok [.adv (K.map (wrap 2)), .sl [0, 1, 2]] := by
    simp only [List.replicate_zero, List.nil_append, items]
    rw [if_pos h, if_neg (by decide)]
    rfl
  have hb : bshape [K.shape] = some [2] := by rw [hs]; rfl
  rw [npSelect, hi]
  simp only [bind, Except.bind, List.filterMap_cons, List.filterMap_nil, Item.advShape, Arr.map, hb]
  exact ⟨_, rfl⟩

end MixtureArrayDemo

open MixtureArrayDemo in
example (empty : List ℕ → FVal) (value : Arr FVal) :=
  C63_stack_partial (comps := [comp 0 [1, 3], comp 1 [1, 3]]) (S := [3]) (by simp) (by simp [comp]) (fun m h ps vs hl _ => comp_lp _ m h ps vs hl) (fun c hc => (hI c hc).1)
    (rest := [.slice none none none]) ⟨I, by simp, by simp [I]⟩ (by simp [Index.Ascending])
    (select (K := I) (fun c hc => by have := hI c hc; push_cast; omega) rfl).choose_spec empty value

open MixtureArrayDemo in
example (empty : List ℕ → FVal) (value : Arr FVal) := C63_vector_partial (comps := [comp 0 [1], comp 1 [1]]) (by simp [comp]) comp_lp' hI (by simp [I]) (by simp) empty value

open MixtureArrayDemo in
example (empty : List ℕ → FVal) (value : Arr FVal) :=
  C63_negative_index_wrong (comps := [comp 0 [1, 3], comp 1 [1, 3]]) (S := [3]) (by simp) (by simp [comp]) (fun m h ps vs hl _ => comp_lp _ m h ps vs hl) (fun c hc => (hJ c hc).2)
    (rest := [.slice none none none]) ⟨J, by simp, by simp [J]⟩ (by simp [Index.Ascending])
    (select (K := J) (fun c hc => by have := hJ c hc; push_cast; omega) rfl).choose_spec empty value

open MixtureArrayDemo in
example (empty : List ℕ → FVal) (value : Arr FVal) := C63_concatenate_wrong (comps := [comp 0 [3], comp 1 [3]]) (n := 3) (by simp) (by simp [comp]) (fun m h ps vs hl _ => comp_lp _ m h ps vs hl) hI (by simp [I]) (by simp) empty value

open MixtureArrayDemo in
/-- Two vectors of length three: with `axis=0` the log-probability of `stack[I, :]` is derived, with `axis=-2`, which is the same axis, the derivation raises. -/
example (empty : List ℕ → FVal) (value : Arr FVal) :
    (∃ out, arrayMixtureLogprob (some 0) [.adv I, .slice none none none] [comp 0 [1, 3], comp 1 [1, 3]] empty value = .ok out) ∧
    ∃ e, arrayMixtureLogprob (some (-2)) [.adv I, .slice none none none] [comp 0 [1, 3], comp 1 [1, 3]] empty value = .error e := by
  refine ⟨?_, C63_negative_axis_raises (by simp) (by decide) _ empty value⟩
  obtain ⟨out, h, -⟩ := C63_stack_partial (comps := [comp 0 [1, 3], comp 1 [1, 3]]) (S := [3]) (by simp) (by simp [comp]) (fun m h ps vs hl _ => comp_lp _ m h ps vs hl) (fun c hc => (hI c hc).1)
    (rest := [.slice none none none]) (r := 0) ⟨I, by simp, by simp [I]⟩ (by simp [Index.Ascending])
    (select (K := I) (fun c hc => by have := hI c hc; push_cast; omega) rfl).choose_spec empty value
  exact ⟨out, h⟩

end Verif
