import Verif.Props.MixtureBasic

/-! # C63: stacks along other axes than the first, with array indices -/

namespace Verif
open FVal

theorem checked_nonneg {nout : ℕ} {E : Arr ℤ} {X : Except Err (List (Arr ℤ))} {l : List (Arr ℤ)}
    (h : (if nout < E.ndim then .error .assertion else do let adv ← X; return E :: adv) = Except.ok l) : ∃ l', X = .ok l' ∧ l = E :: l' := by
  split at h
  · cases h
  · obtain ⟨l', h1, h2⟩ := bind_ok h
    cases h2
    exact ⟨l', h1, rfl⟩

theorem ofList_nonneg {l : List ℤ} (h : ∀ z ∈ l, 0 ≤ z) (c : List ℕ) : 0 ≤ (Arr.ofList l).get c := by
  rw [Arr.ofList]
  dsimp only
  rw [List.getD_eq_getElem?_getD]
  rcases he : l[c.headD 0]? with _ | z
  · exact le_refl _
  · exact h z (List.mem_of_getElem? he)

/-- Expanded indices are not negative if the indices are not. -/
theorem expandLoop_nonneg {moved : Bool} {first nb ns nout : ℕ} : ∀ {d j : ℕ} {idx : List Index} {shape : List ℕ} {l : List (Arr ℤ)},
    (∀ i ∈ idx, i.Ascending) → (∀ a, Index.adv a ∈ idx → ∀ c, 0 ≤ a.get c) → expandLoop moved first nb ns nout d j idx shape = .ok l → ∀ E ∈ l, ∀ c, 0 ≤ E.get c
  | _, _, [], _, _, _, _, h => by rw [expandLoop] at h; cases h; simp
  | d, j, .newaxis :: idx, shape, l, ha, hn, h => by
    rw [expandLoop] at h
    exact expandLoop_nonneg (fun i hi => ha i (by simp [hi])) (fun a h => hn a (by simp [h])) h
  | d, j, .slice a b c :: idx, [], l, _, _, h => by rw [expandLoop] at h; cases h; simp
  | d, j, .adv a :: idx, [], l, _, _, h => by rw [expandLoop] at h; cases h; simp
  | d, j, .adv a :: idx, n :: shape, l, ha, hn, h => by
    rw [expandLoop] at h
    obtain ⟨l', h1, rfl⟩ := checked_nonneg h
    intro E hE c
    rw [List.mem_cons] at hE
    rcases hE with rfl | hE
    · split_ifs
      · exact hn a (by simp) _
      · exact hn a (by simp) _
    · exact expandLoop_nonneg (fun i hi => ha i (by simp [hi])) (fun a h => hn a (by simp [h])) h1 E hE c
  | d, j, .slice a b c :: idx, n :: shape, l, ha, hn, h => by
    rw [expandLoop] at h
    obtain ⟨ps, hps, h⟩ := bind_ok h
    obtain ⟨l', h1, rfl⟩ := checked_nonneg h
    have hps' : ∀ z ∈ ps, 0 ≤ z := by
      obtain ⟨h2, h0⟩ := canonical_ascending (n := n) (ha (.slice a b c) (by simp))
      rw [hps] at h2
      cases h2
      exact fun z hz => (slicePositions_range h0 hz).1
    intro E hE c
    rw [List.mem_cons] at hE
    rcases hE with rfl | hE
    · split_ifs
      · exact ofList_nonneg hps' _
      · exact ofList_nonneg hps' _
      · exact ofList_nonneg hps' _
    · exact expandLoop_nonneg (fun i hi => ha i (by simp [hi])) (fun a h => hn a (by simp [h])) h1 E hE c

theorem expandIndices_nonneg {idx : List Index} {shape : List ℕ} {l : List (Arr ℤ)} (hasc : ∀ i ∈ idx, i.Ascending) (hnn : ∀ a, Index.adv a ∈ idx → ∀ c, 0 ≤ a.get c)
    (h : expandIndices idx shape = .ok l) : ∀ E ∈ l, ∀ c, 0 ≤ E.get c := by
  rw [expandIndices] at h
  obtain ⟨l', h1, h2⟩ := bind_ok h
  have h3 := expandLoop_nonneg (fun i hi => by
    rw [fullIndices, List.mem_append, List.mem_replicate] at hi
    rcases hi with hi | ⟨-, rfl⟩
    · exact hasc i hi
    · trivial) (fun a ha => by
    rw [fullIndices, List.mem_append, List.mem_replicate] at ha
    rcases ha with ha | ⟨-, ha⟩
    · exact hnn a ha
    · cases ha) h1
  rw [broadcastArrays] at h2
  split at h2
  · cases h2
    intro E hE c
    obtain ⟨E', hE', rfl⟩ := List.mem_map.1 hE
    exact h3 E' hE' _
  · cases h2

/-- The entries of an index tuple that belong to axes. -/
def axesOf (idx : List Index) : ℕ := (idx.filter fun i => ! i.isNewaxis).length

/-- The size of an axis does not matter if an integer array indexes it. -/
theorem expand_axis {m n : ℕ} {S1 S2 : List ℕ} {pre : List Index} (hpre : axesOf pre = S1.length) {I : Arr ℤ} {rest : List Index} :
    expandIndices (pre ++ .adv I :: rest) (S1 ++ m :: S2) = expandIndices (pre ++ .adv I :: rest) (S1 ++ n :: S2) := by
  have hloop : ∀ (moved : Bool) (first nb ns nout : ℕ) (fi : List Index) (pre : List Index) (S1 : List ℕ) (d j : ℕ), axesOf pre = S1.length →
      expandLoop moved first nb ns nout d j (pre ++ .adv I :: fi) (S1 ++ m :: S2) = expandLoop moved first nb ns nout d j (pre ++ .adv I :: fi) (S1 ++ n :: S2) := by
    intro moved first nb ns nout fi pre
    induction pre with
    | nil =>
      intro S1 d j h
      obtain rfl : S1 = [] := List.length_eq_zero_iff.1 (by rw [← h]; rfl)
      rw [List.nil_append, List.nil_append, List.nil_append, expandLoop, expandLoop]
    | cons i pre ih =>
      intro S1 d j h
      cases i with
      | newaxis =>
        rw [List.cons_append, expandLoop, expandLoop]
        exact ih S1 _ _ (by rw [← h]; simp [axesOf, Index.isNewaxis])
      | adv a =>
        rcases S1 with _ | ⟨s, S1⟩
        · simp [axesOf, Index.isNewaxis] at h
        · have h' : axesOf pre = S1.length := by simpa [axesOf, Index.isNewaxis] using h
          rw [List.cons_append, List.cons_append, List.cons_append, expandLoop, expandLoop, ih S1 _ _ h']
      | slice a b c =>
        rcases S1 with _ | ⟨s, S1⟩
        · simp [axesOf, Index.isNewaxis] at h
        · have h' : axesOf pre = S1.length := by simpa [axesOf, Index.isNewaxis] using h
          rw [List.cons_append, List.cons_append, List.cons_append, expandLoop, expandLoop, ih S1 _ _ h']
  have hfull : fullIndices (pre ++ .adv I :: rest) (S1 ++ m :: S2) = fullIndices (pre ++ .adv I :: rest) (S1 ++ n :: S2) := by
    simp only [fullIndices, List.length_append, List.length_cons]
  simp only [expandIndices, List.length_append, List.length_cons]
  rw [hfull]
  obtain ⟨fi, hfi⟩ : ∃ fi, fullIndices (pre ++ .adv I :: rest) (S1 ++ n :: S2) = pre ++ .adv I :: fi := by
    rw [fullIndices]; simp
  rw [hfi]
  simp only [hloop _ _ _ _ _ _ _ _ _ _ hpre]

theorem foldlM_one_raises {α β : Type} {f : β → α → Except Err β} {x : α} (hx : ∀ acc, ∃ e, f acc x = .error e) : ∀ {l : List α}, x ∈ l → ∀ acc, ∃ e, l.foldlM f acc = .error e
  | a :: l, h, acc => by
    rw [List.foldlM_cons]
    rcases hf : f acc a with e | acc'
    · exact ⟨e, rfl⟩
    · rw [List.mem_cons] at h
      rcases h with rfl | h
      · obtain ⟨e, he⟩ := hx acc
        rw [he] at hf
        cases hf
      · exact foldlM_one_raises hx h acc'

theorem mapM_one_raises {α β : Type} {f : α → Except Err β} {x : α} (hx : ∃ e, f x = .error e) : ∀ {l : List α}, x ∈ l → ∃ e, l.mapM f = .error e
  | a :: l, h => by
    rw [List.mapM_cons]
    rcases hf : f a with e | b
    · exact ⟨e, rfl⟩
    · rw [List.mem_cons] at h
      rcases h with rfl | h
      · obtain ⟨e, he⟩ := hx
        rw [he] at hf
        cases hf
      · obtain ⟨e, he⟩ := mapM_one_raises hx h
        exact ⟨e, by rw [he]; rfl⟩

/-- What `expand_indices` returns for indices that are not negative. -/
theorem expand_nonneg_spec {idx : List Index} {shape : List ℕ} (hsh : shape ≠ []) (hasc : ∀ i ∈ idx, i.Ascending) (hnn : ∀ a, Index.adv a ∈ idx → ∀ c, 0 ≤ a.get c) {R : Arr (List ℕ)}
    (h : npSelect idx shape = .ok R) :
    ∃ adv, expandIndices idx shape = .ok adv ∧ adv.length = shape.length ∧ (∀ a ∈ adv, a.shape = R.shape) ∧ (∀ a ∈ adv, ∀ c, 0 ≤ a.get c) ∧
      (∀ c, InRange c R.shape → R.get c = adv.map fun a => (a.get c).toNat) ∧ ∀ c, InRange c R.shape → InRange (R.get c) shape := by
  obtain ⟨adv, h1, h2, h3, h4, h5, -⟩ := expand_spec hsh hasc h
  have hn := expandIndices_nonneg hasc hnn h1
  have h6 : ∀ c, InRange c R.shape → R.get c = adv.map fun a => (a.get c).toNat := fun c hc => by
    rw [h5 c hc]
    refine List.ext_getElem (by simp [h2]) fun i hi hi' => ?_
    simp only [List.length_map] at hi'
    rw [List.getElem_zipWith, List.getElem_map, wrap, if_neg (not_lt.2 (hn _ (List.getElem_mem hi') c))]
  refine ⟨adv, h1, h2, h3, hn, h6, fun c hc => ?_⟩
  rw [h6 c hc, InRange, List.forall₂_map_left_iff]
  refine (h4 c hc).imp fun a n h => ?_
  omega

theorem getElem?_of_map {α : Type} {l : List α} {g : α → ℕ} {k : ℕ} (h : k < l.length) : ∃ b, l[k]? = some b ∧ b ∈ l ∧ (l.map g).getD k 0 = g b :=
  ⟨l[k], List.getElem?_eq_getElem h, List.getElem_mem h, by rw [List.getD_eq_getElem _ _ (by simpa using h), List.getElem_map]⟩

theorem wrap_map {l : List (Arr ℤ)} {c : List ℕ} (hn : ∀ a ∈ l, 0 ≤ a.get c) {S : List ℕ} (hl : l.length = S.length) :
    List.zipWith (fun z n => wrap n z) (l.map fun v => v.get c) S = l.map fun a => (a.get c).toNat := by
  refine List.ext_getElem (by simp [hl]) fun i hi hi' => ?_
  simp only [List.length_map] at hi'
  rw [List.getElem_zipWith, List.getElem_map, List.getElem_map, wrap, if_neg (not_lt.2 (hn _ (List.getElem_mem hi')))]

/-- **C63** (other axes) Any number of components of any shape, stacked along a new axis other than the first, indexed with arrays of integers that are not negative, ascending slices and `newaxis`, with an array
along the stacked axis; `R` is the selection.  `rv[0]` drops the first axis of the component instead of the stacked one, so the coordinates before the stacked axis are used for the axes after their own: if these
coordinates exist, then at every place the derived log-probability is that of the element `(0, i₀, .., iₖ₋₁, iₖ₊₁, ..)` of the selected component, in place of `(i₀, .., iₖ₋₁, 0, iₖ₊₁, ..)`. -/
theorem C63_shifted {comps : List MixComp} {n0 : ℕ} {S1 S2 : List ℕ} {f : ℕ → List ℕ → FVal → FVal} (hne : comps ≠ []) (hshape : ∀ c ∈ comps, c.shape = n0 :: S1 ++ 1 :: S2)
    (hlp : ∀ m (h : m < comps.length) ps vs, ps.length = vs.length → (∀ p ∈ ps, InRange p (1 :: (S1 ++ 1 :: S2))) → comps[m].lp ps vs = .ok (List.zipWith (f m) ps vs))
    {pre : List Index} (hpre : axesOf pre = S1.length + 1) {I : Arr ℤ} {rest : List Index} (hasc : ∀ i ∈ pre ++ .adv I :: rest, i.Ascending)
    (hnn : ∀ a, Index.adv a ∈ pre ++ .adv I :: rest → ∀ c, 0 ≤ a.get c) {R : Arr (List ℕ)} (hR : npSelect (pre ++ .adv I :: rest) (n0 :: S1 ++ comps.length :: S2) = .ok R) (hR0 : R.shape ≠ [])
    (hin : ∀ c, InRange c R.shape → InRange ((R.get c).eraseIdx (S1.length + 1)) (S1 ++ 1 :: S2)) (empty : List ℕ → FVal) (value : Arr FVal) :
    ∃ out, arrayMixtureLogprob (some (S1.length + 1 : ℕ)) (pre ++ .adv I :: rest) comps empty value = .ok out ∧ out.shape = R.shape ∧
      ∀ c, InRange c R.shape → (R.get c).getD (S1.length + 1) 0 < comps.length ∧
        out.get c = f ((R.get c).getD (S1.length + 1) 0) (0 :: (R.get c).eraseIdx (S1.length + 1)) (value.get c) := by
  obtain ⟨adv, h1, h2, h3, h4, h5, h6⟩ := expand_nonneg_spec (by simp) hasc hnn hR
  have hk : S1.length + 1 < adv.length := by rw [h2]; simp
  obtain ⟨b, hb, hbm, -⟩ := getElem?_of_map (g := fun _ => 0) hk
  have hbs : b.shape = R.shape := h3 b hbm
  have hlen : (adv.eraseIdx (S1.length + 1)).length = (S1 ++ 1 :: S2).length := by
    rw [List.length_eraseIdx_of_lt hk, h2]; simp
  have hnn' : ∀ c, ∀ a ∈ adv.eraseIdx (S1.length + 1), 0 ≤ a.get c := fun c a ha => h4 a (List.mem_of_mem_eraseIdx ha) c
  have hget : ∀ c, InRange c R.shape → (R.get c).getD (S1.length + 1) 0 = (b.get c).toNat := fun c hc => by
    rw [h5 c hc]
    obtain ⟨b', hb', -, h⟩ := getElem?_of_map (g := fun a : Arr ℤ => (a.get c).toNat) hk
    rw [hb] at hb'
    cases hb'
    exact h
  have herase : ∀ c, InRange c R.shape → (R.get c).eraseIdx (S1.length + 1) = (adv.eraseIdx (S1.length + 1)).map fun a => (a.get c).toNat := fun c hc => by
    rw [h5 c hc, List.eraseIdx_map]
  obtain ⟨out, h7, h8, h9⟩ := fold_turn (S := S1 ++ 1 :: S2) (f := f) (b := b) (by rw [hbs]; exact hR0) (bcast := adv) (k := S1.length + 1) hb rfl hlen (value := value) (fun c hc => by
      rw [hbs] at hc
      have := hin c hc
      rw [herase c hc, InRange, List.forall₂_map_left_iff] at this
      rw [List.forall₂_map_left_iff]
      refine List.forall₂_iff_get.2 ⟨hlen, fun i hi hi' => ?_⟩
      have h10 := (List.forall₂_iff_get.1 this).2 i hi hi'
      have h11 := hnn' c _ (List.get_mem _ ⟨i, hi⟩)
      omega) comps 0 ⟨R.shape, empty⟩ (fun c hc => ⟨n0, hshape c hc⟩) (fun m h ps vs hl hp => by rw [Nat.zero_add]; exact hlp m h ps vs hl hp)
  refine ⟨out, ?_, h8, fun c hc => ?_⟩
  · rcases comps with _ | ⟨c0, cs⟩
    · exact absurd rfl hne
    simp only [arrayMixtureLogprob, bind, Except.bind, hshape c0 (by simp)]
    rw [expand_axis (n := (c0 :: cs).length) (by rw [hpre]; rfl), h1]
    rcases adv with _ | ⟨b0, bs⟩
    · simp at hk
    · dsimp only
      rw [h3 b0 (by simp)]
      exact h7
  · have hlt : (b.get c).toNat < comps.length := by
      have := h6 c hc
      rw [← hget c hc]
      have hl : S1.length + 1 < (R.get c).length := by rw [this.length_eq]; simp
      rw [List.getD_eq_getElem _ _ hl]
      have h := inRange_getElem this hl (by simp)
      simpa using h
    rw [hget c hc]
    refine ⟨hlt, ?_⟩
    rw [h9 c (by rw [hbs]; exact hc), if_pos, wrap_map (hnn' c) hlen, herase c hc]
    have := h4 b hbm c
    constructor <;> omega

/-- **C63** (other axes, refuted part) If at some place these coordinates do not exist, the derivation raises. -/
theorem C63_shifted_raises {comps : List MixComp} {n0 : ℕ} {S1 S2 : List ℕ} (hshape : ∀ c ∈ comps, c.shape = n0 :: S1 ++ 1 :: S2)
    {pre : List Index} (hpre : axesOf pre = S1.length + 1) {I : Arr ℤ} {rest : List Index} (hasc : ∀ i ∈ pre ++ .adv I :: rest, i.Ascending)
    (hnn : ∀ a, Index.adv a ∈ pre ++ .adv I :: rest → ∀ c, 0 ≤ a.get c) {R : Arr (List ℕ)} (hR : npSelect (pre ++ .adv I :: rest) (n0 :: S1 ++ comps.length :: S2) = .ok R)
    {c : List ℕ} (hc : InRange c R.shape) (hout : ¬ InRange ((R.get c).eraseIdx (S1.length + 1)) (S1 ++ 1 :: S2)) (empty : List ℕ → FVal) (value : Arr FVal) :
    ∃ e, arrayMixtureLogprob (some (S1.length + 1 : ℕ)) (pre ++ .adv I :: rest) comps empty value = .error e := by
  obtain ⟨adv, h1, h2, h3, h4, h5, h6⟩ := expand_nonneg_spec (by simp) hasc hnn hR
  have hk : S1.length + 1 < adv.length := by rw [h2]; simp
  obtain ⟨b, hb, hbm, hbg⟩ := getElem?_of_map (g := fun a : Arr ℤ => (a.get c).toNat) hk
  have hbs : b.shape = R.shape := h3 b hbm
  have hlen : (adv.eraseIdx (S1.length + 1)).length = (S1 ++ 1 :: S2).length := by
    rw [List.length_eraseIdx_of_lt hk, h2]; simp
  have hlt : (b.get c).toNat < comps.length := by
    have := h6 c hc
    rw [← hbg, ← h5 c hc]
    have hl : S1.length + 1 < (R.get c).length := by rw [this.length_eq]; simp
    rw [List.getD_eq_getElem _ _ hl]
    have h := inRange_getElem this hl (by simp)
    simpa using h
  have hmem : (comps[(b.get c).toNat], (b.get c).toNat) ∈ comps.zipIdx := by
    rw [List.mem_zipIdx_iff_getElem?]
    simp [hlt]
  have hco : ∃ e, elementCoord comps[(b.get c).toNat].shape ((adv.eraseIdx (S1.length + 1)).map fun v => v.get c) = .error e := by
    rw [hshape _ (List.getElem_mem hlt), elementCoord, if_neg (by simpa using hlen)]
    rw [if_neg]
    · exact ⟨_, rfl⟩
    · intro h
      refine hout ?_
      rw [h5 c hc, List.eraseIdx_map, InRange, List.forall₂_map_left_iff]
      refine List.forall₂_iff_get.2 ⟨hlen, fun i hi hi' => ?_⟩
      rw [List.all_eq_true] at h
      have hi'' : i < (List.zipWith (fun (z : ℤ) (n : ℕ) => decide (-(n : ℤ) ≤ z ∧ z < n)) ((adv.eraseIdx (S1.length + 1)).map fun v => v.get c) (n0 :: S1 ++ 1 :: S2).tail).length := by
        simp only [List.length_zipWith, List.length_map, List.cons_append, List.tail_cons]; omega
      have := h _ (List.getElem_mem hi'')
      simp only [List.getElem_zipWith, List.getElem_map, id, List.cons_append, List.tail_cons, decide_eq_true_eq] at this
      have h11 := h4 _ (List.mem_of_mem_eraseIdx (List.getElem_mem hi)) c
      simp only [List.get_eq_getElem]
      omega
  rcases comps with _ | ⟨c0, cs⟩
  · simp at hlt
  simp only [arrayMixtureLogprob, bind, Except.bind, hshape c0 (by simp)]
  rw [expand_axis (n := (c0 :: cs).length) (by rw [hpre]; rfl), h1]
  rcases adv with _ | ⟨b0, bs⟩
  · simp at hk
  dsimp only
  refine foldlM_one_raises (x := ((c0 :: cs)[(b.get c).toNat], (b.get c).toNat)) (fun acc => ?_) hmem _
  simp only [mixtureTurn, Option.getD_some, pyGet?_natCast, hb, withoutPlace_natCast]
  by_cases hb0 : b.shape = []
  · exact ⟨_, if_pos hb0⟩
  rw [if_neg hb0]
  split_ifs
  · exact ⟨_, rfl⟩
  · obtain ⟨e, he⟩ := mapM_one_raises (f := fun p => elementCoord (c0 :: cs)[(b.get c).toNat].shape (((b0 :: bs).eraseIdx (S1.length + 1)).map fun v => v.get p)) (x := c) (l := nonzeroEq b (b.get c).toNat) hco (by
      rw [nonzeroEq, List.mem_filter, mem_allCoords]
      refine ⟨by rw [hbs]; exact hc, ?_⟩
      have := h4 b hbm c
      simp only [decide_eq_true_eq]
      omega)
    exact ⟨e, by rw [he]; rfl⟩

namespace MixtureAxisDemo
open MixtureArrayDemo MixtureBasicDemo

/-- A two by two matrix of normal variables with unit variance, whose means are the numbers of their rows, ready to be stacked along the third axis. -/
noncomputable def rows : MixComp := ⟨[2, 2, 1], fun ps vs => .ok (List.zipWith (fun p v => unit (p.headD 0) v) ps vs)⟩

/-- `[:, :1, [0]]` and `[:, :, [0]]`. -/
def first : List Index := [.slice none none none, .slice none (some 1) none]
def both : List Index := [.slice none none none, .slice none none none]

theorem select_first : ∃ R, npSelect (first ++ .adv zeroIdx :: []) (2 :: [2] ++ [rows, rows].length :: []) = .ok R ∧ R.shape = [2, 1, 1] ∧
    ∀ c, InRange c [2, 1, 1] → R.get c = [c.headD 0, 0, 0] := by
  have hz : ∀ c, InRange c zeroIdx.shape → -((2 : ℕ) : ℤ) ≤ zeroIdx.get c ∧ zeroIdx.get c < (2 : ℕ) := fun c _ => by simp [zeroIdx]
  have hi : items (first ++ .adv zeroIdx :: []) (2 :: [2] ++ [rows, rows].length :: []) = .ok [.sl [0, 1], .sl [0], .adv (zeroIdx.map (wrap 2))] := by
    simp only [first, List.cons_append, List.nil_append, items, List.length_cons, List.length_nil]
    rw [if_pos hz, if_neg (by decide), if_neg (by decide)]
    rfl
  rw [npSelect, hi]
  refine ⟨_, rfl, rfl, fun c hc => ?_⟩
  obtain _ | ⟨h1, _ | ⟨h2, _ | ⟨h3, _ | _⟩⟩⟩ := hc
  rename_i i j k
  obtain rfl : j = 0 := by omega
  obtain rfl : k = 0 := by omega
  have : i = 0 ∨ i = 1 := by omega
  rcases this with rfl | rfl <;> rfl

theorem select_both : ∃ R, npSelect (both ++ .adv zeroIdx :: []) (2 :: [2] ++ [rows, rows].length :: []) = .ok R ∧ R.shape = [2, 2, 1] ∧ R.get [1, 1, 0] = [1, 1, 0] := by
  have hz : ∀ c, InRange c zeroIdx.shape → -((2 : ℕ) : ℤ) ≤ zeroIdx.get c ∧ zeroIdx.get c < (2 : ℕ) := fun c _ => by simp [zeroIdx]
  have hi : items (both ++ .adv zeroIdx :: []) (2 :: [2] ++ [rows, rows].length :: []) = .ok [.sl [0, 1], .sl [0, 1], .adv (zeroIdx.map (wrap 2))] := by
    simp only [both, List.cons_append, List.nil_append, items, List.length_cons, List.length_nil]
    rw [if_pos hz, if_neg (by decide), if_neg (by decide)]
    rfl
  rw [npSelect, hi]
  exact ⟨_, rfl, rfl, rfl⟩

theorem rows_lp : ∀ m (h : m < [rows, rows].length) ps vs, [rows, rows][m].lp ps vs = .ok (List.zipWith ((fun _ p v => unit (p.headD 0) v : ℕ → List ℕ → FVal → FVal) m) ps vs)
  | 0, _, _, _ => rfl
  | 1, _, _, _ => rfl
  | _ + 2, h, _, _ => absurd h (by simp)

theorem first_nonneg : ∀ a, Index.adv a ∈ first ++ .adv zeroIdx :: [] → ∀ c, 0 ≤ a.get c := by
  intro a ha c
  simp only [first, List.cons_append, List.nil_append, List.mem_cons, reduceCtorEq, Index.adv.injEq, List.not_mem_nil, or_false, false_or] at ha
  subst ha
  simp [zeroIdx]

theorem both_nonneg : ∀ a, Index.adv a ∈ both ++ .adv zeroIdx :: [] → ∀ c, 0 ≤ a.get c := by
  intro a ha c
  simp only [both, List.cons_append, List.nil_append, List.mem_cons, reduceCtorEq, Index.adv.injEq, List.not_mem_nil, or_false, false_or] at ha
  subst ha
  simp [zeroIdx]

end MixtureAxisDemo

open MixtureArrayDemo MixtureBasicDemo MixtureAxisDemo in
/-- **C63** (refuted part) Two matrices stacked along the third axis, `at.stack([X, Y], axis=2)[:, :1, [0]]`: the second entry selected is `X[1, 0]`, with mean one, but it is given the log-probability of a variable
with mean zero, and nothing is raised. -/
theorem C63_axis_counterexample (empty : List ℕ → FVal) :
    (∃ R, npSelect [.slice none none none, .slice none (some 1) none, .adv zeroIdx] [2, 2, 2] = .ok R ∧ R.shape = [2, 1, 1] ∧ R.get [1, 0, 0] = [1, 0, 0]) ∧
    rows.lp [[1, 0, 0]] [fin 1] = .ok [unit 1 (fin 1)] ∧
    ∃ out, arrayMixtureLogprob (some 2) [.slice none none none, .slice none (some 1) none, .adv zeroIdx] [rows, rows] empty ⟨[2, 1, 1], fun _ => fin 1⟩ = .ok out ∧
      out.get [1, 0, 0] ≠ unit 1 (fin 1) := by
  obtain ⟨R, h1, h2, h3⟩ := select_first
  have hc : InRange [1, 0, 0] [2, 1, 1] := .cons (by omega) (.cons (by omega) (.cons (by omega) .nil))
  obtain ⟨out, h4, -, h5⟩ := C63_shifted (comps := [rows, rows]) (n0 := 2) (S1 := [2]) (S2 := []) (f := fun _ p v => unit (p.headD 0) v) (by simp) (by simp [rows])
    (fun m h ps vs _ _ => rows_lp m h ps vs) (pre := first) rfl (by simp [first, Index.Ascending]) first_nonneg h1 (by simp [h2])
    (fun c hc => by
      rw [h2] at hc
      rw [h3 c hc]
      obtain _ | ⟨h1, _⟩ := hc
      exact .cons h1 (.cons (by omega) .nil)) empty ⟨[2, 1, 1], fun _ => fin 1⟩
  refine ⟨⟨R, h1, h2, h3 _ hc⟩, rfl, out, h4, ?_⟩
  rw [(h5 _ (by rw [h2]; exact hc)).2, h3 _ hc]
  exact fun h => unit_ne h.symm

open MixtureAxisDemo in
/-- All elements of the first matrix, `at.stack([X, Y], axis=2)[:, :, [0]]`. -/
example (empty : List ℕ → FVal) (value : Arr FVal) : ∃ e, arrayMixtureLogprob (some 2) [.slice none none none, .slice none none none, .adv zeroIdx] [rows, rows] empty value = .error e := by
  obtain ⟨R, h1, h2, h3⟩ := select_both
  exact C63_shifted_raises (comps := [rows, rows]) (n0 := 2) (S1 := [2]) (S2 := []) (by simp [rows]) (pre := both) rfl (by simp [both, Index.Ascending]) both_nonneg h1 (c := [1, 1, 0])
    (by rw [h2]; exact .cons (by omega) (.cons (by omega) (.cons (by omega) .nil)))
    (by
      rw [h3]
      intro h
      obtain _ | ⟨-, _ | ⟨h, -⟩⟩ := h
      omega) empty value

end Verif
