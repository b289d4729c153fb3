import Verif.Props.Indices

/-! # Shapes that broadcast into another shape -/

namespace Verif

/-- The shape `t` can be broadcast into `s` without changing `s`. -/
def FitsIn (s t : List ℕ) : Prop := t.length ≤ s.length ∧ ∀ d (h : d < s.length), padded s.length t d = 1 ∨ padded s.length t d = s[d]

theorem padded_low {N i : ℕ} {t : List ℕ} (h : i < N - t.length) : padded N t i = 1 := by
  rw [padded, List.getD_append _ _ _ _ (by simpa using h), List.getD_eq_getElem _ _ (by simpa using h), List.getElem_replicate]

theorem padded_high {N i : ℕ} {t : List ℕ} (hN : t.length ≤ N) (h : i < t.length) : padded N t (N - t.length + i) = t[i] := by
  rw [padded, List.getD_append_right _ _ _ _ (by simp), List.length_replicate, Nat.add_sub_cancel_left, List.getD_eq_getElem]

theorem padded_shift {N M i : ℕ} {t : List ℕ} (ht : t.length ≤ N) (hN : N ≤ M) : padded M t (M - N + i) = padded N t i := by
  by_cases h : i < N - t.length
  · rw [padded_low h, padded_low (by omega)]
  · by_cases h2 : i < N
    · obtain ⟨j, rfl⟩ : ∃ j, i = N - t.length + j := ⟨i - (N - t.length), by omega⟩
      rw [padded_high ht (by omega), show M - N + (N - t.length + j) = M - t.length + j by omega, padded_high (by omega) (by omega)]
    · rw [padded, padded, List.getD_eq_default _ _ (by simp; omega), List.getD_eq_default _ _ (by simp; omega)]

theorem padded_self {s : List ℕ} {d : ℕ} (h : d < s.length) : padded s.length s d = s[d] := by
  have := padded_high (N := s.length) (t := s) le_rfl h
  rwa [Nat.sub_self, Nat.zero_add] at this

theorem fitsIn_refl (s : List ℕ) : FitsIn s s := ⟨le_rfl, fun d h => .inr (padded_self h)⟩

theorem bshape_cons_iff {s : List ℕ} {ts : List (List ℕ)} : bshape (s :: ts) = some s ↔ ∀ t ∈ ts, FitsIn s t := by
  rw [bshape_some]
  constructor
  · rintro ⟨h1, h2⟩ t ht
    refine ⟨h1 ▸ le_maxDims (by simp [ht]), fun d hd => ?_⟩
    have := (h2 d hd).1 t (by simp [ht])
    rwa [← h1] at this
  · intro h
    have hm : s.length = maxDims (s :: ts) := by
      refine le_antisymm (le_maxDims (by simp)) (maxDims_le fun t ht => ?_)
      rcases List.mem_cons.1 ht with rfl | ht
      · exact le_rfl
      · exact (h t ht).1
    refine ⟨hm, fun d hd => ⟨fun t ht => ?_, fun _ => ⟨s, by simp, ?_⟩⟩⟩
    · rw [← hm]
      rcases List.mem_cons.1 ht with rfl | ht
      · exact .inr (padded_self hd)
      · exact (h t ht).2 d hd
    · rw [← hm, padded_self hd]

theorem fitsIn_iff {s t : List ℕ} : FitsIn s t ↔ bshape [s, t] = some s := by simp [bshape_cons_iff]

/-- Shapes that fit into `s` can be broadcast together, and the result fits into `s`. -/
theorem bshape_fits {s : List ℕ} {ts : List (List ℕ)} (h : ∀ t ∈ ts, FitsIn s t) : ∃ b, bshape ts = some b ∧ FitsIn s b ∧ ∀ t ∈ ts, FitsIn b t := by
  classical
  set N := maxDims ts with hN
  have hNs : N ≤ s.length := maxDims_le fun t ht => (h t ht).1
  let b : List ℕ := (List.range N).map fun d => if ∃ t ∈ ts, padded N t d ≠ 1 then s.getD (s.length - N + d) 1 else 1
  have hbl : b.length = N := by simp [b]
  have hbd : ∀ d (hd : d < b.length), b[d] = if ∃ t ∈ ts, padded N t d ≠ 1 then s.getD (s.length - N + d) 1 else 1 := fun d hd => by simp [b]
  have hp : ∀ t ∈ ts, ∀ d, d < N → padded N t d = 1 ∨ padded N t d = s.getD (s.length - N + d) 1 := fun t ht d hd => by
    have := (h t ht).2 (s.length - N + d) (by omega)
    rw [padded_shift (le_maxDims ht) hNs] at this
    rwa [List.getD_eq_getElem _ _ (by omega)]
  have hall : ∀ t ∈ ts, ∀ d (hd : d < b.length), padded N t d = 1 ∨ padded N t d = b[d] := fun t ht d hd => by
    rw [hbd d hd]
    rcases hp t ht d (hbl ▸ hd) with h1 | h1
    · exact .inl h1
    · by_cases h2 : padded N t d = 1
      · exact .inl h2
      · rw [if_pos ⟨t, ht, h2⟩]
        exact .inr h1
  refine ⟨b, bshape_some.2 ⟨hbl, fun d hd => ⟨fun t ht => hall t ht d hd, fun hne => ?_⟩⟩, ⟨by omega, fun d hd => ?_⟩, fun t ht => ⟨hbl ▸ le_maxDims ht, fun d hd => ?_⟩⟩
  · rw [hbd d hd] at hne ⊢
    split_ifs at hne ⊢ with h1
    · obtain ⟨t, ht, h2⟩ := h1
      exact ⟨t, ht, (hp t ht d (hbl ▸ hd)).resolve_left h2⟩
    · exact absurd rfl hne
  · by_cases hlow : d < s.length - N
    · exact .inl (padded_low (by omega))
    · obtain ⟨e, rfl⟩ : ∃ e, d = s.length - N + e := ⟨d - (s.length - N), by omega⟩
      have he : e < b.length := by omega
      have := padded_high (N := s.length) (t := b) (by omega) he
      rw [show s.length - b.length + e = s.length - N + e by omega] at this
      rw [this, hbd e he]
      split_ifs
      · exact .inr (List.getD_eq_getElem _ _ (by omega))
      · exact .inl rfl
  · rw [hbl]
    exact hall t ht d hd

theorem project_inRange_fits {s t c : List ℕ} (h : FitsIn s t) (hc : InRange c s) : InRange (project c t) t := by
  have hcl := hc.length_eq
  refine List.forall₂_iff_get.2 ⟨project_length (by rw [hcl]; exact h.1), fun i h1 h2 => ?_⟩
  simp only [List.get_eq_getElem]
  have := h.1
  rw [project_getElem (by omega)]
  split
  · omega
  · rename_i hne
    have hd : s.length - t.length + i < s.length := by omega
    have h3 := h.2 _ hd
    rw [padded_high h.1 h2] at h3
    rw [h3.resolve_left hne]
    have h4 := (List.forall₂_iff_get.1 hc).2 (s.length - t.length + i) (by omega) hd
    simp only [List.get_eq_getElem] at h4
    simpa only [hcl] using h4

/-- Broadcasting in two steps. -/
theorem project_project {s b t c : List ℕ} (hb : FitsIn s b) (ht : FitsIn b t) (hc : InRange c s) : project (project c b) t = project c t := by
  have hcl := hc.length_eq
  have h1 := hb.1
  have h2 := ht.1
  have hpl : (project c b).length = b.length := project_length (by omega)
  refine List.ext_getElem (by rw [project_length (by omega), project_length (by omega)]) fun i hi hi' => ?_
  have hit : i < t.length := by rwa [project_length (by omega)] at hi'
  have e1 := project_getElem (c := project c b) (sh := t) (by omega) hi
  have e2 := project_getElem (c := c) (sh := t) (by omega) hi'
  rw [e1, e2]
  split
  · rfl
  · rename_i hne
    have h3 := ht.2 (b.length - t.length + i) (by omega)
    rw [padded_high ht.1 hit] at h3
    have h4 := h3.resolve_left hne
    rw [project_getElem (by omega)]
    simp only [hpl]
    rw [if_neg (by rw [← h4]; exact hne)]
    congr 1
    omega

theorem fitsIn_trans {s b t : List ℕ} (hb : FitsIn s b) (ht : FitsIn b t) : FitsIn s t := by
  refine ⟨ht.1.trans hb.1, fun d hd => ?_⟩
  by_cases hlow : d < s.length - b.length
  · exact .inl (padded_low (by have := ht.1; omega))
  · obtain ⟨e, rfl⟩ : ∃ e, d = s.length - b.length + e := ⟨d - (s.length - b.length), by omega⟩
    have he : e < b.length := by omega
    rw [padded_shift ht.1 hb.1]
    rcases ht.2 e he with h1 | h1
    · exact .inl h1
    · rw [h1]
      have := hb.2 _ hd
      rwa [padded_high hb.1 he] at this

theorem fitsIn_of_bshape {s : List ℕ} {ts : List (List ℕ)} (h : bshape ts = some s) {t : List ℕ} (ht : t ∈ ts) : FitsIn s t := by
  obtain ⟨h1, h2⟩ := bshape_some.1 h
  refine ⟨h1 ▸ le_maxDims ht, fun d hd => ?_⟩
  have := (h2 d hd).1 t ht
  rwa [← h1] at this

theorem fitsIn_suffix (a b : List ℕ) : FitsIn (a ++ b) b := by
  refine ⟨by simp, fun d hd => ?_⟩
  by_cases h : d < a.length
  · exact .inl (padded_low (by simpa using h))
  · obtain ⟨e, rfl⟩ : ∃ e, d = a.length + e := ⟨d - a.length, by omega⟩
    have he : e < b.length := by simp at hd; omega
    have := padded_high (N := (a ++ b).length) (t := b) (by simp) he
    rw [show (a ++ b).length - b.length + e = a.length + e by simp] at this
    rw [this]
    exact .inr (by simp)

end Verif
