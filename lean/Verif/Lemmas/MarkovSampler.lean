import Verif.Spec.MarkovSampler
import Verif.Lemmas.Broadcast
import Verif.Props.Switching

/-! # Helper lemmas for batches of Markov chains -/

namespace Verif.Markov
open Verif

theorem fitsIn_antisymm {s t : List ℕ} (h1 : FitsIn s t) (h2 : FitsIn t s) : s = t := by
  have hl : s.length = t.length := le_antisymm h2.1 h1.1
  refine List.ext_getElem hl fun d hd hd' => ?_
  have e1 := h1.2 d hd
  have e2 := h2.2 d hd'
  rw [hl, padded_self hd'] at e1
  rw [← hl, padded_self hd] at e2
  omega

theorem project_suffix {a b t : List ℕ} (h : t.length ≤ b.length) : project (a ++ b) t = project b t := by
  simp only [project]
  congr 1
  rw [List.length_append, List.drop_append, List.drop_eq_nil_of_le (by omega), List.nil_append]
  congr 1
  omega

theorem items_nil (n : ℕ) : items [] [n] = .ok [.sl (List.range n)] := by simp only [items]; rfl

theorem items_adv_more {as : List (Arr ℤ)} {sh : List ℕ} (m : ℕ)
    (h : List.Forall₂ (fun (a : Arr ℤ) (n : ℕ) => ∀ c, InRange c a.shape → -(n : ℤ) ≤ a.get c ∧ a.get c < n) as sh) :
    items (as.map Index.adv) (sh ++ [m]) = .ok (List.zipWith (fun a n => Item.adv (a.map (wrap n))) as sh ++ [.sl (List.range m)]) := by
  induction h with
  | nil => exact items_nil m
  | cons h1 _ ih =>
    simp only [List.map_cons, List.cons_append, items, List.zipWith_cons_cons]
    rw [if_pos h1, ih]
    rfl

theorem pick_adv_more (c : List ℕ) (m j : ℕ) (hj : j < m) : ∀ (as : List (Arr ℤ)) (sh : List ℕ),
    pick c (List.zipWith (fun a n => Item.adv (a.map (wrap n))) as sh ++ [.sl (List.range m)]) [j] = List.zipWith (fun a n => wrap n (a.get (project c a.shape))) as sh ++ [j]
  | [], _ => by simp [pick, hj]
  | _ :: _, [] => by simp [pick, hj]
  | a :: as, n :: sh => by
    simp only [List.zipWith_cons_cons, List.cons_append, pick, pick_adv_more c m j hj as sh]
    rfl

/-- NumPy indexing with integer arrays for all axes but the last. -/
theorem npSelect_last {as : List (Arr ℤ)} {sh s : List ℕ} {m : ℕ} (hne : as ≠ []) (hs : bshape (as.map Arr.shape) = some s)
    (h : List.Forall₂ (fun (a : Arr ℤ) (n : ℕ) => ∀ c, InRange c a.shape → -(n : ℤ) ≤ a.get c ∧ a.get c < n) as sh) :
    ∃ R, npSelect (as.map Index.adv) (sh ++ [m]) = .ok R ∧ R.shape = s ++ [m] ∧
      ∀ c j, InRange c s → j < m → R.get (c ++ [j]) = List.zipWith (fun a n => wrap n (a.get (project c a.shape))) as sh ++ [j] := by
  have hl := h.length_eq
  have hadv : ∀ (as : List (Arr ℤ)) (sh : List ℕ), (List.zipWith (fun a n => Item.adv (a.map (wrap n))) as sh).filter Item.basic = [] := fun as sh => by
    rw [List.filter_eq_nil_iff]
    intro i hi
    obtain ⟨n, hn, rfl⟩ := List.mem_iff_getElem.1 hi
    simp [Item.basic]
  have hshape : ∀ (as : List (Arr ℤ)) (sh : List ℕ), as.length = sh.length →
      (List.zipWith (fun a n => Item.adv (a.map (wrap n))) as sh).filterMap Item.advShape = as.map Arr.shape := by
    intro as
    induction as with
    | nil => simp
    | cons a as ih =>
      rintro (_ | ⟨n, sh⟩) hl
      · simp at hl
      · rw [List.zipWith_cons_cons, List.filterMap_cons, ih sh (by simpa using hl)]; rfl
  have hk : blockAt (List.zipWith (fun a n => Item.adv (a.map (wrap n))) as sh ++ [.sl (List.range m)]) = 0 := by
    rw [blockAt]
    split
    · rcases as with _ | ⟨a, as⟩
      · exact absurd rfl hne
      · rcases sh with _ | ⟨n, sh⟩
        · simp at hl
        · simp [Item.basic]
    · rfl
  have hb : bshape ((List.zipWith (fun (a : Arr ℤ) (n : ℕ) => Item.adv (a.map (wrap n))) as sh ++ [Item.sl (List.range m)]).filterMap Item.advShape) = some s := by
    rw [List.filterMap_append, hshape as sh hl, show [Item.sl (List.range m)].filterMap Item.advShape = [] from rfl, List.append_nil]
    exact hs
  refine ⟨_, by rw [npSelect, items_adv_more m h]; simp only [bind, Except.bind, hb]; rfl, ?_, fun c j hc hj => ?_⟩
  · simp only [hk, List.take_zero, List.nil_append, List.drop_zero, List.filter_append, hadv]
    rw [show [Item.sl (List.range m)].filter Item.basic = [Item.sl (List.range m)] from rfl]
    simp [Item.len]
  · simp only [hk, List.drop_zero, List.take_zero, List.nil_append, Nat.zero_add]
    have hcl := hc.length_eq
    rw [List.take_left' hcl, List.drop_left' hcl, pick_adv_more c m j hj]

theorem ogrid_fits {S : List ℕ} {k : ℕ} (hk : k < S.length) : FitsIn S (ogridArr S k).shape := by
  refine ⟨by simp [ogridArr], fun d hd => ?_⟩
  have hl : (ogridArr S k).shape.length = S.length := by simp [ogridArr]
  have hd' : d < (ogridArr S k).shape.length := by omega
  have := padded_self hd'
  rw [← hl, this]
  simp only [ogridArr, List.getElem_set, List.getElem_replicate]
  split
  · rename_i h
    subst h
    exact .inr (by rw [List.getD_eq_getElem _ _ hd])
  · exact .inl rfl

/-- The grid arrays select every place. -/
theorem ogrid_places {S c : List ℕ} (hc : InRange c S) : List.zipWith (fun (a : Arr ℤ) n => wrap n (a.get (project c a.shape))) (ogrid S) S = c := by
  have hcl := hc.length_eq
  refine List.ext_getElem (by simp [ogrid, hcl]) fun k h1 h2 => ?_
  have hk : k < S.length := by omega
  have hck : c[k] < S[k] := (List.forall₂_iff_get.1 hc).2 k h2 hk
  simp only [List.getElem_zipWith, ogrid, List.getElem_map, List.getElem_range]
  have hl : (ogridArr S k).shape.length = S.length := by simp [ogridArr]
  have e : (ogridArr S k).get (project c (ogridArr S k).shape) = ((c[k] : ℕ) : ℤ) := by
    show (((project c (ogridArr S k).shape).getD k 0 : ℕ) : ℤ) = _
    have hpl : (project c (ogridArr S k).shape).length = S.length := by rw [project_length (by omega), hl]
    rw [List.getD_eq_getElem _ _ (by omega), project_getElem (by omega)]
    split
    · rename_i h
      simp only [ogridArr, List.getElem_set_self, List.getD_eq_getElem _ _ hk] at h
      omega
    · congr 2
      omega
  rw [e, wrap, if_neg (by omega), Int.toNat_natCast]

theorem ogrid_ranges (S : List ℕ) : List.Forall₂ (fun (a : Arr ℤ) (n : ℕ) => ∀ c, InRange c a.shape → -(n : ℤ) ≤ a.get c ∧ a.get c < n) (ogrid S) S := by
  refine List.forall₂_iff_get.2 ⟨by simp [ogrid], fun k h1 h2 c hc => ?_⟩
  simp only [ogrid, List.get_eq_getElem, List.getElem_map, List.getElem_range] at hc ⊢
  have hl := hc.length_eq
  have hl' : (ogridArr S k).shape.length = S.length := by simp [ogridArr]
  have := (List.forall₂_iff_get.1 hc).2 k (by omega) (by omega)
  simp only [List.get_eq_getElem, ogridArr, List.getElem_set_self, List.getD_eq_getElem _ _ h2] at this
  show -(S[k] : ℤ) ≤ ((c.getD k 0 : ℕ) : ℤ) ∧ ((c.getD k 0 : ℕ) : ℤ) < S[k]
  rw [List.getD_eq_getElem _ _ (by omega)]
  omega

/-- What `gamma_t[idx]` selects: at each place the row of the state at the place. -/
theorem select_rows {S : List ℕ} {M m : ℕ} {st : Arr ℤ} (hst : st.shape = S) (hr : ∀ c, InRange c S → 0 ≤ st.get c ∧ st.get c < M) :
    ∃ R, npSelect ((ogrid S ++ [st]).map Index.adv) (S ++ [M, m]) = .ok R ∧ R.shape = S ++ [m] ∧
      ∀ c j, InRange c S → j < m → R.get (c ++ [j]) = c ++ [(st.get c).toNat, j] := by
  have hb : bshape ((ogrid S ++ [st]).map Arr.shape) = some S := by
    obtain ⟨b, h1, h2, h3⟩ := bshape_fits (s := S) (ts := (ogrid S ++ [st]).map Arr.shape) fun t ht => by
      obtain ⟨a, ha, rfl⟩ := List.mem_map.1 ht
      rcases List.mem_append.1 ha with ha | ha
      · simp only [ogrid, List.mem_map, List.mem_range] at ha
        obtain ⟨k, hk, rfl⟩ := ha
        exact ogrid_fits hk
      · rw [List.mem_singleton.1 ha, hst]
        exact fitsIn_refl S
    rw [h1, fitsIn_antisymm h2 (h3 S (by rw [List.map_append, List.map_cons, hst]; simp))]
  have hF : List.Forall₂ (fun (a : Arr ℤ) (n : ℕ) => ∀ c, InRange c a.shape → -(n : ℤ) ≤ a.get c ∧ a.get c < n) (ogrid S ++ [st]) (S ++ [M]) :=
    List.rel_append (ogrid_ranges S) (.cons (fun c hc => by have := hr c (hst ▸ hc); omega) .nil)
  obtain ⟨R, h1, h2, h3⟩ := npSelect_last (m := m) (by simp) hb hF
  rw [List.append_assoc] at h1
  refine ⟨R, h1, h2, fun c j hc hj => ?_⟩
  rw [h3 c j hc hj, List.zipWith_append (by simp [ogrid]), ogrid_places hc, List.append_assoc]
  simp only [List.zipWith_cons_cons, List.zipWith_nil_left, hst, project_self hc, wrap]
  rw [if_neg (by have := hr c hc; omega)]
  rfl

theorem inRange_append {a b s t : List ℕ} (h1 : InRange a s) (h2 : InRange b t) : InRange (a ++ b) (s ++ t) := List.rel_append h1 h2

end Verif.Markov
