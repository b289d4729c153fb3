import Verif.Model.ArrCategorical
import Verif.Props.Vec1
import Verif.Props.ArrTransformSimplex

/-! # Helper lemmas for arrays of categorical variables -/

namespace Verif.ArrGraph
open Verif FVal

theorem padded_replicate {n k : ℕ} {s : List ℕ} (h : k + s.length ≤ n) (d : ℕ) : padded n (List.replicate k 1 ++ s) d = padded n s d := by
  unfold padded
  rw [← List.append_assoc, List.replicate_append_replicate]
  simp only [List.length_append, List.length_replicate]
  congr 3
  omega

theorem maxDims_pair (s t : List ℕ) : maxDims [s, t] = max s.length t.length := by simp [maxDims]

/-- A shape with ones in front broadcasts like the shape itself, as long as it does not get longer than the other one. -/
theorem bshape_pad_right {s v : List ℕ} {k : ℕ} (h : k + v.length = s.length) : bshape [s, List.replicate k 1 ++ v] = bshape [v, s] := by
  have hm : maxDims [s, List.replicate k 1 ++ v] = s.length := by simp [maxDims_pair]; omega
  have hm' : maxDims [v, s] = s.length := by rw [maxDims_pair]; omega
  refine Option.ext fun u => ?_
  show bshape _ = some u ↔ bshape _ = some u
  rw [bshape_some, bshape_some, hm, hm']
  simp only [List.mem_cons, List.not_mem_nil, or_false, forall_eq_or_imp, forall_eq, exists_eq_or_imp, exists_eq_left, padded_replicate (n := s.length) (k := k) (s := v) (by omega)]
  refine and_congr_right fun hl => forall_congr' fun d => forall_congr' fun hd => ?_
  rw [and_comm (a := padded _ s d = 1 ∨ _), or_comm (a := padded _ s d = u[d])]

theorem padded_cons {n a : ℕ} {s : List ℕ} (h : s.length = n) (d : ℕ) : padded (n + 1) (a :: s) (d + 1) = padded n s d := by
  subst h
  simp [padded]

theorem padded_short {n : ℕ} {s : List ℕ} (h : s.length ≤ n) (d : ℕ) : padded (n + 1) s (d + 1) = padded n s d := by
  simp only [padded]
  rw [show n + 1 - s.length = (n - s.length) + 1 by omega, List.replicate_succ, List.cons_append, List.getD_cons_succ]

theorem bshape_cons {N : ℕ} {I B s : List ℕ} (hB : B.length ≤ I.length) (h : bshape [N :: I, B] = some s) :
    ∃ s', s = N :: s' ∧ bshape [List.replicate (I.length - B.length) 1 ++ B, I] = some s' := by
  rw [bshape_some] at h
  have hm : maxDims [N :: I, B] = I.length + 1 := by simp [maxDims_pair]; omega
  rw [hm] at h
  simp only [List.mem_cons, List.not_mem_nil, or_false, forall_eq_or_imp, forall_eq, exists_eq_or_imp, exists_eq_left] at h
  obtain ⟨hl, h⟩ := h
  rcases s with _ | ⟨a, s'⟩
  · simp at hl
  have h0 := h 0 (by simp)
  have e1 : padded (I.length + 1) (N :: I) 0 = N := by simp [padded]
  have e2 : padded (I.length + 1) B 0 = 1 := by
    simp only [padded]
    rw [show I.length + 1 - B.length = (I.length - B.length) + 1 by omega, List.replicate_succ, List.cons_append, List.getD_cons_zero]
  rw [e1, e2] at h0
  simp only [List.getElem_cons_zero] at h0
  have ha : a = N := by
    rcases h0 with ⟨⟨h1 | h1, -⟩, h2⟩
    · by_contra hne
      rcases h2 (by rintro rfl; exact hne h1.symm) with h3 | h3 <;> omega
    · exact h1.symm
  refine ⟨s', by rw [ha], ?_⟩
  rw [bshape_some]
  have hm' : maxDims [List.replicate (I.length - B.length) 1 ++ B, I] = I.length := by simp [maxDims_pair]; omega
  rw [hm']
  simp only [List.mem_cons, List.not_mem_nil, or_false, forall_eq_or_imp, forall_eq, exists_eq_or_imp, exists_eq_left]
  refine ⟨by simpa using hl, fun d hd => ?_⟩
  have := h (d + 1) (by simpa using hd)
  simp only [padded_cons rfl, padded_short hB, List.getElem_cons_succ] at this
  rw [padded_replicate (by omega)]
  exact ⟨⟨this.1.2, this.1.1⟩, fun hne => (this.2 hne).symm⟩

theorem project_drop {c B : List ℕ} {k : ℕ} (h : k + B.length ≤ c.length) : (project c (List.replicate k 1 ++ B)).drop k = project c B := by
  have := project_mid (c := c) (sh := B) (p := k) (q := 0) (by omega)
  simp only [List.replicate_zero, List.append_nil, Nat.sub_zero, List.take_length] at this
  rw [List.take_of_length_le (by rw [project_length (by simp; omega)]; simp)] at this
  exact this

theorem project_cons_short {n : ℕ} {c B : List ℕ} (h : B.length ≤ c.length) : project (n :: c) B = project c B := by
  simp only [project, List.length_cons]
  rw [show c.length + 1 - B.length = (c.length - B.length) + 1 by omega, List.drop_succ_cons]

theorem project_cons_same {n N : ℕ} {c I : List ℕ} (h : I.length = c.length) (hn : n < N) : project (n :: c) (N :: I) = n :: project c I := by
  simp only [project, List.length_cons, h, Nat.sub_self, List.drop_zero, List.zipWith_cons_cons]
  congr 1
  split_ifs <;> omega

theorem resolveIndex_ok {K : ℕ} {k : ℤ} (h1 : -K ≤ k) (h2 : k < K) : ∃ j, resolveIndex K k = .ok j ∧ j < K ∧ (0 ≤ k → (j : ℤ) = k) := by
  simp only [resolveIndex]
  by_cases hk : k < 0
  · simp only [if_pos hk]
    rw [if_pos ⟨by omega, by omega⟩]
    exact ⟨_, rfl, by omega, by omega⟩
  · simp only [if_neg hk]
    rw [if_pos ⟨by omega, by omega⟩]
    exact ⟨_, rfl, by omega, by omega⟩

theorem resolveIndex_error {K : ℕ} {k : ℤ} (h : k < -K ∨ K ≤ k) : resolveIndex K k = .error .indexError := by
  simp only [resolveIndex]
  by_cases hk : k < 0
  · simp only [if_pos hk]; rw [if_neg (by omega)]
  · simp only [if_neg hk]; rw [if_neg (by omega)]

theorem mapM_all_ok {α β : Type} {f : α → Except Err β} : ∀ {l : List α}, (∀ a ∈ l, ∃ b, f a = .ok b) → ∃ r, l.mapM f = .ok r
  | [], _ => ⟨[], rfl⟩
  | a :: l, h => by
    obtain ⟨b, hb⟩ := h a (by simp)
    obtain ⟨r, hr⟩ := mapM_all_ok (f := f) (l := l) fun x hx => h x (by simp [hx])
    exact ⟨b :: r, by rw [List.mapM_cons, hb, hr]; rfl⟩

theorem mapM_some_error {α β : Type} {e : Err} {f : α → Except Err β} (hf : ∀ a, (∃ b, f a = .ok b) ∨ f a = .error e) : ∀ {l : List α}, (∃ a ∈ l, f a = .error e) → l.mapM f = .error e
  | a :: l, h => by
    rw [List.mapM_cons]
    rcases hf a with ⟨b, hb⟩ | hb
    · obtain ⟨x, hx, hxe⟩ := h
      rcases List.mem_cons.1 hx with rfl | hx
      · rw [hxe] at hb; cases hb
      · rw [hb, mapM_some_error hf ⟨x, hx, hxe⟩]; rfl
    · rw [hb]; rfl

theorem lookup_ok {K : ℕ} {s : List ℕ} {idx : List ℕ → ℤ} {get : List ℕ → ℕ → FVal} (h : ∀ c ∈ allCoords s, -K ≤ idx c ∧ idx c < K) :
    ∃ f, lookup K s idx get = .ok ⟨s, f⟩ ∧ ∀ c ∈ allCoords s, ∃ j, j < K ∧ (0 ≤ idx c → (j : ℤ) = idx c) ∧ f c = get c j := by
  obtain ⟨r, hr⟩ := mapM_all_ok (f := fun c => resolveIndex K (idx c)) (l := allCoords s) fun c hc => by
    obtain ⟨j, hj, -⟩ := resolveIndex_ok (h c hc).1 (h c hc).2
    exact ⟨j, hj⟩
  refine ⟨_, by rw [lookup, hr], fun c hc => ?_⟩
  obtain ⟨j, hj, hK, hv⟩ := resolveIndex_ok (h c hc).1 (h c hc).2
  exact ⟨j, hK, hv, by simp only [hj]⟩

theorem lookup_error {K : ℕ} {s : List ℕ} {idx : List ℕ → ℤ} {get : List ℕ → ℕ → FVal} (h : ∃ c ∈ allCoords s, idx c < -K ∨ K ≤ idx c) :
    lookup K s idx get = .error .indexError := by
  obtain ⟨c, hc, hv⟩ := h
  rw [lookup, mapM_some_error (e := .indexError) (fun a => ?_) ⟨c, hc, resolveIndex_error hv⟩]
  by_cases ha : idx a < -K ∨ K ≤ idx a
  · exact .inr (resolveIndex_error ha)
  · obtain ⟨j, hj, -⟩ := resolveIndex_ok (K := K) (k := idx a) (by omega) (by omega)
    exact .inl ⟨j, hj⟩

end Verif.ArrGraph
