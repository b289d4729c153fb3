import Verif.Spec.SameChain
import Verif.Lemmas.SameSeries
import Verif.Props.ArrMarkov
import Verif.Props.ArrCategorical
import Verif.Props.Vec1

/-! # Lemmas for C141: the same Markov chain, written in different ways -/

namespace Verif.ArrGraph
open Verif FVal

theorem toIndex_nat (k : ℕ) : toIndex (.fin (k : ℝ)) = (k : ℤ) := Int.floor_natCast k

theorem sum_range_map (M : ℕ) (p : ℕ → ℝ) : ((List.range M).map p).sum = ∑ j ∈ Finset.range M, p j := by
  induction M with
  | zero => simp
  | succ M ih => rw [List.range_succ, List.map_append, List.sum_append, ih, Finset.sum_range_succ]; simp

theorem categorical_law {M : ℕ} {p : ℕ → ℝ} (hp : IsLaw M p) {k : ℕ} (hk : k < M) :
    categoricalLogprob k ((List.range M).map fun j => fin (p j)) = .ok (log (fin (p k))) := by
  have h := (C36_categorical_partial (p := (List.range M).map p) (fun x hx => by
      obtain ⟨j, hj, rfl⟩ := List.mem_map.1 hx
      exact hp.nonneg j (List.mem_range.1 hj)) (by rw [sum_range_map, hp.total]; exact one_pos)).1 k (by simpa using hk)
  rw [List.map_map] at h
  rw [show (fun j => fin (p j)) = fin ∘ p from rfl, h, categoricalMass, sum_range_map, hp.total]
  simp [hk]

/-- The terms of `discrete_mc_logp`. -/
noncomputable def chainTerm (M : ℕ) (G : ℕ → ℕ → ℕ → ℝ) (g : ℕ → ℝ) (s : ℕ → ℕ) (t : ℕ) : ℝ :=
  if t = 0 then ∑ i ∈ Finset.range M, g i * G 0 i (s 0) else G (t - 1) (s (t - 1)) (s t)

theorem column_states {n M : ℕ} {s : ℕ → ℕ} (hs : ∀ t < n, s t < M) :
    (allCoords [n]).mapM (fun c => toState M ((column n fun t => fin (s t : ℝ)).get c)) = .ok (List.ofFn fun t : Fin n => (⟨s t, hs t t.2⟩ : Fin M)) := by
  rw [allCoords_ofFn]
  exact mapM_ofFn_ok fun i => toState_nat (⟨s i, hs i i.2⟩ : Fin M)

theorem markov_terms {n M : ℕ} {G : ℕ → ℕ → ℕ → ℝ} {Gammas gamma_0 : Arr FVal} (hG : HoldsSteps (n + 1) M G Gammas) {g : ℕ → ℝ} (hg : gamma_0.shape = [M]) (hg' : ∀ i < M, gamma_0.get [i] = fin (g i))
    {s : ℕ → ℕ} (hs : ∀ t < n + 1, s t < M) :
    IsTerms (n + 1) (fun t => .ok (log (fin (chainTerm M G g s t)))) (markovArr (column (n + 1) fun t => fin (s t : ℝ)) [Gammas, gamma_0]) := by
  have e1 : (List.ofFn fun t : Fin (n + 1) => fun (i j : Fin M) => toReal (Gammas.get [(t : ℕ), (i : ℕ), (j : ℕ)])) = List.ofFn fun t : Fin (n + 1) => fun (i j : Fin M) => G t i j := by
    congr 1
    funext t i j
    rw [hG.get t t.2 i i.2 j j.2]
    rfl
  have e2 : (fun i : Fin M => toReal (gamma_0.get [(i : ℕ)])) = fun i : Fin M => g i := by
    funext i
    rw [hg' i i.2]
    rfl
  have e3 : ∃ terms : List FVal, discreteMcLogp (List.ofFn fun t : Fin (n + 1) => fun (i j : Fin M) => G t i j) (fun i : Fin M => g i) (List.ofFn fun t : Fin (n + 1) => (⟨s t, hs t t.2⟩ : Fin M)) = .ok terms ∧
      terms.length = n + 1 ∧ ∀ t (h : t < terms.length), terms[t] = log (fin (chainTerm M G g s t)) := by
    generalize hGs : (List.ofFn fun t : Fin (n + 1) => fun (i j : Fin M) => G t i j) = Gs
    generalize hss : (List.ofFn fun t : Fin (n + 1) => (⟨s t, hs t t.2⟩ : Fin M)) = ss
    have hGl : Gs.length = n + 1 := by rw [← hGs]; simp
    have hsl : ss.length = n + 1 := by rw [← hss]; simp
    have hGg : ∀ t (h : t < Gs.length), Gs[t] = fun (i j : Fin M) => G t i j := fun t h => by subst hGs; rw [List.getElem_ofFn]
    have hsg : ∀ t (h : t < ss.length), (ss[t] : ℕ) = s t := fun t h => by subst hss; rw [List.getElem_ofFn]
    clear hGs hss
    rcases Gs with _ | ⟨G0, Gs⟩
    · simp at hGl
    rcases ss with _ | ⟨s0, ss⟩
    · simp at hsl
    refine ⟨log (fin (∑ i : Fin M, g i * G0 i s0)) :: (List.zipWith (fun G (st : Fin M × Fin M) => G st.1 st.2) (G0 :: Gs) ((s0 :: ss).zip ss)).map fun p => log (fin p), ?_, ?_, ?_⟩
    · have e0 : mcBroadcast (G0 :: Gs) (s0 :: ss).length = .ok (G0 :: Gs) := if_pos (hGl.trans hsl.symm)
      rw [discreteMcLogp, e0]
      rfl
    · simp at hGl hsl ⊢
      omega
    · intro t ht
      have h0 := hGg 0 (by simp)
      have h0' := hsg 0 (by simp)
      simp only [List.getElem_cons_zero] at h0 h0'
      rcases t with _ | t
      · simp [chainTerm, Finset.sum_range, h0, h0']
      · have ht' : t + 1 < (s0 :: ss).length := by simp at ht hsl hGl ⊢; omega
        have h1 := hsg (t + 1) ht'
        have h2 := hsg t (by omega)
        have h3 := hGg t (by simp at hsl hGl ht' ⊢; omega)
        simp only [List.getElem_cons_succ] at h1
        simp only [List.getElem_cons_succ, List.getElem_map, List.getElem_zipWith, List.getElem_zip, chainTerm]
        rw [h3]
        simp only [h1, h2]
        simp
  obtain ⟨terms, h1, h2, h3⟩ := e3
  have e4 : markovArr (column (n + 1) fun t => fin (s t : ℝ)) [Gammas, gamma_0] = .ok ⟨[n + 1], fun c => terms.getD (c.headD 0) .nan⟩ := by
    simp only [markovArr, Arr.ndim, hG.shape, hg]
    rw [if_neg (by simp [column])]
    simp only [and_self, if_true, markovTerms]
    rw [show (column (n + 1) fun t => fin (s t : ℝ)).shape = [n + 1] from rfl, column_states hs, e1, e2]
    simp only [bind, Except.bind, h1]
    rfl
  rw [e4]
  refine ⟨rfl, fun i hi => ?_⟩
  simp only [List.headD_cons]
  rw [List.getD_eq_getElem _ _ (by omega), h3]

theorem sum_point {M a : ℕ} (ha : a < M) {g : ℕ → ℝ} (hg : ∀ i, g i = if i = a then 1 else 0) (q : ℕ → ℝ) : ∑ i ∈ Finset.range M, g i * q i = q a := by
  rw [Finset.sum_eq_single a]
  · simp [hg]
  · intro b _ hb; simp [hg, hb]
  · intro h; exact absurd (Finset.mem_range.2 ha) h

end Verif.ArrGraph
