import Verif.Lemmas.Vec
import Mathlib.Topology.Algebra.InfiniteSum.Constructions
import Mathlib.Probability.Distributions.Uniform

/-! # C41: the discrete Markov chain log-probability against its sampler -/

namespace Verif
open FVal ENNReal

variable {M : ℕ}

/-- A probability law on the states as a vector of real numbers. -/
noncomputable def pvec (q : PMF (Fin M)) : Fin M → ℝ := fun i => (q i).toReal

/-- A stochastic matrix as real numbers. -/
noncomputable def pmat (G : Fin M → PMF (Fin M)) : Fin M → Fin M → ℝ := fun i => pvec (G i)

/-- Probability of a path after the first state, one matrix per step. -/
noncomputable def pathProb : List (Fin M → PMF (Fin M)) → Fin M → List (Fin M) → ℝ≥0∞
  | [], _, [] => 1
  | G :: Gs, s, s' :: ss => G s s' * pathProb Gs s' ss
  | _, _, _ => 0

theorem mcLoop_apply (Gs : List (Fin M → PMF (Fin M))) (s : Fin M) (ss : List (Fin M)) :
    mcLoop Gs s ss = pathProb Gs s ss := by
  induction Gs generalizing s ss with
  | nil =>
    show (PMF.pure ([] : List (Fin M))) ss = _
    cases ss <;> simp [pathProb]
  | cons G Gs ih =>
    rw [mcLoop, PMF.bind_apply, tsum_fintype]
    cases ss with
    | nil =>
      simp only [pathProb]
      refine Finset.sum_eq_zero fun s' _ => ?_
      rw [PMF.map_apply]
      simp
    | cons a ss =>
      rw [Finset.sum_eq_single a]
      · rw [PMF.map_apply, pathProb, ← ih]
        congr 1
        rw [tsum_eq_single ss]
        · simp
        · intro b hb
          rw [if_neg]
          intro h
          injection h with _ h
          exact hb h.symm
      · intro b _ hb
        rw [PMF.map_apply]
        simp only [List.cons.injEq]
        simp [Ne.symm hb]
      · simp

theorem zipWith_steps (Gs : List (Fin M → PMF (Fin M))) (s : Fin M) (ss : List (Fin M)) (h : ss.length = Gs.length) :
    ENNReal.ofReal ((List.zipWith (fun G (st : Fin M × Fin M) => G st.1 st.2) (Gs.map pmat) ((s :: ss).zip ss)).prod) =
      pathProb Gs s ss ∧
    ∀ x ∈ List.zipWith (fun G (st : Fin M × Fin M) => G st.1 st.2) (Gs.map pmat) ((s :: ss).zip ss), 0 ≤ x := by
  induction Gs generalizing s ss with
  | nil =>
    have : ss = [] := by simpa using h
    subst this
    simp [pathProb]
  | cons G Gs ih =>
    cases ss with
    | nil => simp at h
    | cons a ss =>
      have ih := ih a ss (by simpa using h)
      have h0 : 0 ≤ pmat G s a := ENNReal.toReal_nonneg
      rw [List.map_cons, List.zip_cons_cons, List.zipWith_cons_cons, List.prod_cons, pathProb]
      refine ⟨?_, ?_⟩
      · rw [ENNReal.ofReal_mul h0, ih.1]
        congr 1
        rw [pmat, pvec, ENNReal.ofReal_toReal (PMF.apply_ne_top _ _)]
      · intro x hx
        rcases List.mem_cons.1 hx with rfl | hx
        · exact h0
        · exact ih.2 x hx

theorem zipWith_take {α β γ : Type*} (f : α → β → γ) (xs : List α) (ys : List β) (h : ys.length + 1 = xs.length) :
    List.zipWith f xs ys = List.zipWith f xs.dropLast ys := by
  induction xs generalizing ys with
  | nil => simp at h
  | cons x xs ih =>
    cases ys with
    | nil => simp
    | cons y ys =>
      cases xs with
      | nil => simp at h
      | cons x' xs =>
        rw [List.dropLast_cons_of_ne_nil (by simp), List.zipWith_cons_cons, List.zipWith_cons_cons, ih ys (by simpa using h)]

/-- **C41**, exactly what the log-probability computes, for any (time-varying) transition matrices: the probability of the
state sequence under the sampler run with the matrices *shifted by one*, i.e. with `Gammas[0], Gammas[0], Gammas[1], ...` in place of
`Gammas[0], Gammas[1], Gammas[2], ...`.  Never raises, never NaN. -/
theorem C41_markov_shifted_partial (G : Fin M → PMF (Fin M)) (Gs : List (Fin M → PMF (Fin M))) (γ : PMF (Fin M))
    (states : List (Fin M)) (h : states.length = Gs.length + 1) :
    ∃ terms, discreteMcLogp ((G :: Gs).map pmat) (pvec γ) states = .ok terms ∧ terms.length = states.length ∧
      fsum terms ≠ nan ∧ dens (.ok (fsum terms)) = mcSampler (G :: (G :: Gs).dropLast) γ states := by
  obtain ⟨s, ss, rfl⟩ : ∃ s ss, states = s :: ss := by
    cases states with
    | nil => simp at h
    | cons s ss => exact ⟨s, ss, rfl⟩
  have hl : ss.length = Gs.length := by simpa using h
  set steps := List.zipWith (fun G (st : Fin M × Fin M) => G st.1 st.2) ((G :: Gs).map pmat) ((s :: ss).zip ss) with hsteps
  have hsteps' : steps = List.zipWith (fun G (st : Fin M × Fin M) => G st.1 st.2) ((G :: Gs).dropLast.map pmat) ((s :: ss).zip ss) := by
    rw [hsteps, List.map_dropLast, zipWith_take]
    simp [hl]
  have hz := zipWith_steps (G :: Gs).dropLast s ss (by simp [hl])
  rw [← hsteps'] at hz
  set P1 := ∑ i, pvec γ i * pmat G i s with hP1
  have hP1n : 0 ≤ P1 := Finset.sum_nonneg fun i _ => mul_nonneg ENNReal.toReal_nonneg ENNReal.toReal_nonneg
  have hev : discreteMcLogp ((G :: Gs).map pmat) (pvec γ) (s :: ss) = .ok (log (fin P1) :: steps.map fun p => log (fin p)) := by
    have e0 : mcBroadcast ((G :: Gs).map pmat) (s :: ss).length = .ok ((G :: Gs).map pmat) := if_pos (by simp [hl])
    have e1 : npIndex ((G :: Gs).map pmat) 0 = .ok (pmat G) := npIndex_nat (k := 0) (by simp)
    have e2 : npIndex (s :: ss) 0 = .ok s := npIndex_nat (k := 0) (by simp)
    simp only [discreteMcLogp, e0, e1, e2, bind, Except.bind]
    rfl
  refine ⟨_, hev, ?_, ?_, ?_⟩
  · simp [hsteps, hl]
  all_goals rw [fsum_cons, fsum_map_log hz.2, log_mul_nonneg hP1n (List.prod_nonneg hz.2)]
  · obtain ⟨v, hv, hn⟩ := clean_log_nonneg (mul_nonneg hP1n (List.prod_nonneg hz.2))
    cases hv; exact hn
  · rw [dens_log_nonneg (mul_nonneg hP1n (List.prod_nonneg hz.2)), ENNReal.ofReal_mul hP1n, hz.1, mcSampler, PMF.bind_apply,
      tsum_fintype]
    simp only [mcLoop_apply, pathProb]
    simp_rw [← mul_assoc]
    rw [← Finset.sum_mul]
    congr 1
    rw [hP1, ENNReal.ofReal_sum_of_nonneg fun i _ => mul_nonneg (show 0 ≤ pvec γ i from ENNReal.toReal_nonneg)
      (show 0 ≤ pmat G i s from ENNReal.toReal_nonneg)]
    refine Finset.sum_congr rfl fun i _ => ?_
    rw [ENNReal.ofReal_mul (show 0 ≤ pvec γ i from ENNReal.toReal_nonneg), pvec, pmat, pvec, ENNReal.ofReal_toReal (PMF.apply_ne_top _ _),
      ENNReal.ofReal_toReal (PMF.apply_ne_top _ _)]

theorem replicate_shift {α : Type*} (G : α) (n : ℕ) :
    G :: (G :: List.replicate n G).dropLast = G :: List.replicate n G := by
  rw [← List.replicate_succ, List.dropLast_replicate, List.replicate_succ]; simp

/-- **C41** (constant transition matrix) When all transition matrices are equal, the exponential of the summed log-probability of a state
sequence of any length is the probability that the sampler produces it.
Missing: time-varying matrices, where the property is false (`C41_markov_time_varying_wrong`). -/
theorem C41_markov_partial (G : Fin M → PMF (Fin M)) (n : ℕ) (γ : PMF (Fin M)) (states : List (Fin M)) (h : states.length = n + 1) :
    ∃ terms, discreteMcLogp ((List.replicate (n + 1) G).map pmat) (pvec γ) states = .ok terms ∧ terms.length = states.length ∧
      fsum terms ≠ nan ∧ dens (.ok (fsum terms)) = mcSampler (List.replicate (n + 1) G) γ states := by
  have := C41_markov_shifted_partial G (List.replicate n G) γ states (by simpa using h)
  rwa [replicate_shift, ← List.replicate_succ] at this

example := C41_markov_partial (M := 2) (fun _ => PMF.uniformOfFintype (Fin 2)) 2 (PMF.pure 0) [0, 1, 1] rfl

/-- **C41**, a single matrix given for a longer sequence is broadcast: same result as repeating it. -/
theorem C41_markov_broadcast (G : Fin M → Fin M → ℝ) (γ : Fin M → ℝ) (states : List (Fin M)) :
    discreteMcLogp [G] γ states = discreteMcLogp (List.replicate states.length G) γ states := by
  by_cases h : states.length = 1
  · rw [h]; rfl
  · have e1 : mcBroadcast [G] states.length = .ok (List.replicate states.length G) := by
      rw [mcBroadcast, if_neg (by simpa using Ne.symm h)]
    have e2 : mcBroadcast (List.replicate states.length G) states.length = .ok (List.replicate states.length G) :=
      if_pos (by simp)
    rw [discreteMcLogp, e1, discreteMcLogp, e2]

/-- **C41**, a number of matrices other than one and the number of states: no log-probability. -/
theorem C41_markov_wrong_number (Gs : List (Fin M → Fin M → ℝ)) (γ : Fin M → ℝ) (states : List (Fin M)) (h : Gs.length ≠ states.length) (h1 : Gs.length ≠ 1) :
    discreteMcLogp Gs γ states = .error .valueError := by
  have e : mcBroadcast Gs states.length = .error .valueError := by
    rw [mcBroadcast, if_neg h]
    match Gs, h1 with
    | [], _ => simp
    | _ :: _ :: _, _ => simp
  rw [discreteMcLogp, e]
  rfl

example := C41_markov_wrong_number (M := 2) [fun _ _ => 1, fun _ _ => 1] (fun _ => 1) [0, 1, 0] (by simp) (by simp)

/-- **C41, refuted** for time-varying matrices: with `Gammas = [identity, swap]` and a chain starting in state `0`, the
sampler produces `[0, 1]` with probability one but the log-probability of `[0, 1]` is `-inf`. -/
theorem C41_markov_time_varying_wrong :
    ∃ (G₀ G₁ : Fin 2 → PMF (Fin 2)) (γ : PMF (Fin 2)) (terms : List FVal),
      mcSampler [G₀, G₁] γ [0, 1] = 1 ∧
      discreteMcLogp ([G₀, G₁].map pmat) (pvec γ) [0, 1] = .ok terms ∧ dens (.ok (fsum terms)) = 0 := by
  let G₀ : Fin 2 → PMF (Fin 2) := fun i => PMF.pure i
  let G₁ : Fin 2 → PMF (Fin 2) := fun i => PMF.pure (1 - i)
  obtain ⟨terms, h1, _, _, h2⟩ := C41_markov_shifted_partial G₀ [G₁] (PMF.pure 0) [0, 1] rfl
  refine ⟨G₀, G₁, PMF.pure 0, terms, ?_, h1, ?_⟩
  · rw [mcSampler, PMF.pure_bind, mcLoop_apply]
    simp [pathProb, G₀, G₁]
  · rw [h2, mcSampler, PMF.pure_bind, mcLoop_apply]
    simp [pathProb, G₀, G₁]

end Verif
