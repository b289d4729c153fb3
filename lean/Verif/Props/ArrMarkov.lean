import Verif.Spec.ArrMarkov
import Verif.Props.Markov
import Verif.Props.ArrGraph

/-! # C41: discrete Markov chains in models with array variables -/

namespace Verif.ArrGraph
open Verif Cond MeasureTheory FVal

variable {M : ℕ}

theorem sampler_length {Gs : List (Fin M → PMF (Fin M))} {γ : PMF (Fin M)} {l : List (Fin M)} (h : mcSampler Gs γ l ≠ 0) : l.length = Gs.length := by
  have hpath : ∀ {Gs : List (Fin M → PMF (Fin M))} {s : Fin M} {l : List (Fin M)}, pathProb Gs s l ≠ 0 → l.length = Gs.length := by
    intro Gs
    induction Gs with
    | nil => intro s l h; cases l with
      | nil => rfl
      | cons a l => exact absurd rfl h
    | cons G Gs ih => intro s l h; cases l with
      | nil => exact absurd rfl h
      | cons a l =>
        rw [pathProb] at h
        rw [List.length_cons, List.length_cons, ih (right_ne_zero_of_mul h)]
  rw [mcSampler, PMF.bind_apply] at h
  obtain ⟨s, hs⟩ : ∃ s, γ s * mcLoop Gs s l ≠ 0 := by
    by_contra hn
    push Not at hn
    exact h (by simp [hn])
  rw [mcLoop_apply] at hs
  exact hpath (right_ne_zero_of_mul hs)

theorem sampler_map (Gs : List (Fin M → PMF (Fin M))) (γ : PMF (Fin M)) (d : Fin M) (f : Fin Gs.length → Fin M) :
    (mcSampler Gs γ).map (statesOf Gs.length d) f = mcSampler Gs γ (List.ofFn f) := by
  rw [PMF.map_apply, tsum_eq_single (List.ofFn f)]
  · rw [if_pos]
    funext i
    simp [statesOf]
  · intro l hl
    split_ifs with h
    · by_contra h0
      refine hl ?_
      have hlen := sampler_length h0
      refine List.ext_getElem (by simpa using hlen) fun i h1 h2 => ?_
      have h3 := congrFun h ⟨i, by omega⟩
      rw [List.getElem_ofFn, h3, statesOf, List.getD_eq_getElem _ _ h1]
    · rfl

theorem toMeasure_count {α : Type} [Fintype α] [MeasurableSpace α] [MeasurableSingletonClass α] (p : PMF α) : p.toMeasure = Measure.count.withDensity p := by
  ext s hs
  rw [withDensity_apply _ hs, ← lintegral_indicator hs, lintegral_count, PMF.toMeasure_apply_eq_tsum]

theorem toState_nat (i : Fin M) : toState M (.fin ((i : ℕ) : ℝ)) = .ok i := by
  have h : toIndex (.fin ((i : ℕ) : ℝ)) = ((i : ℕ) : ℤ) := by
    show ⌊((i : ℕ) : ℝ)⌋ = _
    exact Int.floor_natCast _
  rw [toState, dif_pos (by rw [h]; omega)]
  congr 1
  exact Fin.ext (by simp only [h]; omega)

theorem mapM_ofFn_ok {α β : Type} {f : α → Except Err β} : ∀ {T : ℕ} {a : Fin T → α} {b : Fin T → β}, (∀ i, f (a i) = .ok (b i)) → (List.ofFn a).mapM f = .ok (List.ofFn b)
  | 0, _, _, _ => by simp [pure, Except.pure]
  | T + 1, a, b, h => by
    rw [List.ofFn_succ, List.ofFn_succ, List.mapM_cons, h 0, mapM_ofFn_ok (a := fun i => a i.succ) (b := fun i => b i.succ) fun i => h i.succ]
    rfl

theorem allCoords_ofFn (T : ℕ) : allCoords [T] = List.ofFn fun i : Fin T => [(i : ℕ)] := by
  rw [allCoords_vector]
  refine List.ext_getElem (by simp) fun i h1 h2 => by simp

theorem states_read {T : ℕ} (f : Fin T → Fin M) : (allCoords [T]).mapM (fun c => toState M ((stateArr f).get c)) = .ok (List.ofFn f) := by
  rw [allCoords_ofFn]
  refine mapM_ofFn_ok fun i => ?_
  have : (stateArr f).get [(i : ℕ)] = .fin ((f i : ℕ) : ℝ) := dif_pos i.2
  rw [this, toState_nat]

theorem joint_terms {T : ℕ} {terms : List FVal} (h : terms.length = T) : arrayJoint (.ok ⟨[T], fun c => terms.getD (c.headD 0) .nan⟩) = .ok (fsum terms) := by
  have : (allCoords [T]).map (fun c => terms.getD (c.headD 0) .nan) = terms := by
    rw [allCoords_vector, List.map_map]
    refine List.ext_getElem (by simp [h]) fun i h1 h2 => ?_
    simp only [List.getElem_map, List.getElem_range, Function.comp_apply, List.headD_cons]
    exact List.getD_eq_getElem _ _ h2
  simp only [arrayJoint, this]

/-- The log-probability array of a sequence of states. -/
theorem markovArr_eq (G : Fin M → PMF (Fin M)) (Gs : List (Fin M → PMF (Fin M))) (γ : PMF (Fin M)) {Gammas gamma_0 : Arr FVal} (hG : HoldsMatrices (G :: Gs) Gammas) (hγ : HoldsVector γ gamma_0)
    (f : Fin (G :: Gs).length → Fin M) :
    dens (arrayJoint (markovArr (stateArr f) [Gammas, gamma_0])) = mcSampler (G :: (G :: Gs).dropLast) γ (List.ofFn f) := by
  obtain ⟨terms, h1, h2, -, h4⟩ := C41_markov_shifted_partial G Gs γ (List.ofFn f) (by simp)
  have e1 : (List.ofFn fun t : Fin (G :: Gs).length => fun (i j : Fin M) => toReal (Gammas.get [(t : ℕ), (i : ℕ), (j : ℕ)])) = (G :: Gs).map pmat := by
    refine List.ext_getElem (by simp) fun t ht1 ht2 => ?_
    rw [List.getElem_ofFn, List.getElem_map]
    funext i j
    rw [hG.2 t (by simpa using ht1) i j]
    rfl
  have e2 : (fun i : Fin M => toReal (gamma_0.get [(i : ℕ)])) = pvec γ := by
    funext i
    rw [hγ.2 i]
    rfl
  have e3 : markovArr (stateArr f) [Gammas, gamma_0] = .ok ⟨[(G :: Gs).length], fun c => terms.getD (c.headD 0) .nan⟩ := by
    have hr := states_read f
    simp only [markovArr, Arr.ndim, hG.1, hγ.1]
    rw [if_neg (by simp [stateArr])]
    simp only [and_self, if_true, markovTerms]
    rw [show (stateArr f).shape = [(G :: Gs).length] from rfl, hr, e1, e2]
    simp only [bind, Except.bind, h1]
    rfl
  rw [e3, joint_terms (by simpa using h2), h4]

theorem markovArr_cast (G : Fin M → PMF (Fin M)) (Gs : List (Fin M → PMF (Fin M))) (γ : PMF (Fin M)) {Gammas gamma_0 : Arr FVal} (hG : HoldsMatrices (G :: Gs) Gammas) (hγ : HoldsVector γ gamma_0)
    {T : ℕ} (hT : (G :: Gs).length = T) (f : Fin T → Fin M) : dens (arrayJoint (markovArr (stateArr f) [Gammas, gamma_0])) = mcSampler (G :: (G :: Gs).dropLast) γ (List.ofFn f) := by
  subst hT
  exact markovArr_eq G Gs γ hG hγ f

theorem sampler_cast (Gs : List (Fin M → PMF (Fin M))) (γ : PMF (Fin M)) (d : Fin M) {T : ℕ} (hT : Gs.length = T) (f : Fin T → Fin M) :
    (mcSampler Gs γ).map (statesOf T d) f = mcSampler Gs γ (List.ofFn f) := by
  subst hT
  exact sampler_map Gs γ d f

/-- **C41** (models) A discrete Markov chain with the same transition matrix at every step, as a variable of a model: the exponential of its joint log-probability is the probability mass function of what
`discrete_markov_chain` draws, on the sequences of states.  The parameters may be computed from other variables.  Missing: transition matrices that change with time (`C41_markov_time_varying_wrong`). -/
theorem C41_model_partial (G : Fin M → PMF (Fin M)) (n : ℕ) (γ : PMF (Fin M)) (d : Fin M) {Gammas gamma_0 : Arr FVal} (hG : HoldsMatrices (List.replicate (n + 1) G) Gammas) (hγ : HoldsVector γ gamma_0) :
    GoodAt (stateArr (T := n + 1) (M := M)) markovArr ((mcSampler (List.replicate (n + 1) G) γ).map (statesOf (n + 1) d)).toMeasure Measure.count [Gammas, gamma_0] := by
  refine ⟨inferInstance, measurable_of_countable _ |>.aemeasurable, ?_⟩
  rw [toMeasure_count]
  congr 1
  funext f
  have h1 := markovArr_cast G (List.replicate n G) γ (by rwa [← List.replicate_succ]) hγ (T := n + 1) (by simp) f
  rw [replicate_shift, ← List.replicate_succ] at h1
  rw [h1]
  exact sampler_cast _ γ d (by simp) f

end Verif.ArrGraph
