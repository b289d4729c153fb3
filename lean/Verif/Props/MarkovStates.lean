import Verif.Spec.MarkovStates
import Verif.Props.ArrMarkov
import Mathlib.Data.Fin.VecNotation
import Mathlib.Tactic.FinCases

/-! # C41: values that are no states -/

namespace Verif.ArrGraph
open Verif Cond MeasureTheory FVal

variable {M : ℕ}

theorem toIndex_int (k : ℤ) : toIndex (.fin (k : ℝ)) = k := Int.floor_intCast k

theorem toState_wrap {k : ℤ} (h1 : -(M : ℤ) ≤ k) (h2 : k < 0) : toState M (.fin (k : ℝ)) = toState M (.fin ((k + M : ℤ) : ℝ)) := by
  rw [toState, toState]
  simp only [toIndex_int]
  rw [dif_neg (by omega), dif_pos ⟨h1, h2⟩, dif_pos (by omega)]

theorem toState_outside {k : ℤ} (h : k < -(M : ℤ) ∨ (M : ℤ) ≤ k) : toState M (.fin (k : ℝ)) = .error .indexError := by
  rw [toState]
  simp only [toIndex_int]
  rw [dif_neg (by omega), dif_neg (by omega)]

theorem intArr_get {T : ℕ} (f : Fin T → ℤ) (i : Fin T) : (intArr f).get [(i : ℕ)] = .fin (f i) := dif_pos i.2

theorem mapM_error {α β : Type} {f : α → Except Err β} {e : Err} (he : ∀ a e', f a = .error e' → e' = e) : ∀ {l : List α}, (∃ a ∈ l, ∃ e', f a = .error e') → l.mapM f = .error e
  | [], ⟨_, h, _⟩ => by cases h
  | a :: l, ⟨b, hb, e', hbe⟩ => by
    rw [List.mapM_cons]
    cases ha : f a with
    | error e2 => rw [he a e2 ha]; rfl
    | ok x =>
      rcases List.mem_cons.1 hb with rfl | hb
      · rw [ha] at hbe; cases hbe
      · rw [mapM_error he ⟨b, hb, e', hbe⟩]; rfl

theorem mapM_congr_mem {α β : Type} {f g : α → Except Err β} : ∀ {l : List α}, (∀ a ∈ l, f a = g a) → l.mapM f = l.mapM g
  | [], _ => rfl
  | a :: l, h => by rw [List.mapM_cons, List.mapM_cons, h a (by simp), mapM_congr_mem fun b hb => h b (List.mem_cons_of_mem _ hb)]

/-- **C41** (negative values) Values from `-M` to `-1` are used as the states that they count from the end, with the log-probabilities of these. -/
theorem C41_markov_negative {T K : ℕ} (f : Fin T → ℤ) (hf : ∀ t, -(M : ℤ) ≤ f t ∧ f t < M) {Gammas gamma_0 : Arr FVal} (hG : Gammas.shape = [K, M, M]) (hγ : gamma_0.shape = [M]) :
    markovArr (intArr f) [Gammas, gamma_0] = markovArr (intArr fun t => if f t < 0 then f t + M else f t) [Gammas, gamma_0] := by
  have hm : (allCoords [T]).mapM (fun c => toState M ((intArr f).get c)) = (allCoords [T]).mapM (fun c => toState M ((intArr fun t => if f t < 0 then f t + M else f t).get c)) := by
    rw [allCoords_ofFn]
    refine mapM_congr_mem fun c hc => ?_
    obtain ⟨i, rfl⟩ := List.mem_ofFn.1 hc
    rw [intArr_get, intArr_get]
    split_ifs with h
    · exact toState_wrap (hf i).1 h
    · rfl
  simp only [markovArr, Arr.ndim, hG, hγ, markovTerms]
  simp only [show ∀ g : Fin T → ℤ, (intArr g).shape = [T] from fun _ => rfl, hm]

/-- **C41** (values outside) Any other value that is no state is an `IndexError`, not a log-probability of `-inf`. -/
theorem C41_markov_outside {T K : ℕ} (f : Fin T → ℤ) (hf : ∃ t, f t < -(M : ℤ) ∨ (M : ℤ) ≤ f t) {Gammas gamma_0 : Arr FVal} (hG : Gammas.shape = [K, M, M]) (hγ : gamma_0.shape = [M]) :
    markovArr (intArr f) [Gammas, gamma_0] = .error .indexError := by
  obtain ⟨t, ht⟩ := hf
  have hm : (allCoords [T]).mapM (fun c => toState M ((intArr f).get c)) = .error .indexError := by
    refine mapM_error (fun c e h => ?_) ⟨[(t : ℕ)], ?_, .indexError, ?_⟩
    · rw [toState] at h
      split_ifs at h
      cases h; rfl
    · rw [allCoords_ofFn, List.mem_ofFn]; exact ⟨t, rfl⟩
    · rw [intArr_get]; exact toState_outside ht
  simp only [markovArr, Arr.ndim, hG, hγ, markovTerms]
  rw [if_neg (by simp [intArr])]
  simp only [and_self, if_true, show (intArr f).shape = [T] from rfl, hm]
  rfl

/-- **C41** (refuted part) Sequences of negative numbers, which no sampler gives, have the probabilities of sequences of states: `joint_logprob` counts every sequence once more. -/
theorem C41_markov_negative_wrong (G : Fin M → PMF (Fin M)) (n : ℕ) (γ : PMF (Fin M)) {Gammas gamma_0 : Arr FVal} (hG : HoldsMatrices (List.replicate (n + 1) G) Gammas) (hγ : HoldsVector γ gamma_0)
    (f : Fin (n + 1) → Fin M) :
    dens (arrayJoint (markovArr (intArr fun t => ((f t : ℕ) : ℤ) - M) [Gammas, gamma_0])) = mcSampler (List.replicate (n + 1) G) γ (List.ofFn f) := by
  have h1 := markovArr_cast G (List.replicate n G) γ (by rwa [← List.replicate_succ]) hγ (T := n + 1) (by simp) f
  rw [replicate_shift, ← List.replicate_succ] at h1
  rw [← h1, C41_markov_negative (M := M) (K := n + 1) _ (fun t => by have := (f t).2; omega) (by simpa using hG.1) hγ.1]
  congr 3
  have : (fun t : Fin (n + 1) => if ((f t : ℕ) : ℤ) - M < 0 then ((f t : ℕ) : ℤ) - M + M else ((f t : ℕ) : ℤ) - M) = fun t => ((f t : ℕ) : ℤ) := by
    funext t
    have := (f t).2
    rw [if_pos (by omega)]; omega
  rw [this]
  simp only [intArr, stateArr, Int.cast_natCast]

/-- Two states, always the second one: the values `[-1, -1]` get probability one, just as `[1, 1]`; the value `2` raises. -/
noncomputable def stuck : Arr FVal := ⟨[2, 2, 2], fun c => .fin (if c.getD 2 0 = 1 then 1 else 0)⟩
noncomputable def start : Arr FVal := ⟨[2], fun c => .fin (if c.getD 0 0 = 1 then 1 else 0)⟩

theorem holds_stuck : HoldsMatrices (List.replicate 2 fun _ : Fin 2 => PMF.pure (1 : Fin 2)) stuck := by
  refine ⟨rfl, fun t h i j => ?_⟩
  rw [List.getElem_replicate]
  fin_cases j <;> simp [stuck, PMF.pure_apply]

theorem holds_start : HoldsVector (PMF.pure (1 : Fin 2)) start := by
  refine ⟨rfl, fun i => ?_⟩
  fin_cases i <;> simp [start, PMF.pure_apply]

example : dens (arrayJoint (markovArr (intArr ![-1, -1]) [stuck, start])) = 1 := by
  have h := C41_markov_negative_wrong (fun _ : Fin 2 => PMF.pure (1 : Fin 2)) 1 (PMF.pure 1) holds_stuck holds_start fun _ => 1
  have e : (fun t : Fin 2 => ((((fun _ => 1 : Fin 2 → Fin 2) t : Fin 2) : ℕ) : ℤ) - (2 : ℕ)) = ![-1, -1] := by
    funext t; fin_cases t <;> rfl
  rw [e] at h
  rw [h]
  simp only [mcSampler, mcLoop, List.replicate, PMF.pure_bind, List.ofFn_succ, List.ofFn_zero]
  rw [show (pure [] : PMF (List (Fin 2))) = PMF.pure [] from rfl, PMF.pure_map, PMF.pure_map]
  exact PMF.pure_apply_self _

example : markovArr (intArr ![0, 2]) [stuck, start] = .error .indexError := C41_markov_outside (M := 2) (K := 2) _ ⟨1, .inr (by decide)⟩ rfl rfl
example := C41_markov_negative (M := 2) (K := 2) (Gammas := stuck) (gamma_0 := start) ![-2, 1] (fun t => by fin_cases t <;> decide) rfl rfl

end Verif.ArrGraph
