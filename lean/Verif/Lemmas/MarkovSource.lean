import Verif.Spec.MarkovSampler
import Mathlib.Probability.Independence.InfinitePi
import Mathlib.Probability.ProbabilityMassFunction.Integrals

/-!
Sources of draws exist (used to show that the hypotheses of the law theorem can be met).
-/

namespace Verif.Markov

open Verif MeasureTheory ProbabilityTheory

theorem probs_injective {M : ℕ} : Function.Injective (probs (M := M)) := fun γ δ h => by
  have := List.ofFn_injective h
  refine PMF.ext fun j => ?_
  have e := congrFun this j
  simp only [FVal.fin.injEq] at e
  exact (ENNReal.toReal_eq_toReal_iff' (γ.apply_ne_top j) (δ.apply_ne_top j)).1 e

open scoped Classical in
/-- The law of one draw from a list of probabilities. -/
noncomputable def drawLaw (M : ℕ) (p : List FVal) : Measure ℤ :=
  if h : ∃ γ : PMF (Fin M), probs γ = p then (h.choose.toMeasure).map (fun j : Fin M => ((j : ℕ) : ℤ)) else Measure.dirac 0

instance (M : ℕ) (p : List FVal) : IsProbabilityMeasure (drawLaw M p) := by
  rw [drawLaw]
  split_ifs
  · exact Measure.isProbabilityMeasure_map (measurable_of_countable _).aemeasurable
  · infer_instance

/-- A number outside the states is read as state `0`. -/
def clampState (M : ℕ) (z : ℤ) : ℤ := if 0 ≤ z ∧ z < M then z else 0

/-- The draws of all calls at all places. -/
noncomputable def sourceLaw (M : ℕ) : Measure (ℕ × List ℕ → List FVal → ℤ) := Measure.infinitePi fun _ => Measure.infinitePi fun p => drawLaw M p

noncomputable instance (M : ℕ) : IsProbabilityMeasure (sourceLaw M) := by
  rw [sourceLaw]
  infer_instance

def sourceDraws (M : ℕ) (ω : ℕ × List ℕ → List FVal → ℤ) : Draws := fun n c p => clampState M (ω (n, c) p)

theorem source_exists {M : ℕ} (hM : 0 < M) : Source (sourceLaw M) M (sourceDraws M) where
  states ω n c p _ := by
    simp only [sourceDraws, clampState]
    split_ifs <;> omega
  meas n c p := (measurable_of_countable (clampState M)).comp ((measurable_pi_apply p).comp (measurable_pi_apply (n, c)))
  indep := iIndepFun_infinitePi (P := fun _ : ℕ × List ℕ => Measure.infinitePi fun p => drawLaw M p) (X := fun _ f p => clampState M (f p))
    fun _ => measurable_pi_lambda _ fun p => (measurable_of_countable (clampState M)).comp (measurable_pi_apply p)
  law n c γ j := by
    have h1 : (sourceLaw M).map (fun ω => ω (n, c)) = Measure.infinitePi fun p => drawLaw M p := Measure.infinitePi_map_eval (fun _ : ℕ × List ℕ => Measure.infinitePi fun p => drawLaw M p) (n, c)
    have h2 : (Measure.infinitePi fun p => drawLaw M p).map (fun f => f (probs γ)) = drawLaw M (probs γ) := Measure.infinitePi_map_eval (fun p => drawLaw M p) (probs γ)
    have hm : MeasurableSet {z : ℤ | clampState M z = (j : ℕ)} := MeasurableSet.of_discrete
    have h3 : sourceLaw M {ω | sourceDraws M ω n c (probs γ) = (j : ℕ)} = drawLaw M (probs γ) {z : ℤ | clampState M z = (j : ℕ)} := by
      have a : Measurable fun f : List FVal → ℤ => f (probs γ) := measurable_pi_apply _
      have b : Measurable fun ω : ℕ × List ℕ → List FVal → ℤ => ω (n, c) := measurable_pi_apply _
      rw [← h2, ← h1, Measure.map_map a b, Measure.map_apply (a.comp b) hm]
      rfl
    have hex : ∃ δ : PMF (Fin M), probs δ = probs γ := ⟨γ, rfl⟩
    have hc : hex.choose = γ := probs_injective hex.choose_spec
    rw [h3, drawLaw, dif_pos hex, hc, Measure.map_apply (measurable_of_countable _) hm]
    have hs : (fun j : Fin M => ((j : ℕ) : ℤ)) ⁻¹' {z : ℤ | clampState M z = (j : ℕ)} = {j} := by
      ext i
      simp only [Set.mem_preimage, Set.mem_setOf_eq, clampState, Set.mem_singleton_iff]
      rw [if_pos ⟨by omega, by exact_mod_cast i.2⟩]
      constructor
      · intro h
        exact Fin.ext (by exact_mod_cast h)
      · rintro rfl
        rfl
    rw [hs, PMF.toMeasure_apply_singleton _ _ (measurableSet_singleton _)]

end Verif.Markov
