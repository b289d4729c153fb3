import Verif.Spec.VecLibrary
import Verif.Props.Library
import Verif.Props.ArrCategorical
import Verif.Props.ArrTransformSimplex
import Verif.Props.ArrMarkov
import Verif.Lemmas.Broadcast

/-! # C134 with vectors, counts and categories -/

namespace Verif.Library
open Verif Cond FVal MeasureTheory ProbabilityTheory Set ArrGraph

theorem simplexPoint_embedding {m : ℕ} : MeasurableEmbedding (simplexPoint : (Fin m → ℝ) → Fin (m + 1) → ℝ) := by
  refine Continuous.measurableEmbedding ?_ fun y z h => ?_
  · refine continuous_pi fun i => ?_
    refine Fin.cases ?_ (fun j => ?_) i
    · simp only [simplexPoint, Fin.cons_zero]; fun_prop
    · simp only [simplexPoint, Fin.cons_succ]; fun_prop
  · funext j
    have := congrFun h j.succ
    simpa [simplexPoint] using this

instance (n : ℕ) : SigmaFinite (simplexRef n) := by
  cases n with
  | zero => show SigmaFinite 0; infer_instance
  | succ m => exact simplexPoint_embedding.sigmaFinite_map

open scoped Classical in
theorem dirichletAt_ae {m : ℕ} {α : Fin (m + 1) → ℝ} (hα : ∀ i, 0 < α i) : (fun y : Fin m → ℝ => dens (dirichletAt α (simplexPoint y))) =ᵐ[volume]
    fun y => if ∀ i, 0 ≤ simplexPoint y i then ENNReal.ofReal (dirichletPDF α (simplexPoint y)) else 0 := by
  filter_upwards [ae_simplexPoint_ne_zero m] with y hy
  have hsum := sum_simplexPoint y
  split_ifs with h
  · have hle : ∀ i, simplexPoint y i ≤ 1 := fun i => by
      rw [← hsum]
      exact Finset.single_le_sum (fun i _ => h i) (Finset.mem_univ i)
    rw [dirichletAt_pos hα fun i => ⟨lt_of_le_of_ne (h i) (hy i).symm, hle i⟩]
    refine dens_log ?_
    have hA : 0 < ∑ i, α i := Finset.sum_pos (fun i _ => hα i) ⟨0, Finset.mem_univ _⟩
    exact mul_pos (Real.Gamma_pos_of_pos hA) (Finset.prod_pos fun i _ => div_pos (Real.rpow_pos_of_pos (lt_of_le_of_ne (h i) (hy i).symm) _) (Real.Gamma_pos_of_pos (hα i)))
  · push Not at h
    obtain ⟨i, hi⟩ := h
    rw [dirichletAt_out hα ⟨i, .inl hi⟩]
    rfl

theorem dirichlet_good {m : ℕ} {α : Fin (m + 1) → ℝ} (hα : ∀ i, 0 < α i) : AEMeasurable (fun x => dens (dirichletAt α x)) (simplexRef (m + 1)) ∧
    dirichletLaw α = (simplexRef (m + 1)).withDensity fun x => dens (dirichletAt α x) := by
  classical
  constructor
  · refine (simplexPoint_embedding.aemeasurable_map_iff (μ := volume)).2 ⟨_, ?_, dirichletAt_ae hα⟩
    refine Measurable.ite ?_ ?_ measurable_const
    · have : MeasurableSet {y : Fin m → ℝ | ∀ i, 0 ≤ simplexPoint y i} := by
        rw [setOf_forall]
        exact MeasurableSet.iInter fun i => measurableSet_le measurable_const ((measurable_pi_apply i).comp measurable_simplexPoint)
      exact this
    · have : Measurable fun x : Fin (m + 1) → ℝ => dirichletPDF α x := by
        unfold dirichletPDF
        fun_prop
      exact (this.comp measurable_simplexPoint).ennreal_ofReal
  · refine Measure.ext fun s hs => ?_
    rw [withDensity_apply _ hs, ← (C38_dirichlet_partial hα).1.law s hs]
    show _ = ∫⁻ x in s, _ ∂(volume.map simplexPoint)
    rw [simplexPoint_embedding.restrict_map, simplexPoint_embedding.lintegral_map]

theorem project_concat {c B : List ℕ} {i K : ℕ} (h : B.length ≤ c.length) (hi : i < K) : project (c ++ [i]) (B ++ [K]) = project c B ++ [i] := by
  simp only [project, List.length_append, List.length_singleton]
  rw [show c.length + 1 - (B.length + 1) = c.length - B.length by omega, List.drop_append_of_le_length (by omega), List.zipWith_append (by simp; omega)]
  congr 1
  simp only [List.zipWith_cons_cons, List.zipWith_nil_right]
  split_ifs with h1
  · rw [show i = 0 by omega]
  · rfl

/-- The probabilities of a row of weights. -/
noncomputable def rowPMF {K : ℕ} (w : Fin K → ℝ) (h0 : ∀ i, 0 ≤ w i) (hs : 0 < ∑ i, w i) : PMF (Fin K) :=
  PMF.ofFintype (fun i => ENNReal.ofReal (w i / ∑ j, w j)) (by
    rw [← ENNReal.ofReal_sum_of_nonneg fun i _ => div_nonneg (h0 i) hs.le, ← Finset.sum_div, div_self hs.ne', ENNReal.ofReal_one])

theorem classes_good {s B : List ℕ} {K : ℕ} {w : Arr FVal} (hw : w.shape = B ++ [K]) (hB : bshape [s, B] = some s)
    (h : ∀ c, InRange c B → (∀ i : Fin K, w.get (c ++ [(i : ℕ)]) = .fin (vecAt K w c i) ∧ 0 ≤ vecAt K w c i) ∧ 0 < ∑ i, vecAt K w c i) :
    GoodAt (classes s (K := K)) categoricalKernel (Measure.pi fun k : Fin (entries s) => Measure.count.withDensity fun i => ENNReal.ofReal (vecAt K w (coord k) i / ∑ j, vecAt K w (coord k) j))
      (Measure.pi fun _ => Measure.count) [w] := by
  have hfit : FitsIn s B := fitsIn_iff.2 hB
  have hpr : ∀ k : Fin (entries s), InRange (project (coord k) B) B := fun k => project_inRange_fits hfit (coord_inRange k)
  have hv : ∀ (k : Fin (entries s)) (i : Fin K), vecAt K w (coord k) i = vecAt K w (project (coord k) B) i := fun k i => by
    have hl : B.length ≤ (coord k).length := by rw [(coord_inRange k).length_eq]; exact hfit.1
    rw [vecAt, vecAt, hw, project_concat hl i.2, project_self (List.rel_append (hpr k) (.cons i.2 .nil))]
  have hold : HoldsWeights B K (fun c => List.ofFn (vecAt K w c)) w := by
    refine ⟨hw, fun c _ => by simp, fun c hc i hi => ?_, fun c hc x hx => ?_, fun c hc => ?_⟩
    · have hi' : i < K := by simpa using hi
      rw [List.getElem_ofFn]
      exact ((h c hc).1 ⟨i, hi'⟩).1
    · obtain ⟨i, rfl⟩ := (List.mem_ofFn' _ _).1 hx
      exact ((h c hc).1 i).2
    · rw [List.sum_ofFn]
      exact (h c hc).2
  have hg := C113_model (s := s) hold hB (P := fun k => rowPMF (vecAt K w (project (coord k) B)) (fun i => ((h _ (hpr k)).1 i).2) (h _ (hpr k)).2) fun k i => by
    simp only [rowPMF, PMF.ofFintype_apply, categoricalMass, List.sum_ofFn]
    rw [List.getD_eq_getElem _ _ (by simp), List.getElem_ofFn]
  have e : (fun k : Fin (entries s) => (rowPMF (vecAt K w (project (coord k) B)) (fun i => ((h _ (hpr k)).1 i).2) (h _ (hpr k)).2).toMeasure) =
      fun k => Measure.count.withDensity fun i => ENNReal.ofReal (vecAt K w (coord k) i / ∑ j, vecAt K w (coord k) j) := by
    funext k
    rw [toMeasure_count]
    simp only [hv k]
    rfl
  rwa [e] at hg

/-- **C134** (vectors, counts and categories) For every distribution that logprob.py implements, arrays of any shape and parameters that fit and are in range at every position: the exponential of the sum over the log-probability array
is the density of the law. -/
theorem C134_vectors {chol : (n : ℕ) → Matrix (Fin n) (Fin n) ℝ → Option (Matrix (Fin n) (Fin n) ℝ)} (hchol : ∀ n, CholContract (chol n)) {D : VLib} {L : Layout} {p : List (Arr FVal)} (h : D.Domain L p) :
    GoodAt L.arr (D.kernel chol) (D.law L p) (D.ref L) p := by
  match D, L, p, h with
  | .num d, .nums s, p, h => exact C134_arrays h.1 h.2
  | .mvnormal, .vecs b n, [mu, cov], ⟨h1, h2, h3, h4, h5, h6⟩ => exact C106_mvnormal h1 (hchol n) h2 h4 h6 h5 h3
  | .dirichlet, .vecs b 0, [alpha], h => exact absurd h.1 (lt_irrefl 0)
  | .dirichlet, .vecs b (n + 1), [alpha], ⟨_, h2, h3, h4, h5⟩ =>
    exact goodAt_pi (fun k => dirichlet_prob (h5 k)) (fun k => (dirichlet_good (h5 k)).1) (fun k => (dirichlet_good (h5 k)).2) fun x => (dirichletArr_rows h2 h3 h4 x).2
  | .multinomial, .ints b m, [N, P], ⟨h1, h2, h3, h4, h5, h6⟩ => exact C39_model_partial h1 h2 h3 h4 h5 h6
  | .categorical, .cats s K, [w], ⟨B, h1, h2, h3⟩ => exact classes_good h1 h2 h3

/-- Draws are in the support. -/
theorem vec_supp {D : VLib} {L : Layout} {p : List (Arr FVal)} (h : D.Domain L p) : ∀ᵐ x ∂(D.law L p), x ∈ D.supp L p := by
  match D, L, p, h with
  | .num d, .nums s, p, h =>
    have hp : ∀ k : Fin (entries s), IsProbabilityMeasure (d.law (paramsAt p (coord k))) := fun k => (all_described (h.2 k)).1.good.prob
    exact ae_all_iff.2 fun k => (Measure.quasiMeasurePreserving_eval _ k).ae (law_supp (h.2 k))
  | .mvnormal, .vecs b n, [mu, cov], _ => exact ae_of_all _ fun _ => trivial
  | .dirichlet, .vecs b 0, [alpha], h => exact absurd h.1 (lt_irrefl 0)
  | .dirichlet, .vecs b (n + 1), [alpha], ⟨_, h2, h3, h4, h5⟩ =>
    have hp : ∀ k : Fin (entries b), IsProbabilityMeasure (dirichletLaw (vecAt (n + 1) alpha (coord k))) := fun k => dirichlet_prob (h5 k)
    refine ae_all_iff.2 fun k => (Measure.quasiMeasurePreserving_eval (fun k : Fin (entries b) => dirichletLaw (vecAt (n + 1) alpha (coord k))) k).ae (p := fun x => (∀ i, 0 < x i) ∧ ∑ i, x i = 1) ?_
    rw [dirichlet_eq_map (h5 k), sxB_embedding.ae_map_iff]
    exact ae_of_all _ fun z => sxB_mem z
  | .multinomial, .ints b m, [N, P], ⟨h1, h2, h3, h4, h5, h6⟩ =>
    have hp : ∀ k : Fin (entries b), IsProbabilityMeasure (Measure.count.withDensity fun x => ENNReal.ofReal (multinomialMass (natAt N (coord k)) (vecAt m P (coord k)) x)) := fun k => by
      have hs := multinomialMass_hasSum (n := natAt N (coord k)) (h6 k)
      refine ⟨?_⟩
      rw [withDensity_apply _ MeasurableSet.univ, Measure.restrict_univ, lintegral_count, ← ENNReal.ofReal_tsum_of_nonneg (multinomialMass_nonneg (h5 k)) hs.summable, hs.tsum_eq, ENNReal.ofReal_one]
    refine ae_all_iff.2 fun k => (Measure.quasiMeasurePreserving_eval (fun k : Fin (entries b) => Measure.count.withDensity fun x => ENNReal.ofReal (multinomialMass (natAt N (coord k)) (vecAt m P (coord k)) x)) k).ae
      (p := fun x => (∀ i, 0 ≤ x i) ∧ ∑ i, x i = (natAt N (coord k) : ℤ)) ?_
    rw [ae_withDensity_iff (measurable_of_countable _)]
    refine ae_of_all _ fun x hx => ?_
    by_contra hn
    refine hx ?_
    rw [multinomialMass, if_neg hn, ENNReal.ofReal_zero]
  | .categorical, .cats s K, [w], _ => exact ae_of_all _ fun _ => trivial

theorem validVec_valid {chol : (n : ℕ) → Matrix (Fin n) (Fin n) ℝ → Option (Matrix (Fin n) (Fin n) ℝ)} (hchol : ∀ n, CholContract (chol n)) {lay : ℕ → Layout} {dist : ℕ → VLib} {ρ : ℕ → Arr FVal} :
    ∀ {l : List (ℕ × RVDef VLib)} {σ : ∀ i, (lay i).Space}, (∀ p ∈ l, dist p.1 = p.2.dist) → ValidVec lay ρ l σ →
      Valid (fun i => (lay i).arr) (VLib.kernel chol) (fun i d => d.law (lay i)) (fun i => (dist i).ref (lay i)) ρ l σ
  | [], _, _, _ => trivial
  | (id, r) :: l, σ, hd, ⟨h1, h2⟩ => by
    have hdi : dist id = r.dist := hd _ List.mem_cons_self
    refine ⟨?_, ?_⟩
    · have := C134_vectors hchol h1
      rw [← hdi] at this ⊢
      exact this
    · filter_upwards [vec_supp h1] with x hx
      exact validVec_valid hchol (fun p hp => hd p (List.mem_cons_of_mem _ hp)) (h2 x hx)

/-- **C134** (joint densities with vectors, counts and categories) For models with array variables of all the distributions that logprob.py implements, given in dependency order, the hypotheses are on the model only: as long as all
parameters that can be reached fit and are in range, the exponential of `joint_logprob` is the joint density of the variables. -/
theorem C134_vectors_joint_density {chol : (n : ℕ) → Matrix (Fin n) (Fin n) ℝ → Option (Matrix (Fin n) (Fin n) ℝ)} (hchol : ∀ n, CholContract (chol n)) (lay : ℕ → Layout) {dist : ℕ → VLib} (ρ : ℕ → Arr FVal)
    (ω : ℕ → VLib → List (Arr FVal) → Arr FVal) {l : List (ℕ × RVDef VLib)} (hne : l ≠ []) (hord : DependencyOrder l) (hdist : ∀ p ∈ l, dist p.1 = p.2.dist) (huser : ∀ p ∈ l, ∀ i, User (p.2.args i))
    {rvs clones : List ℕ} {realized : Dict ℕ ℕ} (hc : clones.length = rvs.length) (hall : ∀ v, v ∈ l.map Prod.fst ↔ v ∈ rvs ∨ v ∈ Dict.keys realized)
    (hclosed : ∀ p ∈ l, ∀ i id, Mentions id (p.2.args i) → id ∈ l.map Prod.fst)
    (env : (∀ i, (lay i).Space) → ℕ → Arr FVal) (henv : ∀ σ v x, Dict.get? (rvValues rvs clones realized) v = some x → env σ x = (lay v).arr (σ v))
    (hfresh : ∀ σ, ∀ p ∈ l, params (asg (fun i => (lay i).arr) σ) (env σ) p.2 = params (asg (fun i => (lay i).arr) σ) ρ p.2) :
    ∃ j vvs, joint (Dict.get? l) rvs clones realized = .ok (some (j, vvs)) ∧
      ∀ σ₀ : ∀ i, (lay i).Space, ValidVec lay ρ l σ₀ → ∀ φ : (∀ i, (lay i).Space) → ENNReal,
        refE (fun i => (dist i).ref (lay i)) l σ₀ (fun σ => dens (evalJoint (VLib.kernel chol) (env σ) ω j) * φ σ) = sampleE (fun i => (lay i).arr) (fun i d => d.law (lay i)) ρ l σ₀ φ := by
  obtain ⟨j, vvs, h1, -, h2⟩ := C106_joint_density (fun i => (lay i).arr) (VLib.kernel chol) (fun i d => d.law (lay i)) (fun i => (dist i).ref (lay i)) ρ ω hne hord huser hc hall hclosed env henv hfresh
  exact ⟨j, vvs, h1, fun σ₀ hv φ => h2 σ₀ (validVec_valid hchol hdist hv) φ⟩

end Verif.Library
