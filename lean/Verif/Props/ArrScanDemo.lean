import Verif.Props.ArrScan
import Mathlib.Data.Fin.VecNotation

/-! # Models with scans -/

namespace Verif.ArrGraph.Drift
open Verif Cond MeasureTheory ProbabilityTheory Schools

/-- `tau` exponential, `m` a vector of normal variables, `x` a random walk with drifts `m` and standard deviation `tau`. -/
inductive Dist where
  | normal
  | exponential
  | walk

variable (T : ℕ)

noncomputable def walk : ScanDist ℕ where
  seqs := [100]
  out := .sit 20
  nonSeqs := [200]
  io := 0
  new := 30
  lag := 1
  steps := T
  lp x e := normalLogprob x (e 20 + e 100) (e 200)

theorem proper : (walk T).Proper := by
  refine ⟨by simp [walk, ScanOut.taps], ?_, by simp [walk], fun x e e' h => ?_⟩
  · exact ScanDemo.lags1
  · simp only [walk]
    rw [h 20 (by simp [walk]) (by simp [walk]), h 100 (by simp [walk]) (by simp [walk]), h 200 (by simp [walk]) (by simp [walk])]

theorem symmetric : Symmetric ((walk T).out.taps.map Prod.fst) (walk T).lag := symmetric_all fun t => by simp [walk, ScanOut.taps]; omega

noncomputable def stepLaw (e : ℕ → FVal) : Measure ℝ :=
  match e 20, e 100, e 200 with
  | .fin a, .fin b, .fin s => gaussianReal (a + b) (s ^ 2).toNNReal
  | _, _, _ => 0

theorem measurable_getD {n : ℕ} (h : List ℝ) (k i : ℕ) : Measurable fun x : Fin n → ℝ => (h ++ (List.ofFn x).take k).getD i 0 := by
  by_cases h1 : i < h.length
  · have : (fun x : Fin n → ℝ => (h ++ (List.ofFn x).take k).getD i 0) = fun _ => h[i] := by
      funext x
      rw [List.getD_append _ _ _ _ h1, List.getD_eq_getElem _ _ h1]
    rw [this]
    exact measurable_const
  · by_cases h2 : i - h.length < k ∧ i - h.length < n
    · have : (fun x : Fin n → ℝ => (h ++ (List.ofFn x).take k).getD i 0) = fun x => x ⟨i - h.length, h2.2⟩ := by
        funext x
        rw [List.getD_append_right _ _ _ _ (by omega), List.getD_eq_getElem _ _ (by simp; omega)]
        simp
      rw [this]
      exact measurable_pi_apply _
    · have : (fun x : Fin n → ℝ => (h ++ (List.ofFn x).take k).getD i 0) = fun _ => 0 := by
        funext x
        rw [List.getD_append_right _ _ _ _ (by omega), List.getD_eq_default _ _ (by simp; omega)]
      rw [this]
      exact measurable_const

theorem measurable_normal {Y : Type} [MeasurableSpace Y] {f g : Y → ℝ} (hf : Measurable f) (hg : Measurable g) {s : ℝ} (hs : 0 < s) :
    Measurable fun y => dens (normalLogprob (.fin (g y)) (.fin (f y)) (.fin s)) := by
  have : (fun y => dens (normalLogprob (.fin (g y)) (.fin (f y)) (.fin s))) = fun y => ENNReal.ofReal (gaussianPDFReal (f y) (s ^ 2).toNNReal (g y)) := by
    funext y
    rw [normal_eval _ _ hs, dens_log (gaussianPDFReal_pos _ _ _ (toNNReal_sq_ne hs))]
  rw [this]
  refine Measurable.ennreal_ofReal ?_
  simp only [gaussianPDFReal]
  fun_prop

/-- The walk from `x0`, given the drifts and the standard deviation. -/
noncomputable def law (p : List (Arr FVal)) : Measure (Fin (entries [T]) → ℝ) :=
  seriesLaw (fun h => stepLaw ((walk T).envAt [p.getD 1 (scalar 0)] [p.getD 2 (scalar 0)] h)) (entries [T]) [toReal ((p.getD 0 (scalar 0)).get [0])]

variable {T}

theorem walk_env {m : ℕ → ℝ} {a b : Arr FVal} (ha : ∀ i, i < T → a.get [i] = .fin (m i)) {s : ℝ} (hb : b.get [] = .fin s) (h : List ℝ) (hh : h.length - 1 < T) :
    (walk T).envAt [a] [b] h 20 = .fin (h.getD ((h.length : ℤ) + -1).toNat 0) ∧ (walk T).envAt [a] [b] h 100 = .fin (m (h.length - 1)) ∧ (walk T).envAt [a] [b] h 200 = .fin s := by
  refine ⟨?_, ?_, ?_⟩
  · simp [ScanDist.envAt, walk, ScanOut.taps, List.lookup]
  · simp only [ScanDist.envAt, walk, ScanOut.taps, List.map_cons, List.map_nil, Prod.swap, List.lookup]
    exact ha _ hh
  · simp only [ScanDist.envAt, walk, ScanOut.taps, List.map_cons, List.map_nil, Prod.swap, List.lookup]
    exact hb

theorem walk_valid {m : ℕ → ℝ} {a b : Arr FVal} (ha : ∀ i, i < T → a.get [i] = .fin (m i)) {s : ℝ} (hs : 0 < s) (hb : b.get [] = .fin s) :
    ∀ (n : ℕ) (h : List ℝ), 0 < h.length → h.length + n = T + 1 → SeriesValid (walk T).lp stepLaw volume ((walk T).envAt [a] [b]) n h
  | 0, _, _, _ => trivial
  | n + 1, h, h0, hn => by
    obtain ⟨e1, e2, e3⟩ := walk_env ha hb h (by omega)
    refine ⟨?_, fun x _ => walk_valid ha hs hb n _ (by simp) (by simp; omega)⟩
    have e : (fun y : ℝ => dens ((walk T).lp (.fin y) ((walk T).envAt [a] [b] h))) = gaussianPDF (h.getD ((h.length : ℤ) + -1).toNat 0 + m (h.length - 1)) (s ^ 2).toNNReal := by
      funext y
      show dens (normalLogprob (.fin y) ((walk T).envAt [a] [b] h 20 + (walk T).envAt [a] [b] h 100) ((walk T).envAt [a] [b] h 200)) = _
      rw [e1, e2, e3, FVal.add_fin, normal_eval _ _ hs, dens_log (gaussianPDFReal_pos _ _ _ (toNNReal_sq_ne hs))]; rfl
    refine ⟨?_, ?_, ?_⟩
    · rw [stepLaw, e1, e2, e3]; infer_instance
    · rw [e]; exact measurable_gaussianPDF _ _
    · rw [e, stepLaw, e1, e2, e3]; exact gaussianReal_of_var_ne_zero _ (toNNReal_sq_ne hs)

theorem start_entry (x0 : ℝ) {i : ℕ} (h : i < [x0].length) : (vector 1 fun _ => x0).get [i] = .fin [x0][i] := by
  obtain rfl : i = 0 := by simpa using h
  rfl

theorem walk_good {x0 : ℝ} {m : ℕ → ℝ} {a b : Arr FVal} (has : a.shape = [T]) (ha : ∀ i, i < T → a.get [i] = .fin (m i)) {s : ℝ} (hs : 0 < s) (hb : b.get [] = .fin s) {mem : List FVal}
    (hmem : mem.length = 1 + T) :
    GoodAt (numbers [T]) (scanKernel mem (walk T)) (law T [vector 1 fun _ => x0, a, b]) (Measure.pi fun _ => volume) [vector 1 fun _ => x0, a, b] :=
  C109_scan (d := walk T) (proper T) (symmetric T) (init := [x0]) (seqs := [a]) (vals := [b])
    ⟨rfl, .inr ⟨by simp [walk], vector 1 fun _ => x0, rfl, rfl, fun i h => start_entry x0 h⟩, rfl, fun c hc => by obtain rfl := List.mem_singleton.1 hc; exact ⟨T, has, le_rfl⟩⟩
    hmem stepLaw volume (walk_valid ha hs hb T [x0] (by simp) (by simp [add_comm]))
    (fun k hk => by
      have hk : k < T := hk
      have : ∀ x : Fin (entries [(walk T).steps]) → ℝ, ([x0] ++ (List.ofFn x).take k).length = k + 1 := fun x => by
        have : (List.ofFn x).length = T := by rw [List.length_ofFn, entries_vector]; rfl
        rw [List.length_append, List.length_take, this]
        simp [hk.le, add_comm]
      have e : (fun x : Fin (entries [(walk T).steps]) → ℝ => dens ((walk T).lp (.fin ((List.ofFn x).getD k 0)) ((walk T).envAt [a] [b] ([x0] ++ (List.ofFn x).take k)))) =
          fun x => dens (normalLogprob (.fin (([] ++ (List.ofFn x).take (k + 1)).getD k 0)) (.fin (([x0] ++ (List.ofFn x).take k).getD k 0 + m k)) (.fin s)) := by
        funext x
        obtain ⟨e1, e2, e3⟩ := walk_env ha hb ([x0] ++ (List.ofFn x).take k) (by rw [this]; omega)
        show dens (normalLogprob _ ((walk T).envAt [a] [b] _ 20 + (walk T).envAt [a] [b] _ 100) ((walk T).envAt [a] [b] _ 200)) = _
        rw [e1, e2, e3, FVal.add_fin, this]
        congr 3
        · have hl : (List.ofFn x).length = T := by rw [List.length_ofFn, entries_vector]; rfl
          rw [List.nil_append, List.getD_eq_getElem _ _ (by omega), List.getD_eq_getElem _ _ (by rw [List.length_take]; omega), List.getElem_take]
        · simp
      rw [e]
      exact measurable_normal ((measurable_getD _ _ _).add_const _) (measurable_getD _ _ _) hs)

variable (T)

/-- Variables 0 `tau`, 1 `m`, 2 `x`. -/
def shape (i : ℕ) : List ℕ := if i = 0 then [] else [T]

noncomputable def kernel : Dist → Arr FVal → List (Arr FVal) → Except Err (Arr FVal)
  | .normal => elemwiseLogprob normalK
  | .exponential => elemwiseLogprob expK
  | .walk => scanKernel (List.replicate (1 + T) .nan) (walk T)

/-- Only the walk is a recurrent scan. -/
noncomputable def seen : Dist → Option (Arr FVal → Arr FVal → Arr FVal)
  | .walk => (walk T).seen (List.replicate (1 + T) .nan)
  | _ => none

noncomputable def laws (i : ℕ) (dist : Dist) (p : List (Arr FVal)) : Measure (Fin (entries (shape T i)) → ℝ) :=
  match i, dist with
  | i, .normal => Measure.pi fun k => law1 .normal (paramsAt p (coord k))
  | i, .exponential => Measure.pi fun k => law1 .exponential (paramsAt p (coord k))
  | 0, .walk => 0
  | _ + 1, .walk => law T p

noncomputable def ref (i : ℕ) : Measure (Fin (entries (shape T i)) → ℝ) := Measure.pi fun _ => volume

noncomputable def tau : RVDef Dist := ⟨.exponential, 1, ![.const (scalar 5)]⟩
noncomputable def m : RVDef Dist := ⟨.normal, 2, ![.const (scalar 0), .const (scalar 5)]⟩
noncomputable def x (x0 : ℝ) : RVDef Dist := ⟨.walk, 3, ![.const (vector 1 fun _ => x0), .rv 1 .normal 2 m.args, .rv 0 .exponential 1 tau.args]⟩
noncomputable def model (x0 : ℝ) : List (ℕ × RVDef Dist) := [(0, tau), (1, m), (2, x x0)]

theorem vector_entry {T : ℕ} (x : Fin (entries [T]) → ℝ) {i : ℕ} (hi : i < T) : (numbers [T] x).get [i] = .fin ((List.ofFn x).getD i 0) := by
  have := vecList_numbers x
  have h2 : (vecList (numbers [T] x)).getD i .nan = (numbers [T] x).get [i] := by simp [vecList, numbers, hi]
  rw [← h2, this, List.getD_eq_getElem _ _ (by simp [entries_vector, hi]), List.getD_eq_getElem _ _ (by simp [entries_vector, hi]), List.getElem_map]

theorem valid (x0 : ℝ) (ρ : ℕ → Arr FVal) (σ : ∀ i, Fin (entries (shape T i)) → ℝ) : Valid (fun i => numbers (shape T i)) (kernel T) (laws T) (ref T) ρ (model x0) σ := by
  have p0 : ∀ σ ρ, params σ ρ tau = [scalar 5] := fun σ ρ => by simp [params, tau, List.ofFn_succ, evalAt]
  have p1 : ∀ σ ρ, params σ ρ m = [scalar 0, scalar 5] := fun σ ρ => by simp [params, m, List.ofFn_succ, evalAt]
  have hpos : ∀ᵐ x1 ∂(laws T 0 .exponential [scalar 5]), 0 < x1 (⟨0, one_pos⟩ : Fin 1) := by
    have hp : ∀ k : Fin (entries (shape T 0)), law1 .exponential (paramsAt [scalar 5] (coord k)) = (volume : Measure ℝ).withDensity (exponentialPDF 5⁻¹) := fun k => rfl
    have : ∀ k : Fin (entries (shape T 0)), SigmaFinite (law1 .exponential (paramsAt [scalar 5] (coord k))) := fun k => by
      rw [hp]
      have : IsProbabilityMeasure ((volume : Measure ℝ).withDensity (exponentialPDF 5⁻¹)) := isProbabilityMeasure_expMeasure (by norm_num)
      infer_instance
    exact (Measure.quasiMeasurePreserving_eval _ _).ae (exp_pos_ae (m := 5))
  refine ⟨?_, ?_⟩
  · rw [p0]
    exact exp_good (s := []) (a := scalar 5) rfl (m := fun _ => 5) (fun _ => rfl) (by norm_num)
  rw [p0]
  filter_upwards [hpos] with x0' h0
  refine ⟨?_, ae_of_all _ fun x1 => ⟨?_, ae_of_all _ fun _ => trivial⟩⟩
  · rw [p1]
    exact normal_good (s := [T]) (fit_scalars rfl rfl) (m := fun _ => 0) (sd := fun _ => 5) (fun _ => rfl) (fun _ => rfl) (by norm_num)
  · have p2 : params (asg (fun i => numbers (shape T i)) (Function.update (Function.update σ 0 x0') 1 x1)) ρ (x x0) = [vector 1 fun _ => x0, numbers [T] x1, numbers [] x0'] := by
      simp only [params, x, List.ofFn_succ, evalAt, asg]
      rfl
    rw [p2]
    exact walk_good (m := fun i => (List.ofFn x1).getD i 0) (a := numbers [T] x1) (b := numbers [] x0') rfl
      (fun i hi => vector_entry x1 hi) h0
      (scalar_entry x0' []) (by simp)

/-- Value variables `10`, `11`, `12`. -/
noncomputable def env (σ : ∀ i, Fin (entries (shape T i)) → ℝ) (i : ℕ) : Arr FVal := if 10 ≤ i then numbers (shape T (i - 10)) (σ (i - 10)) else ⟨[], fun _ => .nan⟩

/-- All the hypotheses hold, for any number of steps. -/
example (x0 : ℝ) (ρ : ℕ → Arr FVal) (ω : ℕ → Dist → List (Arr FVal) → Arr FVal) :
    ∃ j vvs, jointScan (seen T) (Dict.get? (model x0)) [2, 0, 1] [12, 10, 11] [] = .ok (some (j, vvs)) ∧
      ∀ σ₀, ∀ φ, refE (ref T) (model x0) σ₀ (fun σ => dens (evalJoint (kernel T) (env T σ) ω j) * φ σ) = sampleE (fun i => numbers (shape T i)) (laws T) ρ (model x0) σ₀ φ := by
  obtain ⟨j, vvs, h1, -, h3⟩ := C109_joint_density_partial (seen := seen T) (fun i => numbers (shape T i)) (kernel T) (laws T) (ref T) ρ ω (l := model x0) (rvs := [2, 0, 1]) (clones := [12, 10, 11])
    (realized := []) (by simp [model]) (by simp [DependencyOrder, model, tau, m, x, Mentions, Fin.forall_fin_succ]) (by simp [model, tau, m, x, User, Fin.forall_fin_succ])
    (by simp [model, tau, m, x, UsesScan, seen, Fin.forall_fin_succ]) rfl
    (by intro v; simp [model, Dict.keys]; tauto) (by simp [model, tau, m, x, Mentions, Fin.forall_fin_succ]) (env T)
    (by
      intro σ v x h
      have e : rvValues [2, 0, 1] [12, 10, 11] [] = [(2, 12), (0, 10), (1, 11)] := by decide
      rw [e] at h
      simp only [Dict.get?] at h
      split_ifs at h with h1 h2 h3 <;> cases h <;> (subst_vars; rfl))
    (by
      intro σ p hp
      simp only [model, List.mem_cons, List.not_mem_nil, or_false] at hp
      rcases hp with rfl | rfl | rfl <;> simp [params, tau, m, x, List.ofFn_succ, evalAt])
  exact ⟨j, vvs, h1, fun σ₀ φ => h3 σ₀ (valid T x0 ρ σ₀) φ⟩

/-! ## Local level: a random walk seen with noise -/

/-- `x_t ~ N(x_{t-1}, 1)`. -/
noncomputable def level : ScanDist ℕ where
  seqs := []
  out := .sit 20
  nonSeqs := []
  io := 0
  new := 30
  lag := 1
  steps := T
  lp x e := normalLogprob x (e 20) (.fin 1)

/-- `y_t ~ N(x_t, 1)`, where `x` is the sequence. -/
noncomputable def noise : ScanDist ℕ where
  seqs := [100]
  out := .nit
  nonSeqs := []
  io := 0
  new := 30
  lag := 0
  steps := T
  lp x e := normalLogprob x (e 100) (.fin 1)

theorem level_proper : (level T).Proper := by
  refine ⟨by simp [level, ScanOut.taps], ScanDemo.lags1, by simp [level], fun x e e' h => ?_⟩
  simp only [level]
  rw [h 20 (by simp [level]) (by simp [level])]

theorem noise_proper : (noise T).Proper := by
  refine ⟨by simp [noise, ScanOut.taps], ScanDemo.lags0, by simp [noise], fun x e e' h => ?_⟩
  simp only [noise]
  rw [h 100 (by simp [noise]) (by simp [noise])]

theorem level_params (x0 : ℝ) : ScanParams (level T) [vector 1 fun _ => x0] [x0] [] [] :=
  ⟨rfl, .inr ⟨by simp [level], vector 1 fun _ => x0, rfl, rfl, fun i h => start_entry x0 h⟩, rfl, by simp⟩

/-- Distributions `true`: the walk; `false`: the observations. -/
noncomputable def seen' (T : ℕ) : Bool → Option (Arr FVal → Arr FVal → Arr FVal)
  | true => (level T).seen (List.replicate (1 + T) .nan)
  | false => none

/-- `y = normal(x[1:], 1)`: an exception, for any number of steps from two on. -/
example (x0 : ℝ) (hT : 2 ≤ T) := C109_used_wrong (d := level T) (dx := true) (dy := false) (seen := seen' T) (mem := List.replicate (1 + T) .nan)
  (kernel := fun | true => scanKernel (List.replicate (1 + T) .nan) (level T) | false => elemwiseLogprob fun x p => normalLogprob x (p.headD .nan) (.fin 1))
  rfl rfl (level_proper T) (by simp [level]) le_rfl hT (level_params T x0) (by simp [level])

/-- The observations are paired with the walk one step earlier. -/
example (x0 : ℝ) := C109_sequence_wrong (d := level T) (d' := noise T) (dx := true) (dy := false) (seen := seen' T) (mem := List.replicate (1 + T) .nan) (mem' := List.replicate T .nan)
  (kernel := fun | true => scanKernel (List.replicate (1 + T) .nan) (level T) | false => scanKernel (List.replicate T .nan) (noise T))
  rfl rfl rfl (level_proper T) (symmetric_all fun t => by simp [level, ScanOut.taps]; omega) (noise_proper T) (by simp [level]) rfl rfl rfl (level_params T x0) (by simp [level]) (by simp [noise])

end Verif.ArrGraph.Drift
