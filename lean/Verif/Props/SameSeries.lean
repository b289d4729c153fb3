import Verif.Lemmas.SameSeries
import Verif.Props.SameVariable
import Verif.Lemmas.SameLibrary

/-! # C140: the same series of random numbers, written in different ways -/

namespace Verif.ArrGraph
open Verif FVal

/-- **C140** (the sum) Computations with the same result have the same joint log-probability. -/
theorem C140_joint {r r' : Except Err (Arr FVal)} (h : SameResult r r') : arrayJoint r = arrayJoint r' := by
  rcases h with ⟨e, rfl, rfl⟩ | ⟨a, a', rfl, rfl, hs, hg⟩
  · rfl
  · simp only [arrayJoint, ← hs]
    congr 2
    exact List.map_congr_left fun c hc => hg c (mem_allCoords.1 hc)

variable (cdf : (FVal → List FVal → Except Err FVal) → Arr FVal → List (Arr FVal) → Except Err (Arr FVal)) (elem : (FVal → List FVal → Except Err FVal) → FVal → List FVal → Except Err FVal)
  (empty : List ℕ → FVal)

/-- **C140** (independent entries) A vector of random numbers with parameters `P` (one list of entries for each parameter), the stack of the numbers drawn one by one, the join of the vector's pieces, and a scan that draws an entry in
each step have the same log-probability: the same terms, the same shape and the same error.  The formula `k` of the distribution is arbitrary, and so are values and parameters; scans are at values that are real numbers. -/
theorem C140_independent {n : ℕ} (k : FVal → List FVal → Except Err FVal) (P : List (ℕ → FVal)) :
    (∀ v : ℕ → FVal, SameResult (derivedKernel elemwiseLogprob cdf elem empty (.base k) (column n v) (P.map (column n)))
      (derivedKernel elemwiseLogprob cdf elem empty (.stack (List.replicate n (k, P.length))) (column n v) (oneByOne n P))) ∧
    (∀ (v : ℕ → FVal) (lens : List ℕ), lens ≠ [] → lens.sum = n → SameResult (derivedKernel elemwiseLogprob cdf elem empty (.base k) (column n v) (P.map (column n)))
      (derivedKernel elemwiseLogprob cdf elem empty (.join 0 (lens.map fun len => (k, P.length, len))) (column n v) (inPieces P 0 lens))) ∧
    (∀ (x : ℕ → ℝ) (mem : List FVal), mem.length = n → SameResult (derivedKernel elemwiseLogprob cdf elem empty (.base k) (column n fun i => fin (x i)) (P.map (column n)))
      (scanKernel mem (drawScan n k P.length) (column n fun i => fin (x i)) (P.map (column n)))) := by
  refine ⟨fun v => ?_, fun v lens hne hl => ?_, fun x mem hmem => ?_⟩
  · exact isTerms_same (elemwise_terms rfl k P) (stack_terms rfl k P)
  · subst hl
    exact isTerms_same (elemwise_terms rfl k P) (join_terms hne rfl k P)
  · exact isTerms_same (elemwise_terms rfl k P) (draw_terms n k P hmem x)

example := (C140_independent (fun _ _ _ => .ok ⟨[], fun _ => 0⟩) (fun k => k) (fun _ => 0) (n := 3) (fun v p => normalLogprob v (p.getD 0 nan) (p.getD 1 nan)) [fun i => fin i, fun _ => fin 1]).2.1
  (fun i => fin i) [1, 2] (by simp) (by simp)

/-- **C140** (parameters that are broadcast) A vector of random numbers whose parameters are numbers, vectors of one entry, or full vectors has the log-probability of the one with the parameters written out for each entry. -/
theorem C140_broadcast {n : ℕ} (k : FVal → List FVal → Except Err FVal) (v : ℕ → FVal) {ps : List (Arr FVal)} (hps : ∀ a ∈ ps, a.shape = [] ∨ a.shape = [1] ∨ a.shape = [n]) :
    SameResult (derivedKernel elemwiseLogprob cdf elem empty (.base k) (column n v) ps)
      (derivedKernel elemwiseLogprob cdf elem empty (.base k) (column n v) (ps.map fun a => column n fun i => match a.shape with | [] => a.get [] | [1] => a.get [0] | _ => a.get [i])) := by
  have hb : bshape ([n] :: ps.map Arr.shape) = some [n] := by
    rw [bshape_cons_iff]
    intro t ht
    obtain ⟨a, ha, rfl⟩ := List.mem_map.1 ht
    rcases hps a ha with h | h | h <;> rw [h] <;> refine ⟨by simp, fun d hd => ?_⟩ <;> simp at hd <;> subst hd <;> simp [padded]
  have h1 := elemwise_terms_fit (v := column n v) rfl k hb
  have h2 := elemwise_terms (v := column n v) rfl k (ps.map fun a i => match a.shape with | [] => a.get [] | [1] => a.get [0] | _ => a.get [i])
  rw [List.map_map] at h2
  refine isTerms_same (isTerms_congr (fun i hi => ?_) h1) h2
  rw [List.map_map]
  congr 1
  refine List.map_congr_left fun a ha => ?_
  simp only [entryAt, Function.comp]
  rcases hps a ha with h | h | h
  · simp [h, project]
  · simp [h, project]
  · rw [h, project_one hi]
    split
    · rename_i h3; cases h3
    · rename_i h3
      cases h3
      rw [show i = 0 by omega]
    · rfl

example := C140_broadcast (fun _ _ _ => .ok ⟨[], fun _ => 0⟩) (fun k => k) (fun _ => 0) (n := 3) (fun v p => normalLogprob v (p.getD 0 nan) (p.getD 1 nan)) (fun i => fin i) (ps := [scalar (fin 0), column 3 fun i => fin (i + 1)])
  (by simp [scalar, column])

/-- The scan that adds a random number to the previous entry in each step: its inner graph is `x + eps` (transforms.py:476-492 `measurable_add`). -/
noncomputable def walkStep (k : FVal → List FVal → Except Err FVal) (prev x : FVal) (p : List FVal) : Except Err FVal := measurableElemwiseLogprob (.loc prev) (fun v => k v p) x

/-- **C140** (random walks) `a + cumsum(eps)` for a vector `eps` of random numbers with parameters `P`, and a scan that starts at `a` and adds a random number with the parameters of the step in each step, have the same
log-probability, for every number of steps but zero, every formula of the distribution and all parameters, at all real values. -/
theorem C140_walk {n : ℕ} (hn : n ≠ 0) (k : FVal → List FVal → Except Err FVal) (P : List (ℕ → FVal)) (a : ℝ) (x : ℕ → ℝ) {mem : List FVal} (hmem : mem.length = 1 + n) :
    SameResult (derivedKernel elemwiseLogprob cdf elem empty (.layer .loc (.cumsum 0 (.base k))) (column n fun i => fin (x i)) (scalar (fin a) :: P.map (column n)))
      (scanKernel mem (stepScan n (walkStep k) P.length) (column n fun i => fin (x i)) (column 1 (fun _ => fin a) :: P.map (column n))) := by
  have h1 := step_terms n (walkStep k) P hmem a x
  refine isTerms_same ?_ h1
  refine loc_terms (v := column n fun i => fin (x i)) rfl (fin a) _ fun w hw hv => ?_
  refine isTerms_congr (fun i hi => ?_) (cumsum_terms hn hw k P)
  simp only [walkStep, loc_at]
  rcases i with _ | i
  · rw [if_pos rfl, if_pos rfl, hv 0 hi]
    simp [column]
  · rw [if_neg (by omega), if_neg (by omega), hv _ hi, hv _ (by omega)]
    simp [column]

example := C140_walk (fun _ _ _ => .ok ⟨[], fun _ => 0⟩) (fun k => k) (fun _ => 0) (n := 3) (by norm_num) (fun v p => normalLogprob v (p.getD 0 nan) (p.getD 1 nan)) [fun _ => fin 0, fun i => fin (i + 1)] 2 (fun i => i)
  (mem := [nan, nan, nan, nan]) rfl

/-- The formula of the normal distribution. -/
noncomputable def gaussian (v : FVal) (p : List FVal) : Except Err FVal := normalLogprob v (p.getD 0 nan) (p.getD 1 nan)

/-- A step of a scan that draws from a normal distribution around the previous entry. -/
noncomputable def gaussianStep (prev x : FVal) (p : List FVal) : Except Err FVal := normalLogprob x (prev + p.getD 0 nan) (p.getD 1 nan)

/-- **C140** (Gaussian random walks) `a + cumsum(normal(drift, sigma))` and a scan that starts at `a` and draws the next entry from `normal(x + drift, sigma)` have the same log-probability. -/
theorem C140_gaussian {n : ℕ} (hn : n ≠ 0) (drift sigma : ℕ → ℝ) (a : ℝ) (x : ℕ → ℝ) {mem : List FVal} (hmem : mem.length = 1 + n) :
    SameResult (derivedKernel elemwiseLogprob cdf elem empty (.layer .loc (.cumsum 0 (.base gaussian))) (column n fun i => fin (x i))
        (scalar (fin a) :: [fun i => fin (drift i), fun i => fin (sigma i)].map (column n)))
      (scanKernel mem (stepScan n gaussianStep 2) (column n fun i => fin (x i)) (column 1 (fun _ => fin a) :: [fun i => fin (drift i), fun i => fin (sigma i)].map (column n))) := by
  have h1 := C140_walk cdf elem empty hn gaussian [fun i => fin (drift i), fun i => fin (sigma i)] a x hmem
  have e : ∀ i, walkStep gaussian (fin (if i = 0 then a else x (i - 1))) (fin (x i)) [fin (drift i), fin (sigma i)] = gaussianStep (fin (if i = 0 then a else x (i - 1))) (fin (x i)) [fin (drift i), fin (sigma i)] := fun i => by
    generalize (if i = 0 then a else x (i - 1)) = y
    simp only [walkStep, loc_at, gaussian, gaussianStep, List.getD_cons_zero, List.getD_cons_succ, normalLogprob]
    refine check_congr Iff.rfl fun h => ?_
    fv []
    rw [show x i - y - drift i = x i - (y + drift i) by ring]
  have h2 := step_terms n (walkStep gaussian) [fun i => fin (drift i), fun i => fin (sigma i)] hmem a x
  have h3 := step_terms n gaussianStep [fun i => fin (drift i), fun i => fin (sigma i)] hmem a x
  have h4 : SameResult _ _ := isTerms_same (isTerms_congr (fun i _ => e i) h2) h3
  rcases h1 with ⟨e1, h5, h6⟩ | ⟨b, b', h5, h6, h7⟩
  · rcases h4 with ⟨e2, h8, h9⟩ | ⟨c, c', h8, h9, h10⟩
    · rw [h6] at h8
      cases h8
      exact .inl ⟨e1, h5, h9⟩
    · rw [h6] at h8; cases h8
  · rcases h4 with ⟨e2, h8, h9⟩ | ⟨c, c', h8, h9, h10⟩
    · rw [h6] at h8; cases h8
    · rw [h6] at h8
      cases h8
      exact .inr ⟨b, c', h5, h9, h7.1.trans h10.1, fun i hi => (h7.2 i hi).trans (h10.2 i (h7.1 ▸ hi))⟩

example := C140_gaussian (fun _ _ _ => .ok ⟨[], fun _ => 0⟩) (fun k => k) (fun _ => 0) (n := 3) (by norm_num) (fun _ => 0) (fun i => i + 1) 2 (fun i => i) (mem := [nan, nan, nan, nan]) rfl

end Verif.ArrGraph
