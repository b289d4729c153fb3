import Verif.Lemmas.SameChain

/-! # C141: the same Markov chain, written in different ways -/

namespace Verif.ArrGraph
open Verif FVal

variable {n M : ℕ} {G : ℕ → ℕ → ℕ → ℝ} {Gammas gamma_0 : Arr FVal}

/-- The probabilities of a known first state. -/
def pointLaw (a i : ℕ) : ℝ := if i = a then 1 else 0

/-- Matrices that do nothing in the first step and swap two states in the second. -/
def stayThenSwap (t i j : ℕ) : ℝ := if t = 0 then (if i = j then 1 else 0) else if i = j then 0 else 1

/-- The array of these matrices. -/
def stayThenSwapArr : Arr FVal := ⟨[2, 2, 2], fun c => fin (stayThenSwap (c.getD 0 0) (c.getD 1 0) (c.getD 2 0))⟩

theorem stayThenSwap_holds : HoldsSteps 2 2 stayThenSwap stayThenSwapArr where
  shape := rfl
  get _ _ _ _ _ _ := rfl
  law t ht i hi := ⟨fun j _ => by unfold stayThenSwap; split_ifs <;> norm_num, by
    have h1 : t = 0 ∨ t = 1 := by omega
    have h2 : i = 0 ∨ i = 1 := by omega
    rcases h1 with rfl | rfl <;> rcases h2 with rfl | rfl <;> simp [Finset.sum_range_succ, stayThenSwap]⟩

/-- **C141** (chains as scans, matrices that may change with time) `discrete_markov_chain(Gammas, gamma_0)`, where `gamma_0` puts all probability on the state `a`, has the same log-probability as a scan that starts
at `a` and draws the next state with `categorical(Gammas[max(t - 1, 0), state])` in step `t`, at every sequence of states, for every number of steps but zero and every number of states.  Missing: with
`Gammas[t, state]` in step `t`, which is what the sampler of the chain does, this is false (`C141_chain_wrong`) unless the matrices are equal (`C141_chain_homogeneous`). -/
theorem C141_chain_partial (hG : HoldsSteps (n + 1) M G Gammas) {a : ℕ} (ha : a < M) (hg : gamma_0.shape = [M]) (hg' : ∀ i < M, gamma_0.get [i] = fin (pointLaw a i)) {s : ℕ → ℕ} (hs : ∀ t < n + 1, s t < M)
    {mem : List FVal} (hmem : mem.length = 1 + (n + 1)) :
    SameResult (markovArr (column (n + 1) fun t => fin (s t : ℝ)) [Gammas, gamma_0])
      (scanKernel mem (stepScan (n + 1) (chainStep M Gammas) 1) (column (n + 1) fun t => fin (s t : ℝ)) [column 1 fun _ => fin (a : ℝ), column (n + 1) fun t => fin ((t - 1 : ℕ) : ℝ)]) := by
  refine isTerms_same (markov_terms hG hg hg' hs) (isTerms_congr (fun t ht => ?_) (step_terms (n + 1) (chainStep M Gammas) [fun t => fin ((t - 1 : ℕ) : ℝ)] hmem a fun t => s t))
  have e : ∀ k i, k < n + 1 → i < M → ((List.range M).map fun j => Gammas.get [k, i, j]) = (List.range M).map fun j => fin (G k i j) := fun k i hk hi =>
    List.map_congr_left fun j hj => hG.get k hk i hi j (List.mem_range.1 hj)
  simp only [chainStep, List.map_cons, List.map_nil, List.getD_cons_zero, toIndex_nat, Int.toNat_natCast]
  rcases t with _ | t
  · simp only [if_true, toIndex_nat, Int.toNat_natCast, zero_tsub]
    rw [e 0 a (by omega) ha, categorical_law (hG.law 0 (by omega) a ha) (hs 0 (by omega)), chainTerm, if_pos rfl, sum_point ha (g := pointLaw a) (fun _ => rfl) fun i => G 0 i (s 0)]
  · rw [if_neg (by omega)]
    simp only [toIndex_nat, Int.toNat_natCast, Nat.add_sub_cancel]
    rw [e t _ (by omega) (hs t (by omega)), categorical_law (hG.law t (by omega) _ (hs t (by omega))) (hs _ ht), chainTerm, if_neg (by omega)]
    rfl

example := C141_chain_partial (n := 1) stayThenSwap_holds (a := 1) (gamma_0 := column 2 fun i => fin (pointLaw 1 i)) (by norm_num) rfl (fun _ _ => rfl) (s := fun t => 1 - t) (fun t ht => by omega) (mem := [nan, nan, nan]) rfl

/-- A matrix of two states: one half of the time the state changes. -/
noncomputable def halves (T : ℕ) : Arr FVal := ⟨[T, 2, 2], fun _ => fin (1 / 2)⟩

theorem halves_holds (T : ℕ) : HoldsSteps T 2 (fun _ _ _ => 1 / 2) (halves T) where
  shape := rfl
  get _ _ _ _ _ _ := rfl
  law _ _ _ _ := ⟨fun _ _ => by norm_num, by norm_num [Finset.sum_range_succ]⟩

/-- **C141** (chains as scans, one matrix) If the transition matrices are equal, `discrete_markov_chain(Gammas, gamma_0)`, where `gamma_0` puts all probability on the state `a`, has the same log-probability as a scan that
starts at `a` and draws the next state with `categorical(Gammas[t, state])` in step `t`. -/
theorem C141_chain_homogeneous (hG : HoldsSteps (n + 1) M G Gammas) (hc : ∀ t < n + 1, ∀ i < M, ∀ j < M, G t i j = G 0 i j) {a : ℕ} (ha : a < M) (hg : gamma_0.shape = [M])
    (hg' : ∀ i < M, gamma_0.get [i] = fin (pointLaw a i)) {s : ℕ → ℕ} (hs : ∀ t < n + 1, s t < M) {mem : List FVal} (hmem : mem.length = 1 + (n + 1)) :
    SameResult (markovArr (column (n + 1) fun t => fin (s t : ℝ)) [Gammas, gamma_0])
      (scanKernel mem (stepScan (n + 1) (chainStep M Gammas) 1) (column (n + 1) fun t => fin (s t : ℝ)) [column 1 fun _ => fin (a : ℝ), column (n + 1) fun t => fin (t : ℝ)]) := by
  refine isTerms_same (markov_terms hG hg hg' hs) (isTerms_congr (fun t ht => ?_) (step_terms (n + 1) (chainStep M Gammas) [fun t => fin (t : ℝ)] hmem a fun t => s t))
  have e : ∀ k i, k < n + 1 → i < M → ((List.range M).map fun j => Gammas.get [k, i, j]) = (List.range M).map fun j => fin (G k i j) := fun k i hk hi =>
    List.map_congr_left fun j hj => hG.get k hk i hi j (List.mem_range.1 hj)
  simp only [chainStep, List.map_cons, List.map_nil, List.getD_cons_zero, toIndex_nat, Int.toNat_natCast]
  rcases t with _ | t
  · simp only [if_true, toIndex_nat, Int.toNat_natCast]
    rw [e 0 a (by omega) ha, categorical_law (hG.law 0 (by omega) a ha) (hs 0 (by omega)), chainTerm, if_pos rfl, sum_point ha (g := pointLaw a) (fun _ => rfl) fun i => G 0 i (s 0)]
  · rw [if_neg (by omega)]
    simp only [toIndex_nat, Int.toNat_natCast, Nat.add_sub_cancel]
    rw [e (t + 1) _ ht (hs t (by omega)), categorical_law (hG.law (t + 1) ht _ (hs t (by omega))) (hs _ ht), chainTerm, if_neg (by omega),
      hc (t + 1) ht _ (hs t (by omega)) _ (hs _ ht), Nat.add_sub_cancel, hc t (by omega) _ (hs t (by omega)) _ (hs _ ht)]

example := C141_chain_homogeneous (n := 2) (halves_holds 3) (fun _ _ _ _ _ _ => rfl) (a := 1) (gamma_0 := column 2 fun i => fin (pointLaw 1 i)) (by norm_num) rfl (fun _ _ => rfl) (s := fun t => t % 2) (fun t _ => Nat.mod_lt _ two_pos)
  (mem := [nan, nan, nan, nan]) rfl

/-- **C141, refuted** for matrices that change with time: a chain of two states that stays in the first step and changes state in the second.  Starting in state 0 the scan gives the sequence 0, 1 the log-probability zero,
`discrete_markov_chain` gives it `-inf`. -/
theorem C141_chain_wrong {mem : List FVal} (hmem : mem.length = 1 + 2) :
    ∃ r r', markovArr (column 2 fun t => fin (t : ℝ)) [stayThenSwapArr, column 2 fun i => fin (pointLaw 0 i)] = .ok r ∧
      scanKernel mem (stepScan 2 (chainStep 2 stayThenSwapArr) 1) (column 2 fun t => fin (t : ℝ)) [column 1 fun _ => fin ((0 : ℕ) : ℝ), column 2 fun t => fin (t : ℝ)] = .ok r' ∧
      r.shape = [2] ∧ r'.shape = [2] ∧ r.get [0] = fin 0 ∧ r'.get [0] = fin 0 ∧ r.get [1] = ninf ∧ r'.get [1] = fin 0 := by
  have h1 := markov_terms (n := 1) stayThenSwap_holds (gamma_0 := column 2 fun i => fin (pointLaw 0 i)) (g := pointLaw 0) rfl (fun i _ => rfl) (s := fun t => t) (fun t ht => ht)
  have h2 := step_terms 2 (chainStep 2 stayThenSwapArr) [fun t => fin (t : ℝ)] hmem ((0 : ℕ) : ℝ) fun t => (t : ℝ)
  have ct : ∀ (k i j : ℕ), k < 2 → i < 2 → j < 2 → categoricalLogprob j ((List.range 2).map fun j => stayThenSwapArr.get [k, i, j]) = .ok (log (fin (stayThenSwap k i j))) := fun k i j hk hi hj => by
    rw [← categorical_law (stayThenSwap_holds.law k hk i hi) hj]
    rfl
  have e0 : chainStep 2 stayThenSwapArr (fin ((0 : ℕ) : ℝ)) (fin ((0 : ℕ) : ℝ)) [fin ((0 : ℕ) : ℝ)] = .ok (fin 0) := by
    simp only [chainStep, List.getD_cons_zero, toIndex_nat, Int.toNat_natCast]
    rw [ct 0 0 0 (by omega) (by omega) (by omega)]
    simp [stayThenSwap, log]
  have e1 : chainStep 2 stayThenSwapArr (fin ((0 : ℕ) : ℝ)) (fin ((1 : ℕ) : ℝ)) [fin ((1 : ℕ) : ℝ)] = .ok (fin 0) := by
    simp only [chainStep, List.getD_cons_zero, toIndex_nat, Int.toNat_natCast]
    rw [ct 1 0 1 (by omega) (by omega) (by omega)]
    simp [stayThenSwap, log]
  rcases hr : markovArr (column 2 fun t => fin (t : ℝ)) [stayThenSwapArr, column 2 fun i => fin (pointLaw 0 i)] with e | r
  · rw [hr] at h1
    obtain ⟨i, _, hi, _⟩ := h1
    simp at hi
  rcases hr' : scanKernel mem (stepScan 2 (chainStep 2 stayThenSwapArr) 1) (column 2 fun t => fin (t : ℝ)) [column 1 fun _ => fin ((0 : ℕ) : ℝ), column 2 fun t => fin (t : ℝ)] with e | r'
  · simp only [List.length_singleton, List.map_cons, List.map_nil] at h2
    rw [hr'] at h2
    obtain ⟨i, hi, h3, _⟩ := h2
    have : i = 0 ∨ i = 1 := by omega
    rcases this with rfl | rfl
    · simp only [if_true] at h3
      rw [e0] at h3
      simp at h3
    · simp only [one_ne_zero, if_false, Nat.sub_self] at h3
      rw [e1] at h3
      simp at h3
  rw [hr] at h1
  simp only [List.length_singleton, List.map_cons, List.map_nil] at h2
  rw [hr'] at h2
  have a0 := h1.2 0 (by omega)
  have a1 := h1.2 1 (by omega)
  have b0 := h2.2 0 (by omega)
  have b1 := h2.2 1 (by omega)
  simp only [if_true] at b0
  simp only [one_ne_zero, if_false, Nat.sub_self] at b1
  rw [e0] at b0
  rw [e1] at b1
  refine ⟨r, r', rfl, rfl, h1.1, h2.1, ?_, ?_, ?_, ?_⟩
  · injection a0 with a0
    rw [← a0]
    simp [chainTerm, Finset.sum_range_succ, pointLaw, stayThenSwap, log]
  · injection b0 with b0
    exact b0.symm
  · injection a1 with a1
    rw [← a1]
    simp [chainTerm, stayThenSwap, log]
  · injection b1 with b1
    exact b1.symm

example := C141_chain_wrong (mem := [nan, nan, nan]) rfl

/-- **C141** (independent states) If all rows of all transition matrices are the same probabilities `p`, then `discrete_markov_chain(Gammas, gamma_0)`, with any `gamma_0`, and a vector of `categorical(p)` variables have the same
log-probability at every sequence of states. -/
theorem C141_independent {p : ℕ → ℝ} (hG : HoldsSteps (n + 1) M (fun _ _ => p) Gammas) {g : ℕ → ℝ} (hlaw : IsLaw M g) (hg : gamma_0.shape = [M]) (hg' : ∀ i < M, gamma_0.get [i] = fin (g i)) {s : ℕ → ℕ}
    (hs : ∀ t < n + 1, s t < M) :
    SameResult (markovArr (column (n + 1) fun t => fin (s t : ℝ)) [Gammas, gamma_0]) (categoricalKernel (column (n + 1) fun t => fin (s t : ℝ)) [column M fun j => fin (p j)]) := by
  have hp : IsLaw M p := hG.law 0 (by omega) (s 0) (hs 0 (by omega))
  refine isTerms_same (markov_terms hG hg hg' hs) ?_
  have hw : HoldsWeights [] M (fun _ => (List.range M).map p) (column M fun j => fin (p j)) :=
    ⟨rfl, fun _ _ => by simp, fun c hc i h => by
      have : c = [] := by simpa [InRange] using hc
      subst this
      simp [column], fun c _ x hx => by
      obtain ⟨j, hj, rfl⟩ := List.mem_map.1 hx
      exact hp.nonneg j (List.mem_range.1 hj), fun _ _ => by rw [sum_range_map, hp.total]; exact one_pos⟩
  obtain ⟨f, h1, h2⟩ := C113_categorical_array_partial (value := ⟨[n + 1], fun c => toIndex ((column (n + 1) fun t => fin (s t : ℝ)).get c)⟩) (s := [n + 1]) hw (by rw [bshape_nil_right]) (.inl rfl) (fun c hc => by
    rw [allCoords_ofFn] at hc
    obtain ⟨i, rfl⟩ := List.mem_ofFn.1 hc
    have := hs i i.2
    simp only [column, List.headD_cons, toIndex_nat]
    omega)
  have e : categoricalKernel (column (n + 1) fun t => fin (s t : ℝ)) [column M fun j => fin (p j)] = .ok ⟨[n + 1], f⟩ := h1
  rw [e]
  refine ⟨rfl, fun t ht => ?_⟩
  have h3 := h2 [t] (by simp [InRange, ht])
  simp only
  rw [h3]
  have h4 : massAt [] (fun _ => (List.range M).map p) ⟨[n + 1], fun c => toIndex ((column (n + 1) fun t => fin (s t : ℝ)).get c)⟩ [t] = p (s t) := by
    have hpr : project [t] [n + 1] = [t] := by
      rw [project_self (by simp [InRange, ht])]
    simp only [massAt, hpr, column, List.headD_cons, toIndex_nat, onNat, categoricalMass, sum_range_map, hp.total]
    simp [hs t ht]
  rw [h4, chainTerm]
  split_ifs with h0
  · subst h0
    rw [← Finset.sum_mul, hlaw.total, one_mul]
  · rfl

example := C141_independent (n := 2) (halves_holds 3) (g := pointLaw 0) ⟨fun j _ => by unfold pointLaw; split_ifs <;> norm_num, by norm_num [Finset.sum_range_succ, pointLaw]⟩ (gamma_0 := column 2 fun i => fin (pointLaw 0 i)) rfl
  (fun _ _ => rfl) (s := fun t => t % 2) (fun t _ => Nat.mod_lt _ two_pos)

end Verif.ArrGraph
