import Verif.Lemmas.MarkovSampler
import Verif.Props.Markov
import Verif.Lemmas.ArrGraph
import Verif.Lemmas.MarkovSource

/-! # C117: sampling batches of discrete Markov chains -/

namespace Verif.Markov
open Verif MeasureTheory ProbabilityTheory

theorem getLastD_append_one {α : Type} (l : List α) (a d : α) : (l ++ [a]).getLastD d = a := by simp

/-- One step of the scan, at every place. -/
theorem loopFn_step {draw : List ℕ → List FVal → ℤ} {S : List ℕ} {n N M : ℕ} {st : Arr ℤ} {G : Arr FVal} (hG : G.shape = S ++ [N, M, M]) (hst : st.shape = S.reverse)
    (hr : ∀ c, InRange c S → 0 ≤ st.get c.reverse ∧ st.get c.reverse < M) :
    ∃ next, loopFn draw S n st G = .ok next ∧ next.shape = S.reverse ∧
      ∀ c, InRange c S → next.get c.reverse = draw c ((List.range M).map fun j => G.get (c ++ [n, (st.get c.reverse).toNat, j])) := by
  obtain ⟨R, h1, h2, h3⟩ := select_rows (S := S) (M := M) (m := M) (st := transpose st) (by rw [transpose, hst, List.reverse_reverse]) hr
  have hnd : G.ndim - 3 = S.length := by rw [Arr.ndim, hG]; simp
  have hsh : (atStep n G).shape = S ++ [M, M] := by
    rw [atStep, hnd, hG]
    rw [List.eraseIdx_append_of_length_le le_rfl, Nat.sub_self]
    rfl
  refine ⟨_, by rw [loopFn, hsh, h1], ?_, fun c hc => ?_⟩
  · simp only [transpose, categoricalDraw, h2, List.dropLast_concat]
  · have hcl := hc.length_eq
    simp only [transpose, categoricalDraw, h2, List.dropLast_concat, List.reverse_reverse, project_self hc, getLastD_append_one]
    congr 1
    refine List.map_congr_left fun j hj => ?_
    rw [h3 c j hc (List.mem_range.1 hj)]
    simp only [atStep, hnd, List.take_left' hcl, List.drop_left' hcl, transpose]

/-- The scan, at every place. -/
theorem scanStates_chain {draw : Draws} {S : List ℕ} {N M : ℕ} {G : Arr FVal} (hd : DrawsStates M draw) (hG : G.shape = S ++ [N, M, M]) {γ : List ℕ → List FVal} (hγ : ∀ c, InRange c S → (γ c).length = M)
    (k n : ℕ) (st : Arr ℤ) (hst : st.shape = S.reverse)
    (hs : ∀ c, InRange c S → st.get c.reverse = chainAt (fun n => draw n c) (γ c) (fun n i => (List.range M).map fun j => G.get (c ++ [n, i, j])) n) :
    ∃ states, scanStates draw S G k n st = .ok states ∧ states.length = k ∧ ∀ t (ht : t < states.length), (states[t]).shape = S.reverse ∧
      ∀ c, InRange c S → (states[t]).get c.reverse = chainAt (fun n => draw n c) (γ c) (fun n i => (List.range M).map fun j => G.get (c ++ [n, i, j])) (n + t + 1) := by
  induction k generalizing n st with
  | zero => exact ⟨[], rfl, rfl, fun t ht => absurd ht (by simp)⟩
  | succ k ih =>
    obtain ⟨next, h1, h2, h3⟩ := loopFn_step (draw := draw (n + 1)) (n := n) hG hst fun c hc => by
      rw [hs c hc]
      cases n with
      | zero => exact hd 0 c _ (hγ c hc)
      | succ n => exact hd (n + 1) c _ (by simp)
    have h4 : ∀ c, InRange c S → next.get c.reverse = chainAt (fun n => draw n c) (γ c) (fun n i => (List.range M).map fun j => G.get (c ++ [n, i, j])) (n + 1) := fun c hc => by
      rw [h3 c hc, hs c hc]
      rfl
    obtain ⟨rest, h5, h6, h7⟩ := ih (n + 1) next h2 h4
    refine ⟨next :: rest, by rw [scanStates, h1]; simp only [bind, Except.bind, h5]; rfl, by rw [List.length_cons, h6], fun t ht => ?_⟩
    cases t with
    | zero => exact ⟨h2, h4⟩
    | succ t =>
      obtain ⟨a, b⟩ := h7 t (by simpa using ht)
      refine ⟨a, fun c hc => ?_⟩
      rw [List.getElem_cons_succ, b c hc]
      congr 1
      omega

/-- A chain depends only on the rows of states. -/
theorem chainAt_congr {draw : ℕ → List FVal → ℤ} {M N : ℕ} {γ : List FVal} {G G' : ℕ → ℕ → List FVal} (hγ : γ.length = M) (hG : ∀ n i, (G n i).length = M)
    (hd : ∀ n p, p.length = M → 0 ≤ draw n p ∧ draw n p < M) (h : ∀ n i, n < N → i < M → G n i = G' n i) :
    ∀ t, t ≤ N → chainAt draw γ G t = chainAt draw γ G' t ∧ 0 ≤ chainAt draw γ G t ∧ chainAt draw γ G t < M
  | 0, _ => ⟨rfl, hd 0 γ hγ⟩
  | t + 1, ht => by
    obtain ⟨h1, h2, h3⟩ := chainAt_congr hγ hG hd h t (by omega)
    refine ⟨?_, hd _ _ (hG _ _)⟩
    rw [chainAt, chainAt, ← h1, h t _ (by omega) (by omega)]

/-- **C117** Chains drawn by `discrete_markov_chain`, for transition matrices of shape `bG ++ [N, M, M]`, initial probabilities of shape `bg ++ [M]` whose batch axes can be broadcast to `B`, and any `size`:
the result has shape `size ++ B ++ [N]`, and at every place of `size ++ B` it is a single chain with the parameters that broadcasting puts there, drawn with the draws made at that place: the first
state that is returned is that after one transition from an initial state, which is not returned.
Missing: that this is the documented chain, whose first state is drawn from `gamma_0` (`C117_documented_wrong`). -/
theorem C117_batch_partial {draw : Draws} {N M : ℕ} (hd : DrawsStates M draw) (size : List ℕ) {bG bg B : List ℕ} {Gammas gamma_0 : Arr FVal} (hG : Gammas.shape = bG ++ [N, M, M])
    (hg : gamma_0.shape = bg ++ [M]) (hB : bshape [bG, bg] = some B) :
    ∃ out, discreteMarkovChain draw size Gammas gamma_0 = .ok out ∧ out.shape = size ++ B ++ [N] ∧
      ∀ c t, InRange c (size ++ B) → t < N →
        out.get (c ++ [t]) = chainAt (fun n => draw n c) (vectorAt gamma_0 M (project c bg)) (fun n i => vectorAt Gammas M (project c bG ++ [n, i])) (t + 1) := by
  have hGn : Gammas.ndim - 3 = bG.length := by rw [Arr.ndim, hG]; simp
  have hgn : gamma_0.ndim - 1 = bg.length := by rw [Arr.ndim, hg]; simp
  have htG : Gammas.shape.take (Gammas.ndim - 3) = bG := by rw [hGn, hG, List.take_left]
  have htg : gamma_0.shape.take (gamma_0.ndim - 1) = bg := by rw [hgn, hg, List.take_left]
  have fG : FitsIn B bG := fitsIn_of_bshape hB (by simp)
  have fg : FitsIn B bg := fitsIn_of_bshape hB (by simp)
  have sG : (broadcastParam B 3 Gammas).shape = B ++ [N, M, M] := by simp only [broadcastParam, hGn, hG, List.drop_left]
  have sg : (broadcastParam B 1 gamma_0).shape = B ++ [M] := by simp only [broadcastParam, hgn, hg, List.drop_left]
  have nG : (broadcastParam B 3 Gammas).ndim = B.length + 3 := by rw [Arr.ndim, sG]; simp
  have hN : (broadcastParam B 3 Gammas).size ((broadcastParam B 3 Gammas).ndim - 3) = N := by
    rw [Arr.size, nG, sG, Nat.add_sub_cancel, List.getD_append_right _ _ _ _ le_rfl, Nat.sub_self]
    rfl
  have hMM : (broadcastParam B 3 Gammas).shape.drop ((broadcastParam B 3 Gammas).ndim - 2) = [M, M] := by
    rw [nG, sG, show B.length + 3 - 2 = B.length + 1 by omega, List.drop_append, List.drop_eq_nil_of_le (by omega), List.nil_append, Nat.add_sub_cancel_left]
    rfl
  set S := size ++ B with hS
  set state_0 := categoricalDraw (draw 0) (broadcastParam B 1 gamma_0) S with hs0
  set inner := (broadcastParam B 3 Gammas).bcastTo (S ++ [N] ++ [M, M]) with hin
  have hbc : broadcastTo (broadcastParam B 3 Gammas) (S ++ [N] ++ [M, M]) = .ok inner := by
    rw [broadcastTo, if_pos]
    rw [← fitsIn_iff, sG, hS, List.append_assoc, List.append_assoc]
    exact fitsIn_suffix _ _
  -- the places
  have hsplit : ∀ c, InRange c S → ∃ c₁ c₂, c = c₁ ++ c₂ ∧ InRange c₂ B := fun c hc => by
    have := List.forall₂_drop size.length hc
    rw [hS, List.drop_left] at this
    exact ⟨c.take size.length, c.drop size.length, (List.take_append_drop _ _).symm, this⟩
  have hγ : ∀ c, InRange c S → state_0.get c = draw 0 c (vectorAt gamma_0 M (project c bg)) := fun c hc => by
    obtain ⟨c₁, c₂, rfl, h2⟩ := hsplit c hc
    have hl := h2.length_eq
    simp only [hs0, categoricalDraw, sg, List.dropLast_concat, getLastD_append_one, vectorAt]
    congr 1
    refine List.map_congr_left fun j _ => ?_
    simp only [broadcastParam, hgn, hg, List.take_left]
    rw [project_suffix (by omega), project_self h2, List.take_left' hl, List.drop_left' hl, project_suffix (by have := fg.1; omega)]
  have hrow : ∀ c, InRange c S → ∀ n i, n < N → i < M → (List.range M).map (fun j => inner.get (c ++ [n, i, j])) = vectorAt Gammas M (project c bG ++ [n, i]) := fun c hc n i hn hi => by
    obtain ⟨c₁, c₂, rfl, h2⟩ := hsplit c hc
    have hl := h2.length_eq
    refine List.map_congr_left fun j hj => ?_
    have hr : InRange (c₂ ++ [n, i, j]) (B ++ [N, M, M]) := inRange_append h2 (.cons hn (.cons hi (.cons (List.mem_range.1 hj) .nil)))
    simp only [hin, Arr.bcastTo, sG]
    rw [List.append_assoc, project_suffix (by rw [hr.length_eq]), project_self hr]
    simp only [broadcastParam, hGn, hG, List.take_left]
    rw [List.take_left' hl, List.drop_left' hl, project_suffix (by have := fG.1; omega), List.append_assoc]
    rfl
  obtain ⟨states, h1, h2, h3⟩ := scanStates_chain hd (G := inner) (S := S) (N := N) (by simp [hin, Arr.bcastTo]) (γ := fun c => vectorAt gamma_0 M (project c bg)) (fun c _ => by simp [vectorAt]) N 0 (transpose state_0) rfl
    fun c hc => by
      show state_0.get c.reverse.reverse = _
      rw [List.reverse_reverse, hγ c hc]
      rfl
  refine ⟨transpose (scanResult S.reverse states), ?_, ?_, fun c t hc ht => ?_⟩
  · rw [discreteMarkovChain, if_neg (by rw [Arr.ndim, hG]; simp), if_neg (by rw [Arr.ndim, hg]; simp), createDiscreteMc, htG, htg, hB]
    simp only [sg, List.dropLast_concat, hN, hMM]
    have e : (categoricalDraw (draw 0) (broadcastParam B 1 gamma_0) (size ++ B)).shape = S := rfl
    simp only [e, hbc, bind, Except.bind]
    rw [← hS, ← hs0]
    simp only [h1]
    rfl
  · simp only [transpose, scanResult, List.reverse_cons, List.reverse_reverse, h2]
  · have ht' : t < states.length := by omega
    simp only [transpose, scanResult, List.reverse_append, List.reverse_cons, List.reverse_nil, List.nil_append, List.cons_append, List.headD_cons, List.tail_cons]
    rw [List.getD_eq_getElem _ _ ht', (h3 t ht').2 c hc, Nat.zero_add]
    exact (chainAt_congr (M := M) (N := N) (by simp [vectorAt]) (fun n i => by simp) (fun n p hp => hd n c p hp) (hrow c hc) (t + 1) (by omega)).1

/-- **C117** (errors) Transition probabilities with fewer than three axes are refused. -/
theorem C117_few_axes (draw : Draws) (size : List ℕ) {Gammas : Arr FVal} (h : Gammas.ndim < 3) (gamma_0 : Arr FVal) : discreteMarkovChain draw size Gammas gamma_0 = .error .assertion := if_pos h

/-- **C117** (errors) Initial probabilities without axes are refused. -/
theorem C117_no_axes (draw : Draws) (size : List ℕ) (Gammas : Arr FVal) {gamma_0 : Arr FVal} (h : gamma_0.shape = []) : ∃ e, discreteMarkovChain draw size Gammas gamma_0 = .error e := by
  rw [discreteMarkovChain]
  by_cases hG : Gammas.ndim < 3
  · exact ⟨_, if_pos hG⟩
  · exact ⟨_, by rw [if_neg hG, if_pos (by simp [Arr.ndim, h])]⟩

example (draw : Draws) := C117_no_axes draw [] ⟨[4, 2, 2], fun _ => .fin (1 / 2)⟩ (gamma_0 := ⟨[], fun _ => .fin 1⟩) rfl

/-- **C117** (errors) Batch axes that cannot be broadcast together are refused. -/
theorem C117_batch_mismatch (draw : Draws) (size : List ℕ) {bG bg : List ℕ} {N M M' K : ℕ} {Gammas gamma_0 : Arr FVal} (hG : Gammas.shape = bG ++ [N, M, M']) (hg : gamma_0.shape = bg ++ [K])
    (hB : bshape [bG, bg] = none) : discreteMarkovChain draw size Gammas gamma_0 = .error .valueError := by
  have hGn : Gammas.ndim - 3 = bG.length := by rw [Arr.ndim, hG]; simp
  have hgn : gamma_0.ndim - 1 = bg.length := by rw [Arr.ndim, hg]; simp
  rw [discreteMarkovChain, if_neg (by rw [Arr.ndim, hG]; simp), if_neg (by rw [Arr.ndim, hg]; simp), createDiscreteMc, hGn, hgn, hG, hg, List.take_left, List.take_left, hB]

/-- **C117** (refuted part) The documentation says that the first state is drawn from `gamma_0`.  With two states, all initial probability on state `0`, and a first matrix that leads from state `0` to state `1`,
the documented first state is `0`; the one that is returned is `1`, however draws are made that respect probabilities of zero. -/
theorem C117_documented_wrong {draw : Draws} (hd : DrawsStates 2 draw) (hz : ∀ n c p, p.length = 2 → (∃ q ∈ p, q ≠ FVal.fin 0) → p[(draw n c p).toNat]? ≠ some (.fin 0)) {N : ℕ} {Gammas gamma_0 : Arr FVal} (hG : Gammas.shape = [N + 1, 2, 2])
    (hg : gamma_0.shape = [2]) (h0 : vectorAt gamma_0 2 [] = [.fin 1, .fin 0]) (h1 : vectorAt Gammas 2 [0, 0] = [.fin 0, .fin 1]) :
    ∃ out, discreteMarkovChain draw [] Gammas gamma_0 = .ok out ∧ out.get [0] = 1 ∧
      documentedAt (fun n => draw n []) (vectorAt gamma_0 2 []) (fun n i => vectorAt Gammas 2 [n, i]) 0 = 0 := by
  obtain ⟨out, e1, -, e3⟩ := C117_batch_partial hd [] (bG := []) (bg := []) (B := []) hG hg rfl
  have hzero : draw 0 [] [.fin 1, .fin 0] = 0 := by
    have a := hd 0 [] [.fin 1, .fin 0] rfl
    have b := hz 0 [] [.fin 1, .fin 0] rfl ⟨.fin 1, by simp, by simp⟩
    by_contra hne
    have : draw 0 [] [.fin 1, .fin 0] = 1 := by omega
    rw [this] at b
    exact b rfl
  have hone : draw 1 [] [.fin 0, .fin 1] = 1 := by
    have a := hd 1 [] [.fin 0, .fin 1] rfl
    have b := hz 1 [] [.fin 0, .fin 1] rfl ⟨.fin 1, by simp, by simp⟩
    by_contra hne
    have : draw 1 [] [.fin 0, .fin 1] = 0 := by omega
    rw [this] at b
    exact b rfl
  refine ⟨out, e1, ?_, by rw [h0]; exact hzero⟩
  have := e3 [] 0 .nil (by omega)
  rw [List.nil_append] at this
  rw [this, chainAt, chainAt, show project [] [] = ([] : List ℕ) from rfl, h0, hzero]
  simp only [List.nil_append, Int.toNat_zero, h1]
  exact hone

theorem pathProb_ofFn {M : ℕ} : ∀ {N : ℕ} (G : Fin N → Fin M → PMF (Fin M)) (s : Fin M) (x : Fin N → Fin M),
    pathProb (List.ofFn G) s (List.ofFn x) = ∏ n : Fin N, G n ((Fin.cons s x : Fin (N + 1) → Fin M) n.castSucc) (x n)
  | 0, G, s, x => by simp [pathProb]
  | N + 1, G, s, x => by
    rw [List.ofFn_succ, List.ofFn_succ, pathProb, pathProb_ofFn, Fin.prod_univ_succ]
    congr 1
    refine Finset.prod_congr rfl fun n _ => ?_
    rw [← Fin.succ_castSucc, Fin.cons_succ]
    have : (Fin.cons (x 0) fun i : Fin N => x i.succ : Fin (N + 1) → Fin M) = x := Fin.cons_self_tail x
    rw [this]

section Law

variable {Ω : Type} [MeasurableSpace Ω] {P : Measure Ω} [IsProbabilityMeasure P] {M N : ℕ} {D : Ω → Draws}

theorem probs_length (γ : PMF (Fin M)) : (probs γ).length = M := by simp [probs]

/-- The distribution from which the state `n` of a chain with the states `y` is drawn. -/
noncomputable def rowOf (γ : PMF (Fin M)) (G : Fin N → Fin M → PMF (Fin M)) (y : Fin (N + 1) → Fin M) : Fin (N + 1) → PMF (Fin M) := Fin.cons γ fun n => G n (y n.castSucc)

/-- When a chain has the states `y`. -/
theorem chain_iff {draw : ℕ → List FVal → ℤ} {γ : PMF (Fin M)} {G : Fin N → Fin M → PMF (Fin M)} {g : List FVal} {Gr : ℕ → ℕ → List FVal} (hg : g = probs γ)
    (hG : ∀ (n : Fin N) (i : Fin M), Gr n i = probs (G n i)) (y : Fin (N + 1) → Fin M) :
    (∀ n : Fin (N + 1), chainAt draw g Gr n = (y n : ℕ)) ↔ ∀ n : Fin (N + 1), draw n (probs (rowOf γ G y n)) = (y n : ℕ) := by
  have key : ∀ n : Fin N, chainAt draw g Gr (n.castSucc : Fin (N + 1)) = (y n.castSucc : ℕ) → chainAt draw g Gr (n.succ : Fin (N + 1)) = draw (n.succ : Fin (N + 1)) (probs (rowOf γ G y n.succ)) := fun n h => by
    simp only [Fin.val_succ, Fin.val_castSucc] at h ⊢
    rw [chainAt, h, Int.toNat_natCast, hG, rowOf, Fin.cons_succ]
  have h0 : chainAt draw g Gr (0 : Fin (N + 1)) = draw (0 : Fin (N + 1)) (probs (rowOf γ G y 0)) := by
    rw [Fin.val_zero, chainAt, hg, rowOf, Fin.cons_zero]
  constructor
  · intro h n
    induction n using Fin.cases with
    | zero => rw [← h0, h]
    | succ n => rw [← key n (h _), h]
  · intro h n
    induction n using Fin.induction with
    | zero => rw [h0, h]
    | succ n ih => rw [key n ih, h]

/-- **C117** (law) If the draws are independent and have the given probabilities, the chains of a batch are independent, and the chain at each place has the law of the sampler of a single chain with the
parameters that broadcasting puts there. -/
theorem C117_law (hD : Source P M D) (size : List ℕ) {bG bg B : List ℕ} {Gammas gamma_0 : Arr FVal} (hG : Gammas.shape = bG ++ [N, M, M]) (hg : gamma_0.shape = bg ++ [M])
    (hB : bshape [bG, bg] = some B) {γ : List ℕ → PMF (Fin M)} {G : List ℕ → Fin N → Fin M → PMF (Fin M)} (hγ : ∀ c, InRange c bg → vectorAt gamma_0 M c = probs (γ c))
    (hGp : ∀ c, InRange c bG → ∀ (n : Fin N) (i : Fin M), vectorAt Gammas M (c ++ [(n : ℕ), (i : ℕ)]) = probs (G c n i)) (x : Fin (ArrGraph.entries (size ++ B)) → Fin N → Fin M) :
    P {ω | ∃ out, discreteMarkovChain (D ω) size Gammas gamma_0 = .ok out ∧ ∀ b (t : Fin N), out.get (ArrGraph.coord b ++ [(t : ℕ)]) = (x b t : ℕ)} =
      ∏ b, mcSampler (List.ofFn (G (project (ArrGraph.coord b) bG))) (γ (project (ArrGraph.coord b) bg)) (List.ofFn (x b)) := by
  have fG : ∀ b : Fin (ArrGraph.entries (size ++ B)), InRange (project (ArrGraph.coord b) bG) bG := fun b =>
    project_inRange_fits (fitsIn_trans (fitsIn_suffix _ _) (fitsIn_of_bshape hB (by simp))) (ArrGraph.coord_inRange b)
  have fg : ∀ b : Fin (ArrGraph.entries (size ++ B)), InRange (project (ArrGraph.coord b) bg) bg := fun b =>
    project_inRange_fits (fitsIn_trans (fitsIn_suffix _ _) (fitsIn_of_bshape hB (by simp))) (ArrGraph.coord_inRange b)
  let g (b : Fin (ArrGraph.entries (size ++ B))) : PMF (Fin M) := γ (project (ArrGraph.coord b) bg)
  let Gb (b : Fin (ArrGraph.entries (size ++ B))) : Fin N → Fin M → PMF (Fin M) := G (project (ArrGraph.coord b) bG)
  let path (x0 : Fin (ArrGraph.entries (size ++ B)) → Fin M) (b : Fin (ArrGraph.entries (size ++ B))) : Fin (N + 1) → Fin M := Fin.cons (x0 b) (x b)
  let E (x0 : Fin (ArrGraph.entries (size ++ B)) → Fin M) : Set Ω := {ω | ∀ b (n : Fin (N + 1)), D ω n (ArrGraph.coord b) (probs (rowOf (g b) (Gb b) (path x0 b) n)) = (path x0 b n : ℕ)}
  have hev : {ω | ∃ out, discreteMarkovChain (D ω) size Gammas gamma_0 = .ok out ∧ ∀ b (t : Fin N), out.get (ArrGraph.coord b ++ [(t : ℕ)]) = (x b t : ℕ)} = ⋃ x0, E x0 := by
    ext ω
    obtain ⟨out, e1, -, e3⟩ := C117_batch_partial (hD.states ω) size hG hg hB
    simp only [Set.mem_setOf_eq, Set.mem_iUnion, E]
    have hit : ∀ x0 b, (∀ n : Fin (N + 1), chainAt (fun n => D ω n (ArrGraph.coord b)) (vectorAt gamma_0 M (project (ArrGraph.coord b) bg)) (fun n i => vectorAt Gammas M (project (ArrGraph.coord b) bG ++ [n, i])) n =
        (path x0 b n : ℕ)) ↔ ∀ n : Fin (N + 1), D ω n (ArrGraph.coord b) (probs (rowOf (g b) (Gb b) (path x0 b) n)) = (path x0 b n : ℕ) :=
      fun x0 b => chain_iff (draw := fun n => D ω n (ArrGraph.coord b)) (hγ _ (fg b)) (hGp _ (fG b)) (path x0 b)
    constructor
    · rintro ⟨out', h1, h2⟩
      obtain rfl : out = out' := by rw [e1] at h1; exact Except.ok.inj h1
      have hr : ∀ b : Fin (ArrGraph.entries (size ++ B)), 0 ≤ D ω 0 (ArrGraph.coord b) (vectorAt gamma_0 M (project (ArrGraph.coord b) bg)) ∧
          D ω 0 (ArrGraph.coord b) (vectorAt gamma_0 M (project (ArrGraph.coord b) bg)) < M := fun b => hD.states ω _ _ _ (by simp [vectorAt])
      let x0 (b : Fin (ArrGraph.entries (size ++ B))) : Fin M := ⟨(D ω 0 (ArrGraph.coord b) (vectorAt gamma_0 M (project (ArrGraph.coord b) bg))).toNat, by have := hr b; omega⟩
      refine ⟨x0, fun b => (hit x0 b).1 fun n => ?_⟩
      induction n using Fin.cases with
      | zero =>
        simp only [path, x0, Fin.cons_zero, Fin.val_zero, chainAt]
        have := hr b
        omega
      | succ t =>
        simp only [path, Fin.cons_succ, Fin.val_succ]
        rw [← h2 b t, e3 _ t (ArrGraph.coord_inRange b) t.2]
    · rintro ⟨x0, h⟩
      refine ⟨out, e1, fun b t => ?_⟩
      rw [e3 _ t (ArrGraph.coord_inRange b) t.2]
      have := (hit x0 b).2 (h b) t.succ
      simpa only [path, Fin.cons_succ, Fin.val_succ] using this
  have hmeas : ∀ n c p (z : ℤ), MeasurableSet {ω | D ω n c p = z} := fun n c p z => hD.meas n c p (measurableSet_singleton z)
  have hE : ∀ x0, E x0 = ⋂ k : Fin (ArrGraph.entries (size ++ B)) × Fin (N + 1), {ω | D ω k.2 (ArrGraph.coord k.1) (probs (rowOf (g k.1) (Gb k.1) (path x0 k.1) k.2)) = (path x0 k.1 k.2 : ℕ)} := fun x0 => by
    ext ω
    simp only [E, Set.mem_setOf_eq, Set.mem_iInter, Prod.forall]
  have hEm : ∀ x0, MeasurableSet (E x0) := fun x0 => by
    rw [hE]
    exact MeasurableSet.iInter fun k => hmeas _ _ _ _
  have hdisj : Pairwise (Function.onFun Disjoint E) := fun x0 x1 hne => Set.disjoint_left.2 fun ω h0 h1 => hne (funext fun b => by
    have a := h0 b 0
    have c := h1 b 0
    simp only [path, rowOf, Fin.cons_zero] at a c
    rw [a] at c
    exact Fin.ext (by exact_mod_cast c))
  have hinj : Function.Injective fun k : Fin (ArrGraph.entries (size ++ B)) × Fin (N + 1) => ((k.2 : ℕ), ArrGraph.coord k.1) := fun k l h => by
    simp only [Prod.mk.injEq] at h
    refine Prod.ext (Fin.ext ?_) (Fin.ext h.1)
    rw [← ArrGraph.idxOf_coord k.1, ← ArrGraph.idxOf_coord l.1, h.2]
  have hPE : ∀ x0, P (E x0) = ∏ b, (g b (x0 b) * pathProb (List.ofFn (Gb b)) (x0 b) (List.ofFn (x b))) := fun x0 => by
    have hi := (hD.indep.precomp hinj).meas_iInter (s := fun k => {ω | D ω k.2 (ArrGraph.coord k.1) (probs (rowOf (g k.1) (Gb k.1) (path x0 k.1) k.2)) = (path x0 k.1 k.2 : ℕ)}) fun k =>
      ⟨{f | f (probs (rowOf (g k.1) (Gb k.1) (path x0 k.1) k.2)) = (path x0 k.1 k.2 : ℕ)}, measurable_pi_apply _ (measurableSet_singleton _), rfl⟩
    rw [hE, hi, Fintype.prod_prod_type]
    refine Finset.prod_congr rfl fun b _ => ?_
    simp only [hD.law]
    rw [Fin.prod_univ_succ, pathProb_ofFn]
    simp only [path, rowOf, Fin.cons_zero, Fin.cons_succ]
  rw [hev, measure_iUnion hdisj hEm, tsum_fintype]
  simp only [hPE]
  rw [← Fintype.piFinset_univ, ← Finset.prod_univ_sum (fun _ => Finset.univ) fun b a => g b a * pathProb (List.ofFn (Gb b)) a (List.ofFn (x b))]
  refine Finset.prod_congr rfl fun b _ => ?_
  rw [mcSampler, PMF.bind_apply, tsum_fintype]
  refine Finset.sum_congr rfl fun a _ => ?_
  rw [mcLoop_apply]

end Law

/-! ### Examples -/

/-- A fair coin for every row. -/
noncomputable def coinArr (shape : List ℕ) : Arr FVal := ⟨shape, fun _ => .fin (1 / 2)⟩

noncomputable def coin : PMF (Fin 2) := PMF.uniformOfFintype (Fin 2)

theorem probs_coin : probs coin = [.fin (1 / 2), .fin (1 / 2)] := by
  simp [probs, coin, List.ofFn_succ]

/-- Three samples of a batch of chains whose matrices differ along one axis, of length two, and whose initial probabilities differ along another, of length four. -/
example {draw : Draws} (hd : DrawsStates 2 draw) : ∃ out, discreteMarkovChain draw [3] (coinArr [1, 2, 5, 2, 2]) (coinArr [4, 1, 2]) = .ok out ∧ out.shape = [3, 4, 2, 5] := by
  obtain ⟨out, h1, h2, -⟩ := C117_batch_partial (Gammas := coinArr [1, 2, 5, 2, 2]) (gamma_0 := coinArr [4, 1, 2]) (bG := [1, 2]) (bg := [4, 1]) (B := [4, 2]) (N := 5) hd [3] rfl rfl (by decide)
  exact ⟨out, h1, h2⟩

/-- Each of the `2 ^ (2 * 3)` outcomes of two chains of three steps between two equally likely states has the same probability. -/
example (x : Fin (ArrGraph.entries [2]) → Fin 3 → Fin 2) :
    sourceLaw 2 {ω | ∃ out, discreteMarkovChain (sourceDraws 2 ω) [] (coinArr [2, 3, 2, 2]) (coinArr [2]) = .ok out ∧ ∀ b (t : Fin 3), out.get (ArrGraph.coord b ++ [(t : ℕ)]) = (x b t : ℕ)} =
      ∏ b, mcSampler (List.ofFn fun _ : Fin 3 => fun _ => coin) coin (List.ofFn (x b)) :=
  C117_law (source_exists (by norm_num)) [] (Gammas := coinArr [2, 3, 2, 2]) (gamma_0 := coinArr [2]) (bG := [2]) (bg := []) (B := [2]) rfl rfl (by decide) (γ := fun _ => coin) (G := fun _ _ _ => coin) (fun _ _ => by rw [probs_coin]; rfl)
    (fun _ _ _ _ => by rw [probs_coin]; rfl) x

open scoped Classical in
/-- Draws that respect probabilities of zero, for the refutation: the first state whose probability is not zero. -/
noncomputable def firstPositive : Draws := fun _ _ p => if p[0]? = some (.fin 0) then 1 else 0

example := C117_documented_wrong (draw := firstPositive) (Gammas := ⟨[1, 2, 2], fun c => if c.getLast? = some 1 then .fin 1 else .fin 0⟩) (gamma_0 := ⟨[2], fun c => if c = [0] then .fin 1 else .fin 0⟩)
  (fun n c p hp => by simp only [firstPositive]; split_ifs <;> norm_num) (fun n c p hl ⟨q, hq, hq0⟩ => by
    match p, hl with
    | [a, b], _ =>
      by_cases ha : a = .fin 0
      · simp [firstPositive, ha] at hq ⊢
        rcases hq with rfl | rfl
        · exact absurd rfl hq0
        · exact hq0
      · simp [firstPositive, ha]) (N := 0) rfl rfl (by simp [vectorAt, List.range_succ]) (by simp [vectorAt, List.range_succ])

/-- Batches of lengths two and three. -/
example (draw : Draws) : discreteMarkovChain draw [] (coinArr [2, 5, 2, 2]) (coinArr [3, 2]) = .error .valueError :=
  C117_batch_mismatch draw [] (bG := [2]) (bg := [3]) rfl rfl (by decide)

example (draw : Draws) : discreteMarkovChain draw [] (coinArr [2, 2]) (coinArr [2]) = .error .assertion := C117_few_axes draw [] (by decide) _

end Verif.Markov
