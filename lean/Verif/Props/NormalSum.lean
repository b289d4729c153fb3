import Verif.Model.NormalSum
import Verif.Spec.NormalSum
import Verif.Lemmas.Broadcast
import Verif.Lemmas.PiSwap
import Verif.Props.Convolutions
import Verif.Props.ArrDerivedDemo
import Verif.Lemmas.ArrCategorical

/-! # C116: sums of arrays of normal variables -/

namespace Verif.ArrGraph
open Verif Cond MeasureTheory ProbabilityTheory Set

theorem fit_iff {s : List ℕ} {p : List (Arr FVal)} : Fit s p ↔ ∀ a ∈ p, FitsIn s a.shape := by
  rw [Fit, bshape_cons_iff]
  simp

theorem elemwiseN_fits (f : List FVal → FVal) {s : List ℕ} {as : List (Arr FVal)} (h : ∀ a ∈ as, FitsIn s a.shape) :
    ∃ out, elemwiseN f as = .ok out ∧ FitsIn s out.shape ∧ ∀ c, InRange c s → out.entry c = f (as.map fun a => a.entry c) := by
  obtain ⟨b, h1, h2, h3⟩ := bshape_fits (ts := as.map Arr.shape) (s := s) (by simpa using h)
  refine ⟨_, by simp only [elemwiseN, h1]; rfl, h2, fun c hc => ?_⟩
  simp only [Arr.entry]
  congr 1
  refine List.map_congr_left fun a ha => ?_
  rw [project_project h2 (h3 _ (List.mem_map_of_mem ha)) hc]

theorem normalArrays_map (l : List (List ℕ × Arr FVal × Arr FVal)) : normalArrays (l.map fun p => .normal p.1 p.2.1 p.2.2) = some l := by
  induction l with
  | nil => rfl
  | cons p l ih => rw [List.map_cons, normalArrays, ih]; rfl

/-- Sizes that fit into the shape and have as many axes, or were not given. -/
theorem sizes_ok {s : List ℕ} {sizes : List (List ℕ)} (h : ∀ t ∈ sizes, (t.length = s.length ∧ FitsIn s t) ∨ t = []) :
    ∃ t, broadcastShapes sizes = .ok t ∧ ∀ p : List (Arr FVal), (∀ a ∈ p, FitsIn s a.shape) → sizeAllows t p = true := by
  have hf : ∀ t ∈ sizes, FitsIn s t := fun t ht => by
    rcases h t ht with h | rfl
    · exact h.2
    · exact fitsIn_iff.2 (bshape_nil_right _)
  obtain ⟨b, h1, h2, h3⟩ := bshape_fits hf
  refine ⟨b, by simp only [broadcastShapes, h1], fun p hp => ?_⟩
  by_cases hall : ∃ t ∈ sizes, t.length = s.length
  · obtain ⟨t, ht, hl⟩ := hall
    have := (h3 t ht).1
    simp only [sizeAllows, Bool.or_eq_true, List.all_eq_true, decide_eq_true_eq]
    exact .inr fun a ha => (hp a ha).1.trans (hl ▸ this)
  · have hnil : ∀ t ∈ sizes, t = [] := fun t ht => by
      rcases h t ht with h | rfl
      · exact absurd ⟨t, ht, h.1⟩ hall
      · rfl
    have hb : b.length = 0 := by
      rw [(bshape_some.1 h1).1]
      exact Nat.le_zero.1 (maxDims_le fun t ht => by rw [hnil t ht]; rfl)
    simp [sizeAllows, List.eq_nil_of_length_eq_zero hb]

theorem fitsIn_pad {s t : List ℕ} {k : ℕ} (h : FitsIn s t) (hk : k + t.length ≤ s.length) : FitsIn s (List.replicate k 1 ++ t) :=
  ⟨by simpa using hk, fun d hd => by rw [padded_replicate hk]; exact h.2 d hd⟩

theorem padLeft_entry {a : Arr FVal} {k : ℕ} {c : List ℕ} (h : k + a.ndim ≤ c.length) : (padLeft k a).entry c = a.entry c := by
  simp only [Arr.entry, padLeft]
  rw [project_drop h]

theorem square_entries {σ : ℝ} (hσ : 0 < σ) : 0 < σ ^ 2 := by positivity

theorem entry_map (a : Arr FVal) (f : FVal → FVal) (c : List ℕ) : (a.map f).entry c = f (a.entry c) := rfl

/-- Arrays of normal entries, with the kernel of the normal distribution. -/
theorem normalEntry_density {s : List ℕ} {mu sigma : Arr FVal} {m σ : List ℕ → ℝ} (hfit : Fit s [mu, sigma]) (h : HoldsNormal mu sigma s m σ) :
    EntryDensity s (fun x => elemwiseLogprob normalEntry x [mu, sigma]) (fun _ => univ) fun c => gaussianReal (m c) (σ c ^ 2).toNNReal := by
  have hp : ∀ c, InRange c s → paramsAt [mu, sigma] c = [.fin (m c), .fin (σ c)] := fun c hc => by
    obtain ⟨h1, h2, -⟩ := h c hc
    simp only [Arr.entry] at h1 h2
    simp only [paramsAt, List.map_cons, List.map_nil, h1, h2]
  have e : ∀ (m : ℝ) {sd : ℝ}, 0 < sd → (fun x : ℝ => dens (normalLogprob (.fin x) (.fin m) (.fin sd))) = gaussianPDF m (sd ^ 2).toNNReal := fun m sd h => by
    funext x
    rw [normal_eval x m h, dens_log (gaussianPDFReal_pos _ _ _ (toNNReal_sq_ne h))]
    rfl
  refine C108_plain (k := normalEntry) hfit (fun c hc v => ?_) (fun c hc => inferInstance) (fun c hc => MeasurableSet.univ) (fun c hc x _ => ?_) (C := fun _ => ∅) (fun _ => countable_empty)
    (fun c hc v hv => ?_) (fun c hc => ?_) fun c hc => ?_ <;> rw [hp c hc] <;> have h0 := (h c hc).2.2
  · exact Walk.normal_total v (m c) h0
  · obtain ⟨r, hr⟩ := (C09_normal (m c) h0).2 x
    rw [normalEntry, hr]
    simp
  · exact Walk.normal_outside (fun x => hv x (.inl trivial)) (m c) h0
  · simp only [normalEntry]
    rw [e (m c) h0]
    exact measurable_gaussianPDF _ _
  · simp only [normalEntry]
    rw [e (m c) h0]
    exact gaussianReal_of_var_ne_zero _ (toNNReal_sq_ne h0)

theorem drawShape_dims {size : List ℕ} {mu sigma : Arr FVal} {t : List ℕ} (h : DrawShape size mu sigma t) : sumInputDims (.normal size mu sigma) = t.length := by
  obtain ⟨h1, h2⟩ := h
  rw [fit_iff] at h1
  have hm := (h1 mu (by simp)).1
  have hs := (h1 sigma (by simp)).1
  simp only [sumInputDims, Arr.ndim]
  rcases h2 with rfl | ⟨rfl, h2⟩
  · cases size with
    | nil => simpa [List.length_eq_zero_iff] using And.intro (List.eq_nil_of_length_eq_zero (Nat.le_zero.1 hm)) (List.eq_nil_of_length_eq_zero (Nat.le_zero.1 hs))
    | cons a l => rfl
  · rw [(bshape_some.1 h2).1, maxDims_pair]
    rfl

/-- What is known of an input after the axes are added. -/
structure Aligned (s : List ℕ) (inp : ArrSumInput) (m σ : List ℕ → ℝ) : Prop where
  ex : ∃ size mu sigma, inp = .normal size mu sigma ∧ ((size.length = s.length ∧ FitsIn s size) ∨ size = []) ∧ FitsIn s mu.shape ∧ FitsIn s sigma.shape ∧ HoldsNormal mu sigma s m σ

theorem holds_bcast {s t : List ℕ} {mu sigma : Arr FVal} {m σ : List ℕ → ℝ} (hts : FitsIn s t) (hf : Fit t [mu, sigma]) (hp : HoldsNormal mu sigma t m σ) :
    HoldsNormal mu sigma s (fun c => m (project c t)) fun c => σ (project c t) := fun c hc => by
  obtain ⟨h1, h2, h3⟩ := hp _ (project_inRange_fits hts hc)
  simp only [Arr.entry] at h1 h2 ⊢
  rw [project_project hts (fit_iff.1 hf mu (by simp)) hc] at h1
  rw [project_project hts (fit_iff.1 hf sigma (by simp)) hc] at h2
  exact ⟨h1, h2, h3⟩

theorem aligned_input {s t size : List ℕ} {mu sigma : Arr FVal} {m σ : List ℕ → ℝ} (hts : FitsIn s t) (h : DrawShape size mu sigma t) (hp : HoldsNormal mu sigma t m σ) :
    Aligned s (alignInput s.length (.normal size mu sigma)) (fun c => m (project c t)) fun c => σ (project c t) := by
  have hd := drawShape_dims h
  have hb := holds_bcast hts h.1 hp
  have hf := fit_iff.1 h.1
  have hmu := fitsIn_trans hts (hf mu (by simp))
  have hsg := fitsIn_trans hts (hf sigma (by simp))
  rw [alignInput, hd]
  by_cases hl : t.length = s.length
  · rw [if_pos hl]
    refine ⟨size, mu, sigma, rfl, ?_, hmu, hsg, hb⟩
    rcases h.2 with rfl | ⟨h2, -⟩
    · exact .inl ⟨hl, hts⟩
    · exact .inr h2
  · rw [if_neg hl]
    refine ⟨_, _, _, rfl, ?_, fitsIn_pad hmu (by have := hmu.1; simp only [Arr.ndim]; omega), fitsIn_pad hsg (by have := hsg.1; simp only [Arr.ndim]; omega), fun c hc => ?_⟩
    · cases hz : size with
      | nil => exact .inr rfl
      | cons a l =>
        have ht : t = size := by
          rcases h.2 with h2 | ⟨h2, -⟩
          · exact h2.symm
          · rw [h2] at hz; cases hz
        rw [← hz, ← ht, if_neg (by rw [ht, hz]; simp)]
        have := hts.1
        exact .inl ⟨by simp; omega, fitsIn_pad hts (by omega)⟩
    · have hcl := hc.length_eq
      obtain ⟨h1, h2, h3⟩ := hb c hc
      rw [padLeft_entry (by have := hmu.1; simp only [Arr.ndim]; omega), padLeft_entry (by have := hsg.1; simp only [Arr.ndim]; omega)]
      exact ⟨h1, h2, h3⟩

/-- The sign of a summand. -/
noncomputable def sumSign {n : ℕ} (sub : Bool) (k : Fin n) : ℝ := if sub ∧ k.val ≠ 0 then -1 else 1

theorem sumSign_sq {n : ℕ} (sub : Bool) (k : Fin n) : sumSign sub k ^ 2 = 1 := by
  unfold sumSign
  split <;> norm_num

theorem subArrays_fits {s : List ℕ} {x y : Arr FVal} (hx : FitsIn s x.shape) (hy : FitsIn s y.shape) :
    ∃ out, subArrays [x, y] = .ok out ∧ FitsIn s out.shape ∧ ∀ c, InRange c s → out.entry c = x.entry c - y.entry c := by
  obtain ⟨b, h1, h2, h3⟩ := bshape_fits (ts := [x.shape, y.shape]) (s := s) (by simp [hx, hy])
  refine ⟨_, by simp only [subArrays, Arr.op2, h1]; rfl, h2, fun c hc => ?_⟩
  simp only [Arr.entry]
  rw [project_project h2 (h3 _ (by simp)) hc, project_project h2 (h3 _ (by simp)) hc]

/-- The mean of the new variable. -/
theorem mean_fits {n : ℕ} {sub : Bool} (hsub : sub = true → n = 2) {s : List ℕ} {mu : Fin n → Arr FVal} {m : Fin n → List ℕ → ℝ} (hf : ∀ k, FitsIn s (mu k).shape)
    (hm : ∀ k c, InRange c s → (mu k).entry c = .fin (m k c)) :
    ∃ M, (if !sub then elemwiseN addAll (List.ofFn mu) else subArrays (List.ofFn mu)) = .ok M ∧ FitsIn s M.shape ∧ ∀ c, InRange c s → M.entry c = .fin (∑ k, sumSign sub k * m k c) := by
  cases sub with
  | false =>
    obtain ⟨M, hM, hMf, hMe⟩ := elemwiseN_fits addAll (s := s) (as := List.ofFn mu) fun a ha => by
      obtain ⟨k, rfl⟩ := (List.mem_ofFn ..).1 ha
      exact hf k
    refine ⟨M, by simp only [Bool.not_false, if_true, hM], hMf, fun c hc => ?_⟩
    have e : (List.ofFn mu).map (fun a => a.entry c) = (List.ofFn fun k => m k c).map FVal.fin := by
      rw [List.map_ofFn, List.map_ofFn]
      exact congrArg List.ofFn (funext fun k => hm k c hc)
    rw [hMe c hc, e, addAll_fin, List.sum_ofFn]
    simp [sumSign]
  | true =>
    obtain rfl := hsub rfl
    obtain ⟨M, hM, hMf, hMe⟩ := subArrays_fits (hf 0) (hf 1)
    refine ⟨M, by simp only [Bool.not_true, Bool.false_eq_true, if_false, List.ofFn_succ, List.ofFn_zero, Fin.succ_zero_eq_one, hM], hMf, fun c hc => ?_⟩
    rw [hMe c hc, hm 0 c hc, hm 1 c hc, FVal.sub_fin, Fin.sum_univ_two]
    simp [sumSign, sub_eq_add_neg]

/-- What the rewrite does with aligned inputs. -/
theorem sum_params {n : ℕ} (hn : 2 ≤ n) {sub : Bool} (hsub : sub = true → n = 2) {s : List ℕ} {inp : Fin n → ArrSumInput} {m σ : Fin n → List ℕ → ℝ} (h : ∀ k, Aligned s (inp k) (m k) (σ k)) :
    ∃ M S, addNormalArrays sub (List.ofFn inp) = some (.ok (M, S)) ∧ Fit s [M, S] ∧ HoldsNormal M S s (fun c => ∑ k, sumSign sub k * m k c) fun c => Real.sqrt (∑ k, σ k c ^ 2) := by
  choose size mu sigma hinp hz hfm hfs hp using fun k => (h k).ex
  set l : List (List ℕ × Arr FVal × Arr FVal) := List.ofFn fun k => (size k, mu k, sigma k) with hl
  have hin : List.ofFn inp = l.map fun p => .normal p.1 p.2.1 p.2.2 := by
    rw [hl, List.map_ofFn]
    exact congrArg List.ofFn (funext hinp)
  have hmem : ∀ p ∈ l, ∃ k, p = (size k, mu k, sigma k) := fun p hp => by
    obtain ⟨k, hk⟩ := (List.mem_ofFn ..).1 hp
    exact ⟨k, hk.symm⟩
  obtain ⟨t, ht, hallow⟩ := sizes_ok (s := s) (sizes := l.map Prod.fst) fun t ht => by
    obtain ⟨p, hp, rfl⟩ := List.mem_map.1 ht
    obtain ⟨k, rfl⟩ := hmem p hp
    exact hz k
  obtain ⟨M, hM, hMf, hMe⟩ := mean_fits hsub hfm (m := m) fun k c hc => (hp k c hc).1
  obtain ⟨C, hC, hCf, hCe⟩ := elemwiseN_fits addAll (s := s) (as := l.map fun p => p.2.2.map FVal.sq) fun a ha => by
    obtain ⟨p, hp, rfl⟩ := List.mem_map.1 ha
    obtain ⟨k, rfl⟩ := hmem p hp
    exact hfs k
  have hM' : (if !sub then elemwiseN addAll (l.map fun p => p.2.1) else subArrays (l.map fun p => p.2.1)) = .ok M := by
    rw [← hM, hl, List.map_ofFn]
    rfl
  have hfit : ∀ a ∈ [M, C.map FVal.sqrt], FitsIn s a.shape := by
    simp only [List.mem_cons, List.not_mem_nil, or_false, forall_eq_or_imp, forall_eq]
    exact ⟨hMf, hCf⟩
  refine ⟨M, C.map FVal.sqrt, ?_, fit_iff.2 hfit, fun c hc => ?_⟩
  · rw [addNormalArrays, if_neg (by rw [List.length_ofFn]; omega), hin, normalArrays_map]
    simp only [ht, hC, bind, Except.bind]
    cases sub
    · simp only [Bool.not_false, if_true] at hM' ⊢
      simp only [hM', hallow _ hfit, if_true]
    · simp only [Bool.not_true, Bool.false_eq_true, if_false] at hM' ⊢
      simp only [hM', hallow _ hfit, if_true]
  · have e2 : (l.map fun p => p.2.2.map FVal.sq).map (fun a => a.entry c) = (List.ofFn fun k => σ k c ^ 2).map FVal.fin := by
      rw [hl, List.map_ofFn, List.map_ofFn, List.map_ofFn]
      refine congrArg List.ofFn (funext fun k => ?_)
      simp only [Function.comp_apply, entry_map, (hp k c hc).2.1, FVal.sq_fin]
    have hpos : 0 < ∑ k, σ k c ^ 2 := by
      have : 0 < n := by omega
      exact Finset.sum_pos (fun k _ => square_entries (hp k c hc).2.2) ⟨⟨0, this⟩, Finset.mem_univ _⟩
    refine ⟨hMe c hc, ?_, Real.sqrt_pos.2 hpos⟩
    rw [entry_map, hCe c hc, e2, addAll_fin, List.sum_ofFn, FVal.sqrt_fin hpos.le]

/-- Independent normal variables with signs. -/
theorem signed_gaussian {Ω : Type} {mΩ : MeasurableSpace Ω} {P : Measure Ω} [IsProbabilityMeasure P] {n : ℕ} (sub : Bool) {X : Fin n → Ω → ℝ} {m : Fin n → ℝ} {v : Fin n → NNReal}
    (hX : ∀ i, Measurable (X i)) (hlaw : ∀ i, P.map (X i) = gaussianReal (m i) (v i)) (hind : iIndepFun X P) :
    P.map (fun ω => ∑ k, sumSign sub k * X k ω) = gaussianReal (∑ k, sumSign sub k * m k) (∑ k, v k) := by
  have h := sum_law (P := P) (X := fun k ω => sumSign sub k * X k ω) (m := fun k => sumSign sub k * m k) (v := v) (fun k => (hX k).const_mul _)
    (fun k => by
      have := gaussianReal_map_const_mul (μ := m k) (v := v k) (sumSign sub k)
      rw [← hlaw k, Measure.map_map (measurable_const_mul _) (hX k)] at this
      refine this.trans ?_
      congr 1
      have e : NNReal.mk (sumSign sub k ^ 2) (sq_nonneg _) = 1 := NNReal.eq (sumSign_sq sub k)
      rw [e, one_mul])
    (hind.comp (fun k x => sumSign sub k * x) fun k => measurable_const_mul _) Finset.univ
  rw [← h]
  congr 1
  ext ω
  simp

/-- The difference of two coordinates of independent normal variables. -/
theorem pi_difference {ι : Type} [Fintype ι] (m : ι → ℝ) (v : ι → NNReal) {i j : ι} (hij : i ≠ j) :
    (Measure.pi fun k => gaussianReal (m k) (v k)).map (fun x => x i - x j) = gaussianReal (m i - m j) (v i + v j) := by
  set P := Measure.pi fun k => gaussianReal (m k) (v k) with hP
  have hl : ∀ k, P.map (fun x => x k) = gaussianReal (m k) (v k) := fun k => (measurePreserving_eval (μ := fun k : ι => gaussianReal (m k) (v k)) k).map_eq
  have hind : IndepFun (fun x : ι → ℝ => x i) (fun x => x j) P := (iIndepFun_pi (μ := fun k => gaussianReal (m k) (v k)) (X := fun (_ : ι) (x : ℝ) => x) fun k => aemeasurable_id).indepFun hij
  have hneg : P.map (-fun x : ι → ℝ => x j) = gaussianReal (-m j) (v j) := (gaussianReal_neg (X := fun x : ι → ℝ => x j) (P := P) ⟨(measurable_pi_apply j).aemeasurable, hl j⟩).map_eq
  have h := gaussianReal_add_gaussianReal_of_indepFun hind.neg_right (hl i) hneg
  rw [sub_eq_add_neg, ← h]
  congr 1

section Shapes

variable {n : ℕ} {s : List ℕ} {t : Fin n → List ℕ}

/-- The place of the entry that broadcasting puts at place `i`. -/
theorem source_exists (h : bshape (List.ofFn t) = some s) : ∃ q : ∀ k, Fin (entries s) → Fin (entries (t k)), ∀ k i, coord (q k i) = project (coord i) (t k) := by
  have hf : ∀ k, FitsIn s (t k) := fun k => fitsIn_of_bshape h ((List.mem_ofFn ..).2 ⟨k, rfl⟩)
  choose q hq using fun k (i : Fin (entries s)) => shape_coord (project_inRange_fits (hf k) (coord_inRange i))
  exact ⟨q, hq⟩

theorem combineAt_source {q : ∀ k, Fin (entries s) → Fin (entries (t k))} (hq : ∀ k i, coord (q k i) = project (coord i) (t k)) (sub : Bool) (x : ∀ k, Fin (entries (t k)) → ℝ)
    (i : Fin (entries s)) : combineAt sub t x (coord i) = ∑ k, sumSign sub k * x k (q k i) := by
  simp only [combineAt, Arr.entry]
  refine Finset.sum_congr rfl fun k _ => ?_
  rw [show (reals (t k) (x k)).shape = t k from rfl, ← hq, reals_get]
  rfl

/-- Reading independent arrays at places that differ within each array. -/
theorem pi_read {μ : ∀ k, Fin (entries (t k)) → Measure ℝ} [∀ k l, IsProbabilityMeasure (μ k l)] {q : ∀ k, Fin (entries s) → Fin (entries (t k))} (hq : ∀ k, Function.Injective (q k)) :
    (Measure.pi fun k => Measure.pi (μ k)).map (fun x k i => x k (q k i)) = Measure.pi fun k => Measure.pi fun i => μ k (q k i) := by
  have h1 : ∀ k, (Measure.pi (μ k)).map (fun x i => x (q k i)) = Measure.pi fun i => μ k (q k i) := fun k => by
    have := Measure.map_infinitePi_infinitePi_of_inj (P := μ k) (f := q k) (hq k)
    simpa only [Measure.infinitePi_eq_pi] using this
  have : ∀ k, IsProbabilityMeasure ((Measure.pi (μ k)).map fun x i => x (q k i)) := fun k => by rw [h1]; infer_instance
  have h2 := Measure.pi_map_pi (μ := fun k => Measure.pi (μ k)) (f := fun k (x : Fin (entries (t k)) → ℝ) (i : Fin (entries s)) => x (q k i)) fun k => (measurable_pi_lambda _ fun i => measurable_pi_apply _).aemeasurable
  rw [h2]
  congr 1
  funext k
  exact h1 k

variable {size : Fin n → List ℕ} {mu sigma : Fin n → Arr FVal} {m σ : Fin n → List ℕ → ℝ}

/-- The log-probability is that of independent normal entries with the right means and standard deviations. -/
theorem sum_entries (hn : 2 ≤ n) {sub : Bool} (hsub : sub = true → n = 2) (hs : bshape (List.ofFn t) = some s) (hd : ∀ k, DrawShape (size k) (mu k) (sigma k) (t k))
    (hp : ∀ k, HoldsNormal (mu k) (sigma k) (t k) (m k) (σ k)) :
    EntryDensity s (sumArraysLogprob sub (List.ofFn fun k => .normal (size k) (mu k) (sigma k))) (fun _ => univ)
      fun c => gaussianReal (∑ k, sumSign sub k * m k (project c (t k))) (∑ k, (σ k (project c (t k)) ^ 2).toNNReal) := by
  have hf : ∀ k, FitsIn s (t k) := fun k => fitsIn_of_bshape hs ((List.mem_ofFn ..).2 ⟨k, rfl⟩)
  have hdim : ((List.ofFn fun k => ArrSumInput.normal (size k) (mu k) (sigma k)).map sumInputDims).foldr max 0 = s.length := by
    rw [(bshape_some.1 hs).1, maxDims, List.map_ofFn, List.map_ofFn]
    congr 2
    exact funext fun k => drawShape_dims (hd k)
  have hal : alignInputs (List.ofFn fun k => .normal (size k) (mu k) (sigma k)) = List.ofFn fun k => alignInput s.length (.normal (size k) (mu k) (sigma k)) := by
    rw [alignInputs, hdim, List.map_ofFn]
    rfl
  obtain ⟨M, S, h1, h2, h3⟩ := sum_params hn hsub fun k => aligned_input (hf k) (hd k) (hp k)
  have e : sumArraysLogprob sub (List.ofFn fun k => .normal (size k) (mu k) (sigma k)) = fun x => elemwiseLogprob normalEntry x [M, S] := by
    funext x
    simp only [sumArraysLogprob, hal, h1]
  rw [e]
  have h4 := normalEntry_density h2 h3
  have e2 : (fun c => gaussianReal (∑ k, sumSign sub k * m k (project c (t k))) (Real.sqrt (∑ k, σ k (project c (t k)) ^ 2) ^ 2).toNNReal) =
      fun c => gaussianReal (∑ k, sumSign sub k * m k (project c (t k))) (∑ k, (σ k (project c (t k)) ^ 2).toNNReal) := by
    funext c
    rw [Real.sq_sqrt (Finset.sum_nonneg fun _ _ => sq_nonneg _), Real.toNNReal_sum_of_nonneg fun _ _ => sq_nonneg _]
  rwa [e2] at h4

/-- The law of independent arrays with independent normal entries. -/
noncomputable abbrev normalArraysLaw (t : Fin n → List ℕ) (m σ : Fin n → List ℕ → ℝ) : Measure (∀ k, Fin (entries (t k)) → ℝ) :=
  Measure.pi fun k => Measure.pi fun l : Fin (entries (t k)) => gaussianReal (m k (coord l)) (σ k (coord l) ^ 2).toNNReal

/-- The law of one entry of the sum. -/
theorem entry_law {q : ∀ k, Fin (entries s) → Fin (entries (t k))} (hq : ∀ k i, coord (q k i) = project (coord i) (t k)) (sub : Bool) (i : Fin (entries s)) :
    (normalArraysLaw t m σ).map (fun x => combineAt sub t x (coord i)) =
      gaussianReal (∑ k, sumSign sub k * m k (project (coord i) (t k))) (∑ k, (σ k (project (coord i) (t k)) ^ 2).toNNReal) := by
  have h := signed_gaussian (P := normalArraysLaw t m σ) sub (X := fun k x => x k (q k i)) (m := fun k => m k (coord (q k i))) (v := fun k => (σ k (coord (q k i)) ^ 2).toNNReal) (fun k => by fun_prop)
    (fun k => by
      have h1 := (measurePreserving_eval (μ := fun k => Measure.pi fun l : Fin (entries (t k)) => gaussianReal (m k (coord l)) (σ k (coord l) ^ 2).toNNReal) k).map_eq
      have h2 := (measurePreserving_eval (μ := fun l : Fin (entries (t k)) => gaussianReal (m k (coord l)) (σ k (coord l) ^ 2).toNNReal) (q k i)).map_eq
      rw [← h2, ← h1, Measure.map_map (by fun_prop) (by fun_prop)]
      rfl)
    (iIndepFun_pi (μ := fun k => Measure.pi fun l : Fin (entries (t k)) => gaussianReal (m k (coord l)) (σ k (coord l) ^ 2).toNNReal) (X := fun k (x : Fin (entries (t k)) → ℝ) => x (q k i)) fun k => (measurable_pi_apply _).aemeasurable)
  simp only [hq] at h
  rw [← h]
  congr 1
  funext x
  exact combineAt_source hq sub x i

/-- **C116** (entries) Sums of two or more independent arrays of independent normal variables, and differences of two, for all shapes that can be broadcast together, with or without `size`, and all means
and positive standard deviations: the log-probability has the shape of the sum, and each of its entries is the logarithm of the density of that entry of the sum. -/
theorem C116_entries (hn : 2 ≤ n) {sub : Bool} (hsub : sub = true → n = 2) (hs : bshape (List.ofFn t) = some s) (hd : ∀ k, DrawShape (size k) (mu k) (sigma k) (t k))
    (hp : ∀ k, HoldsNormal (mu k) (sigma k) (t k) (m k) (σ k)) :
    EntryDensity s (sumArraysLogprob sub (List.ofFn fun k => .normal (size k) (mu k) (sigma k))) (fun _ => univ) fun c => (normalArraysLaw t m σ).map fun x => combineAt sub t x c := by
  obtain ⟨q, hq⟩ := source_exists hs
  obtain ⟨g, h1, h2⟩ := sum_entries hn hsub hs hd hp
  refine ⟨g, h1, fun c hc => ?_⟩
  obtain ⟨i, rfl⟩ := shape_coord hc
  beta_reduce
  rw [entry_law hq sub i]
  exact h2 _ hc

/-- **C116** (joint density) In the situation of `C116_entries`, `exp` of the joint log-probability is the joint density of the sum if and only if broadcasting repeats no entry of any of the arrays.
When an entry is repeated the entries of the sum that contain it are dependent, and the log-probability treats them as independent. -/
theorem C116_joint_iff (hn : 2 ≤ n) {sub : Bool} (hsub : sub = true → n = 2) (hs : bshape (List.ofFn t) = some s) (hd : ∀ k, DrawShape (size k) (mu k) (sigma k) (t k))
    (hp : ∀ k, HoldsNormal (mu k) (sigma k) (t k) (m k) (σ k)) :
    JointDensity s (sumArraysLogprob sub (List.ofFn fun k => .normal (size k) (mu k) (sigma k))) (fun _ => univ) ((normalArraysLaw t m σ).map fun x i => combineAt sub t x (coord i)) ↔
      ∀ k, NoRepeat s (t k) := by
  obtain ⟨q, hq⟩ := source_exists hs
  have hj := (sum_entries hn hsub hs hd hp).joint
  have hc : (fun (x : ∀ k, Fin (entries (t k)) → ℝ) (i : Fin (entries s)) => combineAt sub t x (coord i)) = fun x i => ∑ k, sumSign sub k * x k (q k i) :=
    funext fun x => funext fun i => combineAt_source hq sub x i
  rw [hc]
  constructor
  · intro h k i j hij
    by_contra hne
    have h1 := h.dens.trans hj.dens.symm
    have h2 := congrArg (Measure.map fun x : Fin (entries s) → ℝ => x i - x j) h1
    rw [Measure.map_map (by fun_prop) (by fun_prop), pi_difference _ _ hne] at h2
    have h3 := signed_gaussian (P := normalArraysLaw t m σ) sub (X := fun k x => x k (q k i) - x k (q k j)) (m := fun k => m k (coord (q k i)) - m k (coord (q k j)))
      (v := fun k => if q k i = q k j then 0 else (σ k (coord (q k i)) ^ 2).toNNReal + (σ k (coord (q k j)) ^ 2).toNNReal) (fun k => by fun_prop)
      (fun k => by
        have h4 := (measurePreserving_eval (μ := fun k => Measure.pi fun l : Fin (entries (t k)) => gaussianReal (m k (coord l)) (σ k (coord l) ^ 2).toNNReal) k).map_eq
        have h5 : (normalArraysLaw t m σ).map (fun x => x k (q k i) - x k (q k j)) = (Measure.pi fun l : Fin (entries (t k)) => gaussianReal (m k (coord l)) (σ k (coord l) ^ 2).toNNReal).map fun y => y (q k i) - y (q k j) := by
          rw [← h4, Measure.map_map (by fun_prop) (by fun_prop)]
          rfl
        rw [h5]
        split
        · rename_i heq
          simp only [heq, sub_self, Measure.map_const, measure_univ, one_smul, gaussianReal_zero_var]
        · rename_i hq'
          exact pi_difference (fun l => m k (coord l)) (fun l => (σ k (coord l) ^ 2).toNNReal) hq')
      (iIndepFun_pi (μ := fun k => Measure.pi fun l : Fin (entries (t k)) => gaussianReal (m k (coord l)) (σ k (coord l) ^ 2).toNNReal)
        (X := fun k (x : Fin (entries (t k)) → ℝ) => x (q k i) - x (q k j)) fun k => ((measurable_pi_apply (q k i)).sub (measurable_pi_apply (q k j))).aemeasurable)
    have e : ((fun x : Fin (entries s) → ℝ => x i - x j) ∘ fun x : ∀ k, Fin (entries (t k)) → ℝ => fun i => ∑ k, sumSign sub k * x k (q k i)) = fun x => ∑ k, sumSign sub k * (x k (q k i) - x k (q k j)) := by
      funext x
      simp only [Function.comp_apply, mul_sub, Finset.sum_sub_distrib]
    rw [e, h3, gaussianReal_ext_iff] at h2
    have h6 := h2.2
    simp only [← hq, ← Finset.sum_add_distrib] at h6
    refine absurd h6 (ne_of_lt (Finset.sum_lt_sum (fun l _ => ?_) ⟨k, Finset.mem_univ _, ?_⟩))
    · split
      · exact zero_le
      · exact le_rfl
    · have hk : q k i = q k j := by
        have : coord (q k i) = coord (q k j) := by rw [hq, hq, hij]
        exact Fin.ext ((idxOf_coord (q k i)).symm.trans (by rw [this, idxOf_coord]))
      rw [if_pos hk]
      have h0 := (hp k _ (coord_inRange (q k i))).2.2
      exact add_pos_of_pos_of_nonneg (Real.toNNReal_pos.2 (by positivity)) (zero_le)
  · intro h
    have hinj : ∀ k, Function.Injective (q k) := fun k i j hij => h k i j (by rw [← hq, ← hq, hij])
    have h1 : (normalArraysLaw t m σ).map (fun x i => ∑ k, sumSign sub k * x k (q k i)) =
        Measure.pi fun i : Fin (entries s) => gaussianReal (∑ k, sumSign sub k * m k (project (coord i) (t k))) (∑ k, (σ k (project (coord i) (t k)) ^ 2).toNNReal) := by
      have h2 := pi_read (μ := fun k (l : Fin (entries (t k))) => gaussianReal (m k (coord l)) (σ k (coord l) ^ 2).toNNReal) hinj
      have h3 := pi_entrywise (fun k (i : Fin (entries s)) => gaussianReal (m k (coord (q k i))) (σ k (coord (q k i)) ^ 2).toNNReal) (f := fun _ x => ∑ k, sumSign sub k * x k) fun _ => by fun_prop
      rw [← h2, Measure.map_map (by fun_prop) (by fun_prop)] at h3
      refine Eq.trans h3 ?_
      congr 1
      funext i
      have h4 := signed_gaussian (P := Measure.pi fun k => gaussianReal (m k (coord (q k i))) (σ k (coord (q k i)) ^ 2).toNNReal) sub (X := fun k x => x k) (m := fun k => m k (coord (q k i)))
        (v := fun k => (σ k (coord (q k i)) ^ 2).toNNReal) (fun k => by fun_prop)
        (fun k => (measurePreserving_eval (μ := fun k => gaussianReal (m k (coord (q k i))) (σ k (coord (q k i)) ^ 2).toNNReal) k).map_eq)
        (iIndepFun_pi (X := fun (_ : Fin n) (x : ℝ) => x) fun k => aemeasurable_id)
      rw [h4]
      simp only [hq]
    rw [h1]
    exact hj

end Shapes

/-- A constant. -/
def constant0 (x : ℝ) : Arr FVal := ⟨[], fun _ => .fin x⟩

theorem drawShape_scalars (size : List ℕ) (a b : ℝ) : DrawShape size (constant0 a) (constant0 b) size :=
  ⟨fit_iff.2 (by simp only [List.mem_cons, List.not_mem_nil, or_false, forall_eq_or_imp, forall_eq]; exact ⟨fitsIn_iff.2 (bshape_nil_right _), fitsIn_iff.2 (bshape_nil_right _)⟩), .inl rfl⟩

theorem holdsNormal_scalars (s : List ℕ) (a : ℝ) {b : ℝ} (hb : 0 < b) : HoldsNormal (constant0 a) (constant0 b) s (fun _ => a) fun _ => b := fun _ _ => ⟨rfl, rfl, hb⟩

/-- Entries of the sum of a vector of three normal variables and a column of two. -/
example : EntryDensity [2, 3] (sumArraysLogprob false (List.ofFn fun k : Fin 2 => .normal (![[3], [2, 1]] k) (constant0 1) (constant0 2))) (fun _ => univ)
    fun c => (normalArraysLaw ![[3], [2, 1]] (fun _ _ => 1) fun _ _ => 2).map fun x => combineAt false ![[3], [2, 1]] x c :=
  C116_entries le_rfl (by simp) (by decide) (fun k => drawShape_scalars _ _ _) fun k => holdsNormal_scalars _ 1 (by norm_num)

/-- The difference of two vectors. -/
example : JointDensity [3] (sumArraysLogprob true (List.ofFn fun k : Fin 2 => .normal [3] (constant0 1) (constant0 2))) (fun _ => univ)
    ((normalArraysLaw (fun _ => [3]) (fun _ _ => 1) fun _ _ => 2).map fun x i => combineAt true (fun _ : Fin 2 => [3]) x (coord i)) :=
  (C116_joint_iff le_rfl (by simp) (by decide) (fun k => drawShape_scalars _ _ _) fun k => holdsNormal_scalars _ 1 (by norm_num)).2 fun k => by unfold NoRepeat; decide

/-- The sum of a vector of two normal variables and a single one: the two entries of the sum are dependent. -/
example : ¬ JointDensity [2] (sumArraysLogprob false (List.ofFn fun k : Fin 2 => .normal (![[2], [1]] k) (constant0 1) (constant0 2))) (fun _ => univ)
    ((normalArraysLaw ![[2], [1]] (fun _ _ => 1) fun _ _ => 2).map fun x i => combineAt false ![[2], [1]] x (coord i)) := fun h =>
  absurd ((C116_joint_iff le_rfl (by simp) (by decide) (fun k => drawShape_scalars _ _ _) fun k => holdsNormal_scalars _ 1 (by norm_num)).1 h 1) (by unfold NoRepeat; decide)

/-- **C116** (declined) If an input is anything but an unvalued normal variable, this rewrite gives the sum no log-probability. -/
theorem C116_declines (sub : Bool) {inputs : List ArrSumInput} (h : .other ∈ inputs) (value : Arr FVal) : sumArraysLogprob sub inputs value = .error .densityNotFound := by
  have h1 : ∀ l : List ArrSumInput, .other ∈ l → normalArrays l = none := by
    intro l
    induction l with
    | nil => intro h; cases h
    | cons a l ih =>
      intro h
      rcases a with ⟨size, mu, sigma⟩ | _
      · have h' : ArrSumInput.other ∈ l := by
          rcases List.mem_cons.1 h with e | h
          · cases e
          · exact h
        rw [normalArrays, ih h']
        rfl
      · rfl
  have h2 : ArrSumInput.other ∈ alignInputs inputs := List.mem_map.2 ⟨_, h, rfl⟩
  rw [sumArraysLogprob, addNormalArrays, h1 _ h2]
  simp only [ite_self]

example (value : Arr FVal) := C116_declines false (inputs := [.normal [2] (constant0 0) (constant0 1), .other]) (by simp) value

end Verif.ArrGraph
