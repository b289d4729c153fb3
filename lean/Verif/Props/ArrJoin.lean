import Verif.Lemmas.JoinEntries
import Verif.Lemmas.ShuffleEntries
import Verif.Props.Censoring

/-! # C115: joined, stacked, shuffled and rounded array variables -/

namespace Verif.ArrGraph
open Verif Cond MeasureTheory Set

variable {Di : Type}

/-! ## Joins -/

/-- **C115** (joins of measurable variables) Independent variables of any rank, each with a joint density (its entries need not be independent), joined along an axis counted from either end: `exp` of the joint
log-probability is the joint density of the joined array `J`. -/
theorem C115_join_any {n : ℕ} (hn : 0 < n) {ss : Fin n → List ℕ} {s : List ℕ} {axis : ℤ} {a : ℕ} (hax : AxisIs axis s.length a) {lp : Fin n → Arr FVal → Except Err (Arr FVal)}
    {D : Fin n → List ℕ → Set ℝ} {law : ∀ k, Measure (Fin (entries (ss k)) → ℝ)} (h : ∀ k, JointDensity (ss k) (lp k) (D k) (law k)) {D' : List ℕ → Set ℝ}
    (hD : IsJoin a (List.ofFn fun k => (⟨ss k, D k⟩ : Arr (Set ℝ))) ⟨s, D'⟩) {J : (∀ k, Fin (entries (ss k)) → ℝ) → Fin (entries s) → ℝ}
    (hJ : ∀ x, IsJoin a (List.ofFn fun k => reals (ss k) (x k)) (reals s (J x))) :
    JointDensity s (joinLogprob axis (List.ofFn fun k => ((ss k).getD a 0, lp k))) D' ((Measure.pi law).map J) := by
  replace hax := normAxis_iff.2 hax
  have hs : JoinShapes a ss s := isJoin_shapes hD
  have e : J = gather (joinEquiv hs) := funext fun x => isJoin_gather hs (hJ x)
  rw [e]
  exact jointDensity_gather (joinEquiv hs) h (fun v hv => joinLogprob_pieces hs hn hax lp hv) fun k j => isJoin_entry hs hD (fun _ => rfl) ⟨k, j⟩

/-- There is such a `J` whenever the shapes fit, and no other. -/
theorem join_exists {n : ℕ} {ss : Fin n → List ℕ} {s : List ℕ} {a : ℕ} {D : Fin n → List ℕ → Set ℝ} {D' : List ℕ → Set ℝ} (hD : IsJoin a (List.ofFn fun k => (⟨ss k, D k⟩ : Arr (Set ℝ))) ⟨s, D'⟩) :
    ∃! J : (∀ k, Fin (entries (ss k)) → ℝ) → Fin (entries s) → ℝ, ∀ x, IsJoin a (List.ofFn fun k => reals (ss k) (x k)) (reals s (J x)) :=
  ⟨gather (joinEquiv (isJoin_shapes hD)), gather_isJoin (isJoin_shapes hD), fun _ hJ => funext fun x => isJoin_gather (isJoin_shapes hD) (hJ x)⟩

theorem joinPieces_ofFn {n : ℕ} (kernel : Di → Arr FVal → List (Arr FVal) → Except Err (Arr FVal)) (d : Fin n → Di) (ps : Fin n → List (Arr FVal)) (len : Fin n → ℕ) :
    joinPieces kernel (List.ofFn fun k => (d k, (ps k).length, len k)) (List.ofFn ps).flatten = List.ofFn fun k => (len k, fun x => kernel (d k) x (ps k)) := by
  induction n with
  | zero => rfl
  | succ n ih =>
    rw [List.ofFn_succ, List.ofFn_succ, List.ofFn_succ, List.flatten_cons, joinPieces, List.take_left, List.drop_left]
    congr 1
    exact ih (fun k => d k.succ) (fun k => ps k.succ) fun k => len k.succ

theorem stackComps_ofFn {n : ℕ} (kernel : Di → Arr FVal → List (Arr FVal) → Except Err (Arr FVal)) (d : Fin n → Di) (ps : Fin n → List (Arr FVal)) :
    stackComps kernel (List.ofFn fun k => (d k, (ps k).length)) (List.ofFn ps).flatten = List.ofFn fun k => fun x => kernel (d k) x (ps k) := by
  induction n with
  | zero => rfl
  | succ n ih =>
    rw [List.ofFn_succ, List.ofFn_succ, List.ofFn_succ, List.flatten_cons, stackComps, List.take_left, List.drop_left]
    congr 1
    exact ih (fun k => d k.succ) fun k => ps k.succ

/-! ## Stacks of scalars -/

theorem vectorItems_eq {n : ℕ} {v : Arr FVal} (hv : v.shape = [n]) : vectorItems v = List.ofFn fun i : Fin n => ⟨[], fun c => v.get (i.1 :: c)⟩ := by
  have h0 : v.size 0 = n := by simp [Arr.size, hv]
  rw [vectorItems, h0, hv]
  apply List.ext_getElem
  · simp
  · intro i h1 h2
    simp

theorem stackLogprob_entry {n : ℕ} {lp : Fin n → Arr FVal → Except Err (Arr FVal)} {g : Fin n → FVal → FVal} (hg : ∀ k, EntrywiseFn [] (lp k) fun _ => g k) {v : Arr FVal} (hv : v.shape = [n]) :
    ∃ out, stackLogprob (List.ofFn lp) v = .ok out ∧ out.shape = [n] ∧ ∀ k : Fin n, out.get [k.1] = g k (v.get [k.1]) := by
  choose outs h1 h2 h3 using fun k : Fin n => hg k ⟨[], fun c => v.get (k.1 :: c)⟩ rfl
  have h := ((C67_stack (List.ofFn lp) (vectorItems v) (by rw [vectorItems_eq hv]; simp)).1 (List.ofFn outs)).2 ⟨by simp, fun k h4 h5 h6 => by
    simp only [vectorItems_eq hv, List.getElem_ofFn, h1]⟩
  refine ⟨stackScalars (List.ofFn outs), by simp only [stackLogprob, h], by simp [stackScalars], fun k => ?_⟩
  have e : (List.ofFn outs)[k.1]? = some (outs k) := by simp
  simp only [stackScalars, List.getD_cons_zero, e]
  exact h3 k [] .nil

/-- **C115** (stacks) A vector stacked from independent random numbers with densities, any number of them: the entries of the log-probability are the log-densities of the entries, so `exp` of the joint
log-probability is the joint density (`C108_independent`), and elementwise functions and cumulative sums can follow (`C108_layer`, `C108_cumsum`). -/
theorem C115_stack (kernel cdf : Di → Arr FVal → List (Arr FVal) → Except Err (Arr FVal)) (elem : Di → FVal → List FVal → Except Err FVal) (empty : List ℕ → FVal) {n : ℕ} {d : Fin n → Di}
    {ps : Fin n → List (Arr FVal)} {D : ℕ → Set ℝ} {law : ℕ → Measure ℝ} (h : ∀ k : Fin n, EntryDensity [] (fun x => kernel (d k) x (ps k)) (fun _ => D k) fun _ => law k) :
    EntryDensity [n] (fun x => derivedKernel kernel cdf elem empty (.stack (List.ofFn fun k => (d k, (ps k).length))) x (List.ofFn ps).flatten) (fun c => D (c.getD 0 0)) fun c => law (c.getD 0 0) := by
  choose g hg h using h
  have hg' : ∀ k : Fin n, EntrywiseFn [] (fun x => kernel (d k) x (ps k)) fun _ => g k [] := fun k x hx => by
    obtain ⟨out, h1, h2, h3⟩ := hg k x hx
    exact ⟨out, h1, h2, fun c hc => by cases hc; exact h3 [] .nil⟩
  refine ⟨fun c v => if hc : c.getD 0 0 < n then g ⟨c.getD 0 0, hc⟩ [] v else .nan, fun x hx => ?_, fun c hc => ?_⟩
  · obtain ⟨out, h1, h2, h3⟩ := stackLogprob_entry hg' hx
    refine ⟨out, by simp only [derivedKernel, stackComps_ofFn, h1], h2, fun c hc => ?_⟩
    obtain ⟨i, rfl⟩ : ∃ i, c = [i] := by cases hc with | cons _ h' => cases h'; exact ⟨_, rfl⟩
    have hi : i < n := by cases hc with | cons h' _ => exact h'
    simp only [List.getD_cons_zero, dif_pos hi]
    exact h3 ⟨i, hi⟩
  · obtain ⟨i, rfl⟩ : ∃ i, c = [i] := by cases hc with | cons _ h' => cases h'; exact ⟨_, rfl⟩
    have hi : i < n := by cases hc with | cons h' _ => exact h'
    simp only [List.getD_cons_zero, dif_pos hi]
    exact h ⟨i, hi⟩ [] .nil

section
variable (kernel cdf : Di → Arr FVal → List (Arr FVal) → Except Err (Arr FVal)) (elem : Di → FVal → List FVal → Except Err FVal) (empty : List ℕ → FVal)

/-- **C115** (joins) `at.concatenate` of any number of independent random variables of any rank, with joint densities at their parameters, along any axis: `exp` of the joint log-probability of the joined
variable is its joint density.  As the conclusion is of the same form as the hypothesis, elementwise functions and cumulative sums can follow (`C108_layer_joint`, `C108_cumsum`). -/
theorem C115_join {n : ℕ} (hn : 0 < n) {d : Fin n → Di} {ps : Fin n → List (Arr FVal)} {ss : Fin n → List ℕ} {s : List ℕ} {axis : ℤ} {a : ℕ} (hax : AxisIs axis s.length a)
    {D : Fin n → List ℕ → Set ℝ} {law : ∀ k, Measure (Fin (entries (ss k)) → ℝ)} (h : ∀ k, JointDensity (ss k) (fun x => kernel (d k) x (ps k)) (D k) (law k)) {D' : List ℕ → Set ℝ}
    (hD : IsJoin a (List.ofFn fun k => (⟨ss k, D k⟩ : Arr (Set ℝ))) ⟨s, D'⟩) {J : (∀ k, Fin (entries (ss k)) → ℝ) → Fin (entries s) → ℝ}
    (hJ : ∀ x, IsJoin a (List.ofFn fun k => reals (ss k) (x k)) (reals s (J x))) :
    JointDensity s (fun x => derivedKernel kernel cdf elem empty (.join axis (List.ofFn fun k => (d k, (ps k).length, (ss k).getD a 0))) x (List.ofFn ps).flatten) D' ((Measure.pi law).map J) := by
  have e : (fun x => derivedKernel kernel cdf elem empty (.join axis (List.ofFn fun k => (d k, (ps k).length, (ss k).getD a 0))) x (List.ofFn ps).flatten) =
      joinLogprob axis (List.ofFn fun k => ((ss k).getD a 0, fun x => kernel (d k) x (ps k))) := by
    funext x
    simp only [derivedKernel, joinPieces_ofFn]
  rw [e]
  exact C115_join_any hn hax h hD hJ

/-- The law of a single array, as a family. -/
theorem pi_one_map {m m' : ℕ} {law : Measure (Fin m → ℝ)} [IsProbabilityMeasure law] {F : (Fin 1 → Fin m → ℝ) → Fin m' → ℝ} (hF : Measurable F) :
    (Measure.pi fun _ : Fin 1 => law).map F = law.map fun x => F fun _ => x := by
  have h := (measurePreserving_funUnique law (Fin 1)).symm
  have hm : Measurable fun (x : Fin m → ℝ) (_ : Fin 1) => x := measurable_pi_lambda _ fun _ => measurable_id
  rw [show (fun x : Fin m → ℝ => F fun _ => x) = F ∘ fun x _ => x from rfl, ← Measure.map_map hF hm]
  congr 1
  exact h.map_eq.symm

/-- **C115** (dimension shuffles) A random variable of any rank with a joint density, whose dimensions are permuted, dropped (if of length 1) and added by `dimshuffle`: `exp` of the joint log-probability is the
joint density of the shuffled array `T`. -/
theorem C115_dimshuffle {d : Di} {p : List (Arr FVal)} {s s' : List ℕ} {order : List (Option ℕ)} (hl : LegalOrder s order) {D D' : List ℕ → Set ℝ} {law : Measure (Fin (entries s) → ℝ)}
    (h : JointDensity s (fun x => kernel d x p) D law) (hD : IsDimshuffle order (⟨s, D⟩ : Arr (Set ℝ)) ⟨s', D'⟩) {T : (Fin (entries s) → ℝ) → Fin (entries s') → ℝ}
    (hT : ∀ x, IsDimshuffle order (reals s x) (reals s' (T x))) :
    JointDensity s' (fun x => derivedKernel kernel cdf elem empty (.dimshuffle s.length order d) x p) D' (law.map T) := by
  obtain rfl : s' = shuffleShape order s := hD.1
  have e : (fun x => derivedKernel kernel cdf elem empty (.dimshuffle s.length order d) x p) = dimshuffleLogprob s.length order fun x => kernel d x p := by
    funext x
    simp only [derivedKernel]
  have hprob := h.prob
  have eT : T = fun x => gather (shuffleSigma hl) fun _ => x := by
    funext x i
    obtain ⟨⟨k, j⟩, rfl⟩ := (shuffleSigma hl).surjective i
    have e1 := isDimshuffle_entry hl rfl (hT x) j
    rw [reals_get, reals_get] at e1
    exact e1.trans (congrFun (congrFun (scatter_gather (shuffleSigma hl) fun _ => x) k) j).symm
  rw [e, eT, ← pi_one_map (gather_measurable _)]
  refine jointDensity_gather (ss := fun _ : Fin 1 => s) (shuffleSigma hl) (fun _ => h) (fun v hv => ?_) fun k j => isDimshuffle_entry hl rfl hD j
  obtain ⟨x, h1, h2⟩ := dimshuffleLogprob_pieces hl (fun x => kernel d x p) hv
  refine ⟨fun _ => x, fun _ => h1, fun outs ho => ?_⟩
  obtain ⟨out, h3, h4, h5⟩ := h2 (outs 0) (ho 0)
  exact ⟨out, h3, h4, fun k j => by obtain rfl : k = 0 := Subsingleton.elim _ _; exact h5 j⟩

/-- There is such a `T` for every legal order, and no other. -/
theorem dimshuffle_exists {s : List ℕ} {order : List (Option ℕ)} (hl : LegalOrder s order) :
    ∃! T : (Fin (entries s) → ℝ) → Fin (entries (shuffleShape order s)) → ℝ, ∀ x, IsDimshuffle order (reals s x) (reals (shuffleShape order s) (T x)) := by
  refine ⟨fun x i => x ((shuffleEquiv hl).symm i), fun x => ⟨rfl, fun c d hc hd hcd => ?_⟩, fun T hT => ?_⟩
  · obtain ⟨j, rfl⟩ := shape_coord (s := s) hc
    have : d = coord (shuffleEquiv hl j) := by rw [coord_shuffleEquiv]; exact shufflePlace_unique hd hcd
    rw [this, reals_get, reals_get]
    simp only [Equiv.symm_apply_apply]
  · funext x i
    obtain ⟨j, rfl⟩ := (shuffleEquiv hl).surjective i
    have e1 := isDimshuffle_entry hl rfl (hT x) j
    rw [reals_get, reals_get] at e1
    rw [e1, Equiv.symm_apply_apply]

/-! ## Rounding -/

theorem roundsTo_unique {op : RoundOp} {x : ℝ} {k l : ℤ} (hk : x ∈ roundsTo op k) (hl : x ∈ roundsTo op l) : k = l := by
  cases op with
  | halfToEven =>
    obtain ⟨h1, h2⟩ : |x - k| ≤ 1 / 2 ∧ (|x - k| = 1 / 2 → Even k) := hk
    obtain ⟨h3, h4⟩ : |x - l| ≤ 1 / 2 ∧ (|x - l| = 1 / 2 → Even l) := hl
    by_contra hne
    have ha := abs_le.1 h1
    have hb := abs_le.1 h3
    have h5 : k = l + 1 ∨ l = k + 1 := by
      have e1 : (k : ℝ) ≤ l + 1 := by linarith [ha.1, hb.2]
      have e2 : (l : ℝ) ≤ k + 1 := by linarith [ha.2, hb.1]
      have e1' : k ≤ l + 1 := by exact_mod_cast e1
      have e2' : l ≤ k + 1 := by exact_mod_cast e2
      omega
    have h6 : |x - k| = 1 / 2 ∧ |x - l| = 1 / 2 := by
      rcases h5 with rfl | rfl
      · push_cast at *
        exact ⟨by rw [show x - ((l : ℝ) + 1) = -(1 / 2) by linarith]; norm_num, by rw [show x - (l : ℝ) = 1 / 2 by linarith]; norm_num⟩
      · push_cast at *
        exact ⟨by rw [show x - (k : ℝ) = 1 / 2 by linarith]; norm_num, by rw [show x - ((k : ℝ) + 1) = -(1 / 2) by linarith]; norm_num⟩
    have h7 := h2 h6.1
    have h8 := h4 h6.2
    rcases h5 with rfl | rfl
    · exact (Int.even_add_one.1 h7) h8
    · exact (Int.even_add_one.1 h8) h7
  | floor =>
    obtain ⟨h1, h2⟩ : (k : ℝ) ≤ x ∧ x < k + 1 := hk
    obtain ⟨h3, h4⟩ : (l : ℝ) ≤ x ∧ x < l + 1 := hl
    have e1 : (k : ℝ) < l + 1 := by linarith
    have e2 : (l : ℝ) < k + 1 := by linarith
    have e1' : k < l + 1 := by exact_mod_cast e1
    have e2' : l < k + 1 := by exact_mod_cast e2
    omega
  | ceil =>
    obtain ⟨h1, h2⟩ : (k : ℝ) - 1 < x ∧ x ≤ k := hk
    obtain ⟨h3, h4⟩ : (l : ℝ) - 1 < x ∧ x ≤ l := hl
    have e1 : (k : ℝ) < l + 1 := by linarith
    have e2 : (l : ℝ) < k + 1 := by linarith
    have e1' : k < l + 1 := by exact_mod_cast e1
    have e2' : l < k + 1 := by exact_mod_cast e2
    omega

theorem roundsTo_measurable (op : RoundOp) (k : ℤ) : MeasurableSet (roundsTo op k) := by
  cases op with
  | halfToEven =>
    have e : roundsTo .halfToEven k = {x : ℝ | |x - k| ≤ 1 / 2} ∩ {x : ℝ | |x - k| = 1 / 2 → Even k} := rfl
    rw [e]
    have hm : Measurable fun x : ℝ => |x - k| := (measurable_id.sub_const _).abs
    refine (measurableSet_le hm measurable_const).inter ?_
    by_cases hk : Even k
    · simp [hk]
    · simp only [hk, imp_false]
      exact (measurableSet_eq_fun hm measurable_const).compl
  | floor => exact measurableSet_Ico
  | ceil => exact measurableSet_Ioc

theorem logcdf_ninf {lc : FVal → Except Err FVal} {μ : Measure ℝ} (hlc : IsLogCdf (fun x => lc (.fin x)) μ) {x : ℝ} (hx : μ (Iic x) = 0) : lc (.fin x) = .ok .ninf := by
  obtain ⟨w, hw, hwn⟩ := hlc.clean x
  have h := hlc.cdf x
  rw [hx, hw, dens_ok] at h
  rw [hw]
  cases w with
  | nan => exact absurd rfl hwn
  | ninf => rfl
  | pinf => simp at h
  | fin y => simp [Real.exp_pos, not_le.mpr (Real.exp_pos y)] at h

/-- At every integer, also below the support, where the code gives NaN. -/
theorem round_mass {lc : FVal → Except Err FVal} {μ : Measure ℝ} [IsProbabilityMeasure μ] [NullSingletonClass μ] (hlc : IsLogCdf (fun x => lc (.fin x)) μ) (op : RoundOp) (k : ℤ) :
    dens (roundLogprob op lc (.fin k)) = μ (roundsTo op k) := by
  by_cases hk : ∃ x ∈ roundsTo op k, μ (Iic x) ≠ 0
  · exact (C61_round_partial hlc op k hk).2
  · simp only [not_exists, not_and, not_not] at hk
    have hb : μ (Iic (roundEnds op k).2) = 0 := by
      have hlt : ∀ x < (roundEnds op k).2, μ (Iic x) = 0 := fun x hx => by
        suffices ∃ y ∈ roundsTo op k, x ≤ y by
          obtain ⟨y, h1, h2⟩ := this
          exact measure_mono_null (Iic_subset_Iic.2 h2) (hk y h1)
        cases op with
        | halfToEven =>
          refine ⟨max x k, ?_, le_max_left _ _⟩
          have hx' : x < (k : ℝ) + 1 / 2 := hx
          have h1 : |max x k - k| < 1 / 2 := abs_lt.2 ⟨by linarith [le_max_right x (k : ℝ)], by rcases max_choice x (k : ℝ) with h | h <;> rw [h] <;> linarith⟩
          exact ⟨h1.le, fun h => absurd h h1.ne⟩
        | floor =>
          have hx' : x < (k : ℝ) + 1 := hx
          exact ⟨max x k, ⟨le_max_right _ _, max_lt hx' (by linarith)⟩, le_max_left _ _⟩
        | ceil =>
          have hx' : x < (k : ℝ) := hx
          exact ⟨k, ⟨by linarith, le_rfl⟩, hx'.le⟩
      rw [measure_congr Iio_ae_eq_Iic.symm]
      refine measure_mono_null (t := ⋃ q : {q : ℚ // (q : ℝ) < (roundEnds op k).2}, Iic (q.1 : ℝ)) (fun x hx => ?_) (measure_iUnion_null fun q => hlt _ q.2)
      obtain ⟨q, h1, h2⟩ := exists_rat_btwn (mem_Iio.1 hx)
      exact mem_iUnion.2 ⟨⟨q, h2⟩, h1.le⟩
    have hle : (roundEnds op k).1 ≤ (roundEnds op k).2 := by cases op <;> simp [roundEnds] <;> linarith
    have ha : μ (Iic (roundEnds op k).1) = 0 := measure_mono_null (Iic_subset_Iic.2 hle) hb
    have e : roundLogprob op lc (.fin k) = .ok .nan := by
      simp only [roundLogprob, roundEdges_int, logcdf_ninf hlc ha, logcdf_ninf hlc hb, bind, Except.bind]
      simp [logdiffexp, FVal.log1mexp, pure, Except.pure]
    rw [e, roundsTo_measure]
    have : μ (Ioc (roundEnds op k).1 (roundEnds op k).2) = 0 := measure_mono_null Ioc_subset_Iic_self hb
    rw [this]
    rfl

/-- **C115** (rounding) An array of any shape of independent random numbers without atoms whose log-CDFs are given, rounded down, up or to the nearest (`r`): `exp` of the joint log-probability is the joint
probability mass function of the rounded array, at all arrays of integers. -/
theorem C115_round {s : List ℕ} {d : Di} {p : List (Arr FVal)} {law : List ℕ → Measure ℝ} (hp : ∀ c, InRange c s → IsProbabilityMeasure (law c)) (hna : ∀ c, InRange c s → NullSingletonClass (law c))
    {h : List ℕ → FVal → FVal} (hc : EntrywiseFn s (fun x => cdf d x p) h) (hcdf : ∀ c, InRange c s → IsLogCdf (fun x => .ok (h c (.fin x))) (law c)) (op : RoundOp) {r : ℝ → ℤ}
    (hr : ∀ x, x ∈ roundsTo op (r x)) :
    GoodAt (fun x : Fin (entries s) → ℤ => numbers s fun k => x k) (derivedKernel kernel cdf elem empty (.round op d)) (Measure.pi fun k : Fin (entries s) => (law (coord k)).map r)
      (Measure.pi fun _ => Measure.count) p := by
  have hpre : ∀ k, r ⁻¹' {k} = roundsTo op k := fun k => by
    ext x
    simp only [mem_preimage, mem_singleton_iff]
    exact ⟨fun e => e ▸ hr x, fun hx => roundsTo_unique (hr x) hx⟩
  have hrm : Measurable r := measurable_to_countable' fun k => by rw [hpre]; exact roundsTo_measurable op k
  refine goodAt_pi (d := fun k x => dens (roundLogprob op (fun v => .ok (h (coord k) v)) (.fin (x : ℤ)))) (fun k => ?_) (fun k => Measurable.aemeasurable (measurable_of_countable _)) (fun k => ?_) fun x => ?_
  · have := hp _ (coord_inRange k)
    exact Measure.isProbabilityMeasure_map hrm.aemeasurable
  · have := hp _ (coord_inRange k)
    have := hna _ (coord_inRange k)
    refine Measure.ext_of_singleton fun z => ?_
    rw [Measure.map_apply hrm (measurableSet_singleton z), hpre, withDensity_apply _ (measurableSet_singleton z), Measure.restrict_singleton, lintegral_smul_measure, lintegral_dirac, Measure.count_singleton,
      one_smul]
    exact (round_mass (lc := fun v => .ok (h (coord k) v)) (hcdf _ (coord_inRange k)) op z).symm
  · obtain ⟨u, u1, u2, u3⟩ := hc ((numbers s fun k => ((x k : ℤ) : ℝ)).map fun v => (roundEdges op v).1) rfl
    obtain ⟨l, l1, l2, l3⟩ := hc ((numbers s fun k => ((x k : ℤ) : ℝ)).map fun v => (roundEdges op v).2) rfl
    obtain ⟨out, o1, o2, o3⟩ := op2_fits logdiffexp u2 (b := l) (by rw [l2]; exact bshape_self s)
    have he : derivedKernel kernel cdf elem empty (.round op d) (numbers s fun k => ((x k : ℤ) : ℝ)) p = .ok out := by
      simp only [derivedKernel, arrayRoundLogprob, u1, l1, bind, Except.bind]
      exact o1
    rw [he, dens_arrayJoint_ok o2]
    refine Finset.prod_congr rfl fun k _ => ?_
    have hk := coord_inRange k
    rw [o3 _ hk, Arr.entry, l2, project_self hk, u3 _ hk, l3 _ hk]
    simp only [Arr.map, numbers_get, roundLogprob, bind, Except.bind, pure, Except.pure, dens_ok]

end

end Verif.ArrGraph
