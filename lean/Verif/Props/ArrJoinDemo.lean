import Verif.Props.ArrJoin
import Verif.Props.ArrDerivedDemo

/-! # C115: a random walk with rounded observations

`τ ~ Exponential(5)`; `x = at.cumsum(at.concatenate([x₀, ε]))` with `x₀ ~ Normal(0, 10)`, of length 1, and `ε ~ Normal(0, τ)`, of any length `T`; `y = at.round(u)` with `u ~ Normal(x, 1)`. -/

namespace Verif.ArrGraph.Rounded
open Verif Cond MeasureTheory ProbabilityTheory Set
open Schools (Dist law1 scalar)
open Walk (kernel cdf elem normal_entries exp_entries cdf_entries logcdfAt)

variable (T : ℕ)

/-- The shapes of the pieces. -/
def pieces : Fin 2 → List ℕ := ![[1], [T]]

theorem pieces_join : IsJoin 0 (List.ofFn fun k => (⟨pieces T k, fun _ => univ⟩ : Arr (Set ℝ))) ⟨[1 + T], fun _ => univ⟩ := by
  refine ⟨by simp [Arr.ndim], by simp [pieces, Arr.size, List.ofFn_succ], fun p hp => ?_, fun k hk c hc => by rw [List.getElem_ofFn]⟩
  simp only [List.ofFn_succ, List.ofFn_zero, List.mem_cons, List.not_mem_nil, or_false] at hp
  rcases hp with rfl | rfl <;> rfl

/-- Putting the pieces together. -/
noncomputable def joined : (∀ k, Fin (entries (pieces T k)) → ℝ) → Fin (entries [1 + T]) → ℝ := Classical.choose (join_exists (pieces_join T)).exists

theorem joined_spec (x : ∀ k, Fin (entries (pieces T k)) → ℝ) : IsJoin 0 (List.ofFn fun k => reals (pieces T k) (x k)) (reals [1 + T] (joined T x)) :=
  Classical.choose_spec (join_exists (pieces_join T)).exists x

/-- Sequences of numbers, except for the observations. -/
def X : ℕ → Type
  | 0 => Fin (entries []) → ℝ
  | 1 => Fin (entries [1 + T]) → ℝ
  | _ + 2 => Fin (entries [1 + T]) → ℤ

instance : ∀ i, MeasurableSpace (X T i)
  | 0 => inferInstanceAs (MeasurableSpace (Fin (entries []) → ℝ))
  | 1 => inferInstanceAs (MeasurableSpace (Fin (entries [1 + T]) → ℝ))
  | _ + 2 => inferInstanceAs (MeasurableSpace (Fin (entries [1 + T]) → ℤ))

noncomputable def arr : ∀ i, X T i → Arr FVal
  | 0 => numbers []
  | 1 => numbers [1 + T]
  | _ + 2 => fun x => numbers [1 + T] fun k => ((x k : ℤ) : ℝ)

/-- The law of the walk. -/
noncomputable def walkLaw (b : Arr FVal) : Measure (Fin (entries [1 + T]) → ℝ) :=
  ((Measure.pi fun k : Fin 2 => Measure.pi fun j : Fin (entries (pieces T k)) => law1 .normal (paramsAt ((![[scalar 0, scalar 10], [scalar 0, b]] : Fin 2 → List (Arr FVal)) k) (coord j))).map (joined T)).map
    (cumsumOf [1 + T] 0)

noncomputable def law : ∀ i, Derived Dist → List (Arr FVal) → Measure (X T i)
  | 0, _, p => (Measure.pi fun k : Fin (entries []) => law1 .exponential (paramsAt p (coord k)) : Measure (Fin (entries []) → ℝ))
  | 1, _, p => walkLaw T (p.getD 3 (scalar 0))
  | _ + 2, _, p => (Measure.pi fun k : Fin (entries [1 + T]) => (law1 .normal (paramsAt p (coord k))).map FVal.rint : Measure (Fin (entries [1 + T]) → ℤ))

noncomputable def ref : ∀ i, Measure (X T i)
  | 0 => (Measure.pi fun _ => volume : Measure (Fin (entries []) → ℝ))
  | 1 => (Measure.pi fun _ => volume : Measure (Fin (entries [1 + T]) → ℝ))
  | _ + 2 => (Measure.pi fun _ => Measure.count : Measure (Fin (entries [1 + T]) → ℤ))

/-- `at.cumsum(at.concatenate([x₀, ε]))`. -/
def walk : Derived Dist := .cumsum 0 (.join 0 [(.normal, 2, 1), (.normal, 2, T)])

variable (empty : List ℕ → FVal)

theorem walk_good {sd : ℝ} (hsd : 0 < sd) {b : Arr FVal} (hb : b.shape = []) (hbv : ∀ c, b.get (project c b.shape) = .fin sd) :
    JointDensity [1 + T] (fun x => derivedKernel kernel cdf elem empty (walk T) x [scalar 0, scalar 10, scalar 0, b]) (fun _ => univ) (walkLaw T b) := by
  have h1 : ∀ k : Fin 2, JointDensity (pieces T k) (fun x => kernel .normal x ((![[scalar 0, scalar 10], [scalar 0, b]] : Fin 2 → List (Arr FVal)) k)) (fun _ => univ)
      (Measure.pi fun j : Fin (entries (pieces T k)) => law1 .normal (paramsAt ((![[scalar 0, scalar 10], [scalar 0, b]] : Fin 2 → List (Arr FVal)) k) (coord j))) := by
    intro k
    match k with
    | 0 => exact (normal_entries (s := [1]) (a := scalar 0) (b := scalar 10) (Schools.fit_scalars rfl rfl) (fun c _ => ⟨0, rfl⟩) fun c _ => ⟨10, by norm_num, rfl⟩).joint
    | 1 => exact (normal_entries (s := [T]) (a := scalar 0) (b := b) (Schools.fit_scalars rfl hb) (fun c _ => ⟨0, rfl⟩) fun c _ => ⟨sd, hsd, hbv c⟩).joint
  have h2 := C115_join kernel cdf elem empty (n := 2) (by norm_num) (d := fun _ => .normal) (ps := ![[scalar 0, scalar 10], [scalar 0, b]]) (ss := pieces T) (s := [1 + T]) (axis := 0) (a := 0) ⟨by simp, .inl rfl⟩ h1
    (pieces_join T) (joined_spec T)
  exact C108_cumsum kernel cdf elem empty (s := [1 + T]) (axis := 0) (a := 0) ⟨by simp, .inl rfl⟩ (by simp) (e := .join 0 [(.normal, 2, 1), (.normal, 2, T)]) (p := [scalar 0, scalar 10, scalar 0, b]) h2

theorem rint_rounds (x : ℝ) : x ∈ roundsTo .halfToEven (FVal.rint x) := by
  have h1 := Int.floor_le x
  have h2 := Int.lt_floor_add_one x
  unfold FVal.rint
  show |x - _| ≤ 1 / 2 ∧ (|x - _| = 1 / 2 → Even _)
  split_ifs with h3 h4 h5
  · have h : |x - (⌊x⌋ : ℝ)| < 1 / 2 := abs_lt.2 ⟨by linarith, h3⟩
    exact ⟨h.le, fun e => absurd e h.ne⟩
  · have h : |x - ((⌊x⌋ + 1 : ℤ) : ℝ)| < 1 / 2 := by
      push_cast
      exact abs_lt.2 ⟨by linarith, by linarith⟩
    exact ⟨h.le, fun e => absurd e h.ne⟩
  · exact ⟨abs_le.2 ⟨by linarith, by linarith⟩, fun _ => Int.even_iff.2 h5⟩
  · refine ⟨abs_le.2 ⟨by push_cast; linarith, by push_cast; linarith⟩, fun _ => Int.even_iff.2 (by omega)⟩

noncomputable def tau : RVDef (Derived Dist) := ⟨.base .exponential, 1, ![.const (scalar 5)]⟩
noncomputable def x : RVDef (Derived Dist) := ⟨walk T, 4, ![.const (scalar 0), .const (scalar 10), .const (scalar 0), .rv 0 (.base .exponential) 1 tau.args]⟩
noncomputable def y : RVDef (Derived Dist) := ⟨.round .halfToEven .normal, 2, ![.rv 1 (walk T) 4 (x T).args, .const (scalar 1)]⟩
noncomputable def model : List (ℕ × RVDef (Derived Dist)) := [(0, tau), (1, x T), (2, y T)]

noncomputable def K : Derived Dist → Arr FVal → List (Arr FVal) → Except Err (Arr FVal) := derivedKernel kernel cdf elem empty

theorem valid (ρ : ℕ → Arr FVal) (σ : ∀ i, X T i) : Valid (arr T) (K empty) (law T) (ref T) ρ (model T) σ := by
  have p0 : ∀ σ ρ, params σ ρ tau = [scalar 5] := fun σ ρ => by simp [params, tau, List.ofFn_succ, evalAt]
  have hpos : ∀ᵐ x ∂(Measure.pi fun k : Fin (entries []) => law1 .exponential (paramsAt [scalar 5] (coord k))), 0 < x (⟨0, one_pos⟩ : Fin 1) := by
    have hp : ∀ k : Fin (entries []), law1 .exponential (paramsAt [scalar 5] (coord k)) = (volume : Measure ℝ).withDensity (exponentialPDF 5⁻¹) := fun k => rfl
    have : ∀ k : Fin (entries []), SigmaFinite (law1 .exponential (paramsAt [scalar 5] (coord k))) := fun k => by
      rw [hp]
      have : IsProbabilityMeasure ((volume : Measure ℝ).withDensity (exponentialPDF 5⁻¹)) := isProbabilityMeasure_expMeasure (by norm_num)
      infer_instance
    exact (Measure.quasiMeasurePreserving_eval _ _).ae (Schools.exp_pos_ae (m := 5))
  refine ⟨?_, ?_⟩
  · rw [p0]
    exact (exp_entries (s := []) (a := scalar 5) (bshape_nil_right _) fun c _ => ⟨5, by norm_num, rfl⟩).joint.goodAt (kernel := K empty (.base .exponential))
  rw [p0]
  filter_upwards [hpos] with x0 h0
  have p1 : params (asg (arr T) (Function.update σ 0 x0)) ρ (x T) = [scalar 0, scalar 10, scalar 0, numbers [] x0] := by
    simp only [params, x, List.ofFn_succ, evalAt, asg]
    rfl
  refine ⟨?_, ae_of_all _ fun x1 => ⟨?_, ae_of_all _ fun _ => trivial⟩⟩
  · rw [p1]
    exact (walk_good T empty h0 (b := numbers [] x0) rfl fun c => Schools.scalar_entry x0 c).goodAt (kernel := K empty (walk T))
  · have p2 : params (asg (arr T) (Function.update (Function.update σ 0 x0) 1 x1)) ρ (y T) = [numbers [1 + T] x1, scalar 1] := by
      simp only [params, y, List.ofFn_succ, evalAt, asg]
      rfl
    rw [p2]
    have hfit : Fit [1 + T] [numbers [1 + T] x1, scalar 1] := Walk.fit_self_scalar rfl rfl
    have ha : ∀ c, InRange c [1 + T] → ∃ m : ℝ, (numbers [1 + T] x1).get (project c (numbers [1 + T] x1).shape) = .fin m := fun c hc => by
      rw [show (numbers [1 + T] x1).shape = [1 + T] from rfl, project_self hc]
      obtain ⟨k, rfl⟩ := shape_coord hc
      exact ⟨_, numbers_get x1 k⟩
    have hb : ∀ c, InRange c [1 + T] → ∃ sd : ℝ, 0 < sd ∧ (scalar 1).get (project c (scalar 1).shape) = .fin sd := fun c _ => ⟨1, one_pos, rfl⟩
    obtain ⟨hc1, hc2⟩ := cdf_entries hfit ha hb
    have hlaw : ∀ c, InRange c [1 + T] → ∃ m : ℝ, law1 .normal (paramsAt [numbers [1 + T] x1, scalar 1] c) = gaussianReal m (1 ^ 2 : ℝ).toNNReal := fun c hc => by
      obtain ⟨m, hm⟩ := ha c hc
      refine ⟨m, ?_⟩
      simp only [paramsAt, List.map_cons, List.map_nil, hm]
      rfl
    refine C115_round kernel cdf elem empty (s := [1 + T]) (d := .normal) (p := [numbers [1 + T] x1, scalar 1]) (law := fun c => law1 .normal (paramsAt [numbers [1 + T] x1, scalar 1] c)) (fun c hc => ?_)
      (fun c hc => ?_) hc1 hc2 .halfToEven rint_rounds
    · obtain ⟨m, hm⟩ := hlaw c hc
      rw [hm]
      infer_instance
    · obtain ⟨m, hm⟩ := hlaw c hc
      rw [hm]
      exact nullSingletonClass_gaussianReal (by simp)

/-- Value variables `10`, `11`, `12`. -/
noncomputable def env (σ : ∀ i, X T i) (i : ℕ) : Arr FVal := if 10 ≤ i then arr T (i - 10) (σ (i - 10)) else ⟨[], fun _ => .nan⟩

/-- The joint density of the model, for series of any length; the observations are realized. -/
example (ρ : ℕ → Arr FVal) (ω : ℕ → Derived Dist → List (Arr FVal) → Arr FVal) :
    ∃ j vvs, joint (Dict.get? (model T)) [1, 0] [11, 10] [(2, 12)] = .ok (some (j, vvs)) ∧
      (∀ x, x ∈ vvs ↔ ∃ v, v ∉ Dict.keys [(2, 12)] ∧ Dict.get? (rvValues [1, 0] [11, 10] [(2, 12)]) v = some x) ∧
      ∀ σ₀, ∀ φ, refE (ref T) (model T) σ₀ (fun σ => dens (evalJoint (K empty) (env T σ) ω j) * φ σ) = sampleE (arr T) (law T) ρ (model T) σ₀ φ := by
  obtain ⟨j, vvs, h1, h2, h3⟩ := C106_joint_density (arr T) (K empty) (law T) (ref T) ρ ω (l := model T) (rvs := [1, 0]) (clones := [11, 10]) (realized := [(2, 12)])
    (by simp [model]) (by simp [DependencyOrder, model, tau, x, y, Mentions, Fin.forall_fin_succ]) (by simp [model, tau, x, y, User, Fin.forall_fin_succ]) rfl
    (by intro v; simp [model, Dict.keys]; tauto) (by simp [model, tau, x, y, Mentions, Fin.forall_fin_succ]) (env T)
    (by
      intro σ v x h
      have e : rvValues [1, 0] [11, 10] [(2, 12)] = [(1, 11), (0, 10), (2, 12)] := by decide
      rw [e] at h
      simp only [Dict.get?] at h
      split_ifs at h with h1 h2 h3 <;> cases h <;> (subst_vars; rfl))
    (by
      intro σ p hp
      simp only [model, List.mem_cons, List.not_mem_nil, or_false] at hp
      rcases hp with rfl | rfl | rfl <;> simp [params, tau, x, y, List.ofFn_succ, evalAt])
  exact ⟨j, vvs, h1, h2, fun σ₀ φ => h3 σ₀ (valid T empty ρ σ₀) φ⟩

/-- A matrix of normal variables, transposed, with a dimension of length 1 dropped and one added in front. -/
example (m n : ℕ) : ∃ T : (Fin (entries [m, 1, n]) → ℝ) → Fin (entries [1, n, m]) → ℝ, (∀ x i j, i < m → j < n → (reals [1, n, m] (T x)).get [0, j, i] = (reals [m, 1, n] x).get [i, 0, j]) ∧
    JointDensity [1, n, m] (fun x => derivedKernel kernel cdf elem empty (.dimshuffle 3 [none, some 2, some 0] .normal) x [scalar 0, scalar 2]) (fun _ => univ)
      ((Measure.pi fun k : Fin (entries [m, 1, n]) => law1 .normal (paramsAt [scalar 0, scalar 2] (coord k))).map T) := by
  have hl : LegalOrder [m, 1, n] [none, some 2, some 0] := orderOk_iff.1 (by simp [orderOk, List.range_succ])
  obtain ⟨T, hT, -⟩ := dimshuffle_exists hl
  refine ⟨T, fun x i j hi hj => (hT x).2 [i, 0, j] [0, j, i] (.cons hi (.cons one_pos (.cons hj .nil))) (.cons one_pos (.cons hj (.cons hi .nil))) fun p q h => ?_, ?_⟩
  · match p with
    | 0 => simp at h
    | 1 => simp at h; subst h; rfl
    | 2 => simp at h; subst h; rfl
    | p + 3 => simp at h
  · exact C115_dimshuffle kernel cdf elem empty (d := .normal) (p := [scalar 0, scalar 2]) (s := [m, 1, n]) (s' := [1, n, m]) hl (D' := fun _ => univ)
      (normal_entries (s := [m, 1, n]) (a := scalar 0) (b := scalar 2) (Schools.fit_scalars rfl rfl) (fun c _ => ⟨0, rfl⟩) fun c _ => ⟨2, by norm_num, rfl⟩).joint ⟨rfl, fun _ _ _ _ _ => rfl⟩ hT

/-- Two matrices joined along the last axis, counted from the end; the second is a cumulative sum. -/
example (m n : ℕ) (hm : m ≠ 0) : ∃ (ss : Fin 2 → List ℕ) (lawk : ∀ k, Measure (Fin (entries (ss k)) → ℝ)) (J : (∀ k, Fin (entries (ss k)) → ℝ) → Fin (entries [m, n + 3]) → ℝ), ss = ![[m, n], [m, 3]] ∧
    JointDensity [m, n + 3] (joinLogprob (-1) [(n, fun x => kernel .exponential x [scalar 2]), (3, fun x => derivedKernel kernel cdf elem empty (.cumsum 0 (.base .normal)) x [scalar 0, scalar 2])])
      (fun c => if c.getD 1 0 < n then Ioi 0 else univ) ((Measure.pi lawk).map J) := by
  set ss : Fin 2 → List ℕ := ![[m, n], [m, 3]] with hss
  set D : Fin 2 → List ℕ → Set ℝ := ![fun _ => Ioi 0, fun _ => univ] with hDd
  have hD : IsJoin 1 (List.ofFn fun k => (⟨ss k, D k⟩ : Arr (Set ℝ))) ⟨[m, n + 3], fun c => if c.getD 1 0 < n then Ioi 0 else univ⟩ := by
    refine ⟨by simp [Arr.ndim], by simp [hss, Arr.size, List.ofFn_succ], fun p hp => ?_, fun k hk c hc => ?_⟩
    · simp only [List.ofFn_succ, List.ofFn_zero, List.mem_cons, List.not_mem_nil, or_false] at hp
      rcases hp with rfl | rfl <;> rfl
    · have hk' : k < 2 := by simpa using hk
      simp only [List.getElem_ofFn] at hc ⊢
      match k, hk' with
      | 0, _ =>
        obtain ⟨i, j, rfl, hi, hj⟩ : ∃ i j, c = [i, j] ∧ i < m ∧ j < n := by
          cases hc with | cons h1 h' => cases h' with | cons h2 h'' => cases h''; exact ⟨_, _, rfl, h1, h2⟩
        simp [hDd, joinOffset, hj]
      | 1, _ =>
        obtain ⟨i, j, rfl, hi, hj⟩ : ∃ i j, c = [i, j] ∧ i < m ∧ j < 3 := by
          cases hc with | cons h1 h' => cases h' with | cons h2 h'' => cases h''; exact ⟨_, _, rfl, h1, h2⟩
        simp [hDd, hss, joinOffset, Arr.size, List.ofFn_succ]
  obtain ⟨J, hJ, -⟩ := join_exists hD
  have h0 := (exp_entries (s := [m, n]) (a := scalar 2) (bshape_nil_right _) fun c _ => ⟨2, by norm_num, rfl⟩).joint
  have h1 := C108_cumsum kernel cdf elem empty (s := [m, 3]) (axis := 0) (a := 0) ⟨by simp, .inl rfl⟩ (by simpa using hm) (e := .base .normal) (p := [scalar 0, scalar 2])
    (normal_entries (s := [m, 3]) (a := scalar 0) (b := scalar 2) (Schools.fit_scalars rfl rfl) (fun c _ => ⟨0, rfl⟩) fun c _ => ⟨2, by norm_num, rfl⟩).joint
  have h : ∀ k, ∃ law, JointDensity (ss k) ((![fun x => kernel .exponential x [scalar 2], fun x => derivedKernel kernel cdf elem empty (.cumsum 0 (.base .normal)) x [scalar 0, scalar 2]] :
      Fin 2 → Arr FVal → Except Err (Arr FVal)) k) (D k) law := fun k => by
    match k with
    | 0 => exact ⟨_, h0⟩
    | 1 => exact ⟨_, h1⟩
  choose lawk h using h
  exact ⟨ss, lawk, J, rfl, C115_join_any (n := 2) (by norm_num) (s := [m, n + 3]) (axis := -1) (a := 1) ⟨by simp, .inr rfl⟩ h hD hJ⟩

/-- A normal and an exponential number, stacked. -/
example : EntryDensity [2] (fun x => derivedKernel kernel cdf elem empty (.stack [(.normal, 2), (.exponential, 1)]) x [scalar 0, scalar 1, scalar 3]) (fun c => if c.getD 0 0 = 0 then univ else Ioi 0)
    (fun c => if c.getD 0 0 = 0 then law1 .normal [.fin 0, .fin 1] else law1 .exponential [.fin 3]) := by
  have h := C115_stack kernel cdf elem empty (n := 2) (d := ![.normal, .exponential]) (ps := ![[scalar 0, scalar 1], [scalar 3]]) (D := fun i => if i = 0 then univ else Ioi 0)
    (law := fun i => if i = 0 then law1 .normal [.fin 0, .fin 1] else law1 .exponential [.fin 3]) fun k => by
      match k with
      | 0 =>
        have := normal_entries (s := []) (a := scalar 0) (b := scalar 1) (Schools.fit_scalars rfl rfl) (fun c _ => ⟨0, rfl⟩) fun c _ => ⟨1, one_pos, rfl⟩
        simpa [scalar, paramsAt] using this
      | 1 =>
        have := exp_entries (s := []) (a := scalar 3) (bshape_nil_right _) fun c _ => ⟨3, by norm_num, rfl⟩
        simpa [scalar, paramsAt] using this
  have e1 : (List.ofFn fun k : Fin 2 => ((![.normal, .exponential] : Fin 2 → Dist) k, ((![[scalar 0, scalar 1], [scalar 3]] : Fin 2 → List (Arr FVal)) k).length)) = [(.normal, 2), (.exponential, 1)] := by
    simp [List.ofFn_succ]
  have e2 : (List.ofFn (![[scalar 0, scalar 1], [scalar 3]] : Fin 2 → List (Arr FVal))).flatten = [scalar 0, scalar 1, scalar 3] := by
    simp [List.ofFn_succ]
  rw [e1, e2] at h
  exact h

end Verif.ArrGraph.Rounded
