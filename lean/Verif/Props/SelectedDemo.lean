import Verif.Props.Selected
import Verif.Props.ArrDerivedDemo
import Mathlib.Tactic.FinCases

/-! # C126: which indices select every element at most once, and wrong results of those that do not -/

namespace Verif.ArrGraph
open Verif Cond MeasureTheory ProbabilityTheory Set

variable {Di : Type}

theorem slice_nodup {start stop : Option ℤ} {step : ℤ} (hs : step ≠ 0) (n : ℕ) : ((slicePositions start stop step n).map Int.toNat).Nodup := by
  obtain ⟨h1, h2, h3⟩ := C65_slice_positions start stop hs n
  have hn : (slicePositions start stop step n).Nodup := by
    rcases lt_or_gt_of_ne hs with h | h
    · exact (h3 h).imp fun h => ne_of_gt h
    · exact (h2 h).imp fun h => ne_of_lt h
  refine (List.nodup_map_iff_inj_on hn).2 fun x hx y hy h => ?_
  have h4 := ((h1 x).1 hx).1.1
  have h5 := ((h1 y).1 hy).1.1
  omega

theorem items_nodup : ∀ {idx : List Index} {shape : List ℕ} {its : List Item}, items idx shape = .ok its → ∀ L, Item.sl L ∈ its → L.Nodup
  | [], [], its, h, L, hL => by
    simp only [items] at h
    cases h
    cases hL
  | [], n :: shape, its, h, L, hL => by
    simp only [items] at h
    obtain ⟨rest, h1, h2⟩ := bind_ok h
    cases h2
    rcases List.mem_cons.1 hL with h | h
    · cases h
      exact List.nodup_range
    · exact items_nodup h1 L h
  | .newaxis :: idx, shape, its, h, L, hL => by
    simp only [items] at h
    obtain ⟨rest, h1, h2⟩ := bind_ok h
    cases h2
    rcases List.mem_cons.1 hL with h | h
    · cases h
    · exact items_nodup h1 L h
  | .slice _ _ _ :: _, [], its, h, _, _ => by simp only [items] at h; cases h
  | .adv _ :: _, [], its, h, _, _ => by simp only [items] at h; cases h
  | .slice start stop step :: idx, n :: shape, its, h, L, hL => by
    simp only [items] at h
    split at h
    · cases h
    · rename_i hstep
      obtain ⟨rest, h1, h2⟩ := bind_ok h
      cases h2
      rcases List.mem_cons.1 hL with h | h
      · cases h
        refine slice_nodup (fun h0 => hstep ?_) n
        rcases step with _ | s
        · simp at h0
        · simp at h0; rw [h0]
      · exact items_nodup h1 L h
  | .adv a :: idx, n :: shape, its, h, L, hL => by
    simp only [items] at h
    split at h
    · obtain ⟨rest, h1, h2⟩ := bind_ok h
      cases h2
      rcases List.mem_cons.1 hL with h | h
      · cases h
      · exact items_nodup h1 L h
    · cases h

theorem items_adv : ∀ {idx : List Index} {shape : List ℕ} {its : List Item}, items idx shape = .ok its → ∀ t ∈ its.filterMap Item.advShape, ∃ a, Index.adv a ∈ idx ∧ a.shape = t
  | [], [], its, h, t, ht => by
    simp only [items] at h
    cases h
    simp at ht
  | [], n :: shape, its, h, t, ht => by
    simp only [items] at h
    obtain ⟨rest, h1, h2⟩ := bind_ok h
    cases h2
    exact items_adv h1 t (by simpa [Item.advShape] using ht)
  | .newaxis :: idx, shape, its, h, t, ht => by
    simp only [items] at h
    obtain ⟨rest, h1, h2⟩ := bind_ok h
    cases h2
    obtain ⟨a, ha, h3⟩ := items_adv h1 t (by simpa [Item.advShape] using ht)
    exact ⟨a, List.mem_cons_of_mem _ ha, h3⟩
  | .slice _ _ _ :: _, [], its, h, _, _ => by simp only [items] at h; cases h
  | .adv _ :: _, [], its, h, _, _ => by simp only [items] at h; cases h
  | .slice start stop step :: idx, n :: shape, its, h, t, ht => by
    simp only [items] at h
    split at h
    · cases h
    · obtain ⟨rest, h1, h2⟩ := bind_ok h
      cases h2
      obtain ⟨a, ha, h3⟩ := items_adv h1 t (by simpa [Item.advShape] using ht)
      exact ⟨a, List.mem_cons_of_mem _ ha, h3⟩
  | .adv a :: idx, n :: shape, its, h, t, ht => by
    simp only [items] at h
    split at h
    · obtain ⟨rest, h1, h2⟩ := bind_ok h
      cases h2
      simp only [List.filterMap_cons, Item.advShape] at ht
      rcases List.mem_cons.1 ht with rfl | ht
      · exact ⟨a, List.mem_cons_self, rfl⟩
      · obtain ⟨b, hb, h3⟩ := items_adv h1 t ht
        exact ⟨b, List.mem_cons_of_mem _ hb, h3⟩
    · cases h

theorem pick_injective {bc : List ℕ} : ∀ {its : List Item} {bs bs' : List ℕ}, (∀ L, Item.sl L ∈ its → L.Nodup) → InRange bs ((its.filter Item.basic).map Item.len) →
    InRange bs' ((its.filter Item.basic).map Item.len) → pick bc its bs = pick bc its bs' → bs = bs'
  | [], bs, bs', _, h, h', _ => by
    cases h
    cases h'
    rfl
  | .new :: its, bs, bs', hn, h, h', e => by
    simp only [List.filter_cons, Item.basic, if_true, List.map_cons, Item.len] at h h'
    cases h with
    | cons h0 h =>
      cases h' with
      | cons h0' h' =>
        rw [pick_injective (its := its) (fun L hL => hn L (List.mem_cons_of_mem _ hL)) h h' e]
        congr 1
        omega
  | .sl L :: its, bs, bs', hn, h, h', e => by
    simp only [List.filter_cons, Item.basic, if_true, List.map_cons, Item.len] at h h'
    cases h with
    | cons h0 h =>
      cases h' with
      | cons h0' h' =>
        simp only [pick, List.headD_cons, List.tail_cons, List.cons.injEq] at e
        rw [pick_injective (its := its) (fun L hL => hn L (List.mem_cons_of_mem _ hL)) h h' e.2]
        congr 1
        have e1 := e.1
        rw [List.getD_eq_getElem _ _ h0, List.getD_eq_getElem _ _ h0'] at e1
        exact (List.Nodup.getElem_inj_iff (hn L List.mem_cons_self)).1 e1
  | .adv a :: its, bs, bs', hn, h, h', e => by
    simp only [List.filter_cons, Item.basic, Bool.false_eq_true, if_false] at h h'
    simp only [pick, List.cons.injEq, true_and] at e
    exact pick_injective (its := its) (fun L hL => hn L (List.mem_cons_of_mem _ hL)) h h' e

/-- Slices, `newaxis` and integers select every element at most once. -/
theorem basic_selectsOnce {idx : List Index} (hidx : ¬ Advanced idx) {S : List ℕ} {R : Arr (List ℕ)} (h : npSelect idx S = .ok R) : SelectsOnce R := by
  rw [npSelect] at h
  obtain ⟨its, h1, h2⟩ := bind_ok h
  cases hb : bshape (its.filterMap Item.advShape) with
  | none => rw [hb] at h2; cases h2
  | some block =>
    have hblock : block = [] := by
      have h3 := (bshape_some.1 hb).1
      have h4 : maxDims (its.filterMap Item.advShape) ≤ 0 := maxDims_le fun t ht => by
        obtain ⟨a, ha, rfl⟩ := items_adv h1 t ht
        by_contra h0
        exact hidx ⟨a, ha, fun e => h0 (by simp [e])⟩
      exact List.length_eq_zero_iff.1 (by omega)
    rw [hb, hblock] at h2
    cases h2
    intro c c' hc hc' e
    simp only [List.append_nil, List.take_append_drop, List.length_nil, Nat.add_zero, List.take_zero] at hc hc' e
    exact pick_injective (items_nodup h1) hc hc' e

theorem Filled.notAdvanced {es : List IndexEntry} {as : List (Arr FVal)} {idx : List Index} (hf : Filled es as idx) (h1 : ∀ a, IndexEntry.fixed (.adv a) ∈ es → a.shape = []) (h2 : ∀ a ∈ as, a.shape = []) :
    ¬ Advanced idx := by
  rintro ⟨a, ha, hne⟩
  refine hne ?_
  clear hne
  induction hf with
  | nil => cases ha
  | fixed i hf ih =>
    rcases List.mem_cons.1 ha with rfl | ha
    · exact h1 a List.mem_cons_self
    · exact ih (fun b hb => h1 b (List.mem_cons_of_mem _ hb)) h2 ha
  | given z hf ih =>
    rcases List.mem_cons.1 ha with h | ha
    · cases h
      exact h2 _ List.mem_cons_self
    · exact ih (fun b hb => h1 b (List.mem_cons_of_mem _ hb)) (fun b hb => h2 b (List.mem_cons_of_mem _ hb)) ha

section
variable (kernel cdf : Di → Arr FVal → List (Arr FVal) → Except Err (Arr FVal)) (elem : Di → FVal → List FVal → Except Err FVal) (empty : List ℕ → FVal)

/-- **C126** (basic indexing) With slices, `newaxis` and integers, constant or computed in the graph, `exp` of the joint log-probability of the indexed array is always the joint density of the selected elements. -/
theorem C126_basic {es : List IndexEntry} {as : List (Arr FVal)} {idx : List Index} (hf : Filled es as idx) (h1 : ∀ a, IndexEntry.fixed (.adv a) ∈ es → a.shape = []) (h2 : ∀ a ∈ as, a.shape = [])
    {S : List ℕ} {R : Arr (List ℕ)} (hR : npSelect idx S = .ok R) {d : Di}
    {k : FVal → List FVal → Except Err FVal} (hk : ∀ v q, kernel d v q = elemwiseLogprob k v q) {p : List (Arr FVal)} {law ref : List ℕ → Measure ℝ} [∀ c, SigmaFinite (ref c)]
    (hp : ∀ c, InRange c S → IsProbabilityMeasure (law c)) (hm : ∀ c, InRange c S → Measurable fun x : ℝ => dens (k (.fin x) (paramsAt p c)))
    (hl : ∀ c, InRange c S → law c = (ref c).withDensity fun x => dens (k (.fin x) (paramsAt p c))) :
    GoodAt (numbers R.shape) (derivedKernel kernel cdf elem empty (.index S es d)) ((Measure.pi fun i : Fin (entries S) => law (coord i)).map (selected S R))
        (Measure.pi fun j => ref (R.get (coord j))) (as ++ p) :=
  (C126_indexed_iff_partial kernel cdf elem empty hf hR hk hp hm hl).2 fun c c' hc hc' hne he => absurd (basic_selectsOnce (hf.notAdvanced h1 h2) hR c c' hc hc' he) hne

end

/-! ## Normal variables -/

namespace SelectedDemo
open Schools (Dist normalK law1 scalar vector)
open Walk (kernel cdf elem)

theorem kernel_normal (v : Arr FVal) (q : List (Arr FVal)) : kernel .normal v q = elemwiseLogprob normalK v q := rfl

/-- Normal variables with means `m` and standard deviations `sd`, any of which may be the same for all. -/
theorem normal_laws {a b : Arr FVal} {S : List ℕ} {m sd : List ℕ → ℝ} (ha : ∀ c, InRange c S → entryAt a c = .fin (m c)) (hb : ∀ c, InRange c S → entryAt b c = .fin (sd c))
    (hsd : ∀ c, InRange c S → 0 < sd c) :
    (∀ c, InRange c S → IsProbabilityMeasure (gaussianReal (m c) (sd c ^ 2).toNNReal)) ∧
    (∀ c, InRange c S → Measurable fun x : ℝ => dens (normalK (.fin x) (paramsAt [a, b] c))) ∧
    ∀ c, InRange c S → gaussianReal (m c) (sd c ^ 2).toNNReal = volume.withDensity fun x => dens (normalK (.fin x) (paramsAt [a, b] c)) := by
  have hpa : ∀ c, InRange c S → paramsAt [a, b] c = [.fin (m c), .fin (sd c)] := fun c hc => by
    have h1 := ha c hc
    have h2 := hb c hc
    simp only [entryAt] at h1 h2
    simp only [paramsAt, List.map_cons, List.map_nil, h1, h2]
  have e : ∀ c, InRange c S → (fun x : ℝ => dens (normalK (.fin x) (paramsAt [a, b] c))) = gaussianPDF (m c) (sd c ^ 2).toNNReal := fun c hc => by
    funext x
    rw [hpa c hc]
    show dens (normalLogprob _ _ _) = _
    rw [normal_eval x (m c) (hsd c hc), dens_log (gaussianPDFReal_pos _ _ _ (toNNReal_sq_ne (hsd c hc)))]
    rfl
  refine ⟨fun c _ => inferInstance, fun c hc => ?_, fun c hc => ?_⟩
  · rw [e c hc]; exact measurable_gaussianPDF _ _
  · rw [e c hc]; exact gaussianReal_of_var_ne_zero _ (toNNReal_sq_ne (hsd c hc))

/-- `x[z]` for a vector `x` of length `n` and a vector `z` of integers. -/
theorem select_vector {n k : ℕ} {z : ℕ → ℤ} (hz : ∀ i < k, -(n : ℤ) ≤ z i ∧ z i < n) :
    npSelect [.adv ⟨[k], fun c => z (c.headD 0)⟩] [n] = .ok ⟨[k], fun c => [wrap n (z ((project (c.take 1) [k]).headD 0))]⟩ := by
  have h1 : items [.adv ⟨[k], fun c => z (c.headD 0)⟩] [n] = .ok [.adv ⟨[k], fun c => wrap n (z (c.headD 0))⟩] := by
    simp only [items]
    rw [if_pos]
    · rfl
    · intro c hc
      cases hc with
      | cons h0 h => exact hz _ h0
  have h2 : bshape [[k]] = some [k] := by rw [bshape_cons_iff]; simp
  rw [npSelect, h1]
  simp only [bind, Except.bind, List.filterMap_cons, List.filterMap_nil, Item.advShape, h2]
  rfl

theorem inRange_one {k : ℕ} {c : List ℕ} : InRange c [k] ↔ ∃ i < k, c = [i] := by
  constructor
  · intro h
    cases h with
    | cons h0 h => cases h; exact ⟨_, h0, rfl⟩
  · rintro ⟨i, hi, rfl⟩
    exact .cons hi .nil

theorem project_one {k i : ℕ} (hi : i < k) : project [i] [k] = [i] := project_self (inRange_one.2 ⟨i, hi, rfl⟩)

/-- **C126** (a vector of normal variables) `X[z]` for a vector `X` of independent normal variables and a vector `z` of integers that are computed in the graph: `exp` of the joint log-probability is the joint density of
the selected elements exactly if no two entries of `z` mean the same position. -/
theorem C126_vector_iff_partial (empty : List ℕ → FVal) {n k : ℕ} {z : ℕ → ℤ} (hz : ∀ i < k, -(n : ℤ) ≤ z i ∧ z i < n) (m : ℕ → ℝ) {sd : ℕ → ℝ} (hsd : ∀ i < n, 0 < sd i) :
    GoodAt (numbers [k]) (derivedKernel kernel cdf elem empty (.index [n] [.given] .normal))
        ((Measure.pi fun i : Fin (entries [n]) => gaussianReal (m ((coord i).headD 0)) (sd ((coord i).headD 0) ^ 2).toNNReal).map fun x j => (reals [n] x).get [wrap n (z ((coord j).headD 0))])
        (Measure.pi fun _ => volume) [⟨[k], fun c => .fin (z (c.headD 0))⟩, vector n m, vector n sd] ↔
      ∀ i < k, ∀ j < k, wrap n (z i) = wrap n (z j) → i = j := by
  obtain ⟨h1, h2, h3⟩ := normal_laws (S := [n]) (a := vector n m) (b := vector n sd) (m := fun c => m (c.headD 0)) (sd := fun c => sd (c.headD 0))
    (fun c hc => by rw [entryAt, show (vector n m).shape = [n] from rfl, project_self hc]; rfl) (fun c hc => by rw [entryAt, show (vector n sd).shape = [n] from rfl, project_self hc]; rfl)
    (fun c hc => by obtain ⟨i, hi, rfl⟩ := inRange_one.1 hc; exact hsd i hi)
  have h := C126_once_iff_partial kernel cdf elem empty (.given ⟨[k], fun c => z (c.headD 0)⟩ .nil) (select_vector hz) (d := Dist.normal) kernel_normal h1 h2 h3
  have e1 : ∀ i < k, wrap n (z ((project ([i].take 1) [k]).headD 0)) = wrap n (z i) := fun i hi => by rw [show [i].take 1 = [i] from rfl, project_one hi]; rfl
  have e2 : selected [n] (⟨[k], fun c => [wrap n (z ((project (c.take 1) [k]).headD 0))]⟩ : Arr (List ℕ)) = fun x j => (reals [n] x).get [wrap n (z ((coord j).headD 0))] := by
    funext x j
    obtain ⟨i, hi, he⟩ := inRange_one.1 (coord_inRange (s := [k]) j)
    have he' : coord (s := (⟨[k], fun c => [wrap n (z ((project (c.take 1) [k]).headD 0))]⟩ : Arr (List ℕ)).shape) j = [i] := he
    simp only [selected, he', he, e1 i hi]
    rfl
  rw [e2] at h
  refine Iff.trans h ⟨fun hs i hi j hj he => ?_, fun hs c c' hc hc' he => ?_⟩
  · have := hs [i] [j] (inRange_one.2 ⟨i, hi, rfl⟩) (inRange_one.2 ⟨j, hj, rfl⟩) (by show [wrap n _] = [wrap n _]; rw [e1 i hi, e1 j hj, he])
    simpa using this
  · obtain ⟨i, hi, rfl⟩ := inRange_one.1 hc
    obtain ⟨j, hj, rfl⟩ := inRange_one.1 hc'
    have he' : [wrap n (z ((project ([i].take 1) [k]).headD 0))] = [wrap n (z ((project ([j].take 1) [k]).headD 0))] := he
    rw [e1 i hi, e1 j hj, List.cons.injEq] at he'
    rw [hs i hi j hj he'.1]

/-- `X[::-1]` with the positions as integers, `X[[n - 1, …, 0]]`: right for any number of variables. -/
example (empty : List ℕ → FVal) (n : ℕ) (m : ℕ → ℝ) {sd : ℕ → ℝ} (hsd : ∀ i < n, 0 < sd i) :=
  (C126_vector_iff_partial empty (n := n) (k := n) (z := fun i => -1 - i) (fun i hi => by omega) m hsd).2 fun i hi j hj h => by
    simp only [wrap] at h
    rw [if_pos (by omega), if_pos (by omega)] at h
    omega

/-- **C126** (wrong) `X[[0, 0]]` of three standard normal variables: the two entries are always the same number, but the joint log-probability is that of two independent variables. -/
theorem C126_repeated_wrong (empty : List ℕ → FVal) :
    ¬ GoodAt (numbers [2]) (derivedKernel kernel cdf elem empty (.index [3] [.given] .normal))
        ((Measure.pi fun i : Fin (entries [3]) => gaussianReal 0 (1 ^ 2 : ℝ).toNNReal).map fun x j => (reals [3] x).get [0])
        (Measure.pi fun _ => volume) [⟨[2], fun _ => .fin ((0 : ℤ) : ℝ)⟩, vector 3 fun _ => 0, vector 3 fun _ => 1] := by
  intro h
  have := (C126_vector_iff_partial empty (n := 3) (k := 2) (z := fun _ => 0) (fun _ _ => by norm_num) (fun _ => 0) (sd := fun _ => 1) (fun _ _ => one_pos)).1 (by simpa [wrap] using h) 0 (by norm_num) 1 (by norm_num) rfl
  norm_num at this

/-! ## Parts of a vector -/

/-- `x[a:b]` -/
theorem select_slice {a b n : ℕ} (hab : a ≤ b) (hb : b ≤ n) : ∃ R, npSelect [.slice (some (a : ℤ)) (some (b : ℤ)) none] [n] = .ok R ∧ R.shape = [b - a] ∧ ∀ i < b - a, R.get [i] = [a + i] := by
  have h0 : slicePositions (some (a : ℤ)) (some (b : ℤ)) 1 n = (List.range (b - a)).map fun i : ℕ => ((a + i : ℕ) : ℤ) := by
    have e1 : (sliceEnds (some (a : ℤ)) (some (b : ℤ)) 1 n) = ((a : ℤ), (b : ℤ)) := by
      simp only [sliceEnds]
      rw [if_neg (by omega : ¬ ((a : ℤ) < 0)), if_neg (by omega : ¬ ((b : ℤ) < 0))]
      simp only [if_pos (by omega : (0 : ℤ) < 1)]
      congr 1 <;> omega
    simp only [slicePositions, e1, if_pos (by omega : (0 : ℤ) < 1)]
    rw [show (((b : ℤ) - a + 1 - 1) / 1).toNat = b - a by omega]
    exact List.map_congr_left fun i _ => by push_cast; ring
  have h1 : items [.slice (some (a : ℤ)) (some (b : ℤ)) none] [n] = .ok [.sl ((List.range (b - a)).map fun i => a + i)] := by
    simp only [items]
    rw [if_neg (by simp), show (none : Option ℤ).getD 1 = 1 from rfl, h0]
    simp only [List.map_map, Function.comp_def, Int.toNat_natCast]
    rfl
  refine ⟨_, by rw [npSelect, h1]; rfl, ?_, fun i hi => ?_⟩
  · show List.take _ _ ++ [] ++ List.drop _ _ = _
    rw [List.append_nil, List.take_append_drop]
    show [List.length _] = _
    simp
  · show pick _ _ (List.take _ [i] ++ List.drop (_ + 0) [i]) = _
    rw [Nat.add_zero, List.take_append_drop]
    show [List.getD _ i 0] = _
    rw [List.getD_eq_getElem _ _ (by simpa using hi)]
    simp

/-- The model: `X[0:k]` is variable `0` with value `10`, `X[k - l:n]` is variable `1` with value `11`. -/
noncomputable def parts (n k l : ℕ) (m sd : ℕ → ℝ) (i : Fin 2) : RVDef (Derived Dist) :=
  ⟨.index [n] [.fixed (if i = 0 then .slice (some ((0 : ℕ) : ℤ)) (some (k : ℤ)) none else .slice (some ((k - l : ℕ) : ℤ)) (some (n : ℤ)) none)] .normal, 2, ![.const (vector n m), .const (vector n sd)]⟩

/-- **C126** (two slices) `X[:k]` and `X[k - l:]` of a vector of independent normal variables are requested: the joint log-probability is right exactly if the slices do not overlap. -/
theorem C126_slices_iff_partial (empty : List ℕ → FVal) {n k l : ℕ} (hkn : k ≤ n) (hl : l ≤ k) (m : ℕ → ℝ) {sd : ℕ → ℝ} (hsd : ∀ i < n, 0 < sd i) (ω : ℕ → Derived Dist → List (Arr FVal) → Arr FVal) :
    ∃ R : Fin 2 → Arr (List ℕ), npSelect [.slice (some ((0 : ℕ) : ℤ)) (some (k : ℤ)) none] [n] = .ok (R 0) ∧ npSelect [.slice (some ((k - l : ℕ) : ℤ)) (some (n : ℤ)) none] [n] = .ok (R 1) ∧
    ∃ j, joint (fun v => if h : v < 2 then some (parts n k l m sd ⟨v, h⟩) else none) [0, 1] [10, 11] [] = .ok (some (j, [10, 11])) ∧
      ((Measure.pi fun i : Fin (entries [n]) => gaussianReal (m ((coord i).headD 0)) (sd ((coord i).headD 0) ^ 2).toNNReal).map (fun x i => selected [n] (R i) x) =
        (Measure.pi fun _ => Measure.pi fun _ => volume).withDensity (fun z : ∀ i, Fin (entries (R i).shape) → ℝ => dens (evalJoint (derivedKernel kernel cdf elem empty)
          (fun w => if w = 10 then numbers (R 0).shape (z 0) else numbers (R 1).shape (z 1)) ω j)) ↔ l = 0) := by
  obtain ⟨R0, h1, h2, h3⟩ := select_slice (a := 0) (b := k) (n := n) (Nat.zero_le _) hkn
  obtain ⟨R1, h4, h5, h6⟩ := select_slice (a := k - l) (b := n) (n := n) (by omega) le_rfl
  obtain ⟨hp, hm, hd⟩ := normal_laws (S := [n]) (a := vector n m) (b := vector n sd) (m := fun c => m (c.headD 0)) (sd := fun c => sd (c.headD 0))
    (fun c hc => by rw [entryAt, show (vector n m).shape = [n] from rfl, project_self hc]; rfl) (fun c hc => by rw [entryAt, show (vector n sd).shape = [n] from rfl, project_self hc]; rfl)
    (fun c hc => by obtain ⟨i, hi, rfl⟩ := inRange_one.1 hc; exact hsd i hi)
  let R : Fin 2 → Arr (List ℕ) := fun i => if i = 0 then R0 else R1
  refine ⟨R, h1, h4, ?_⟩
  obtain ⟨j, hj, hiff⟩ := C126_parts_iff_partial kernel cdf elem empty (K := 2) (by norm_num) (rv := ![0, 1]) (cl := ![10, 11]) (by intro i j h; fin_cases i <;> fin_cases j <;> simp_all)
    (defs := fun v => if h : v < 2 then some (parts n k l m sd ⟨v, h⟩) else none) (r := parts n k l m sd) (by intro i; fin_cases i <;> rfl)
    (by intro i; fin_cases i <;> simp [parts, User, Fin.forall_fin_two]) (S := [n]) (d := .normal) (fun i => rfl) (as := fun _ => []) (fun i => .fixed _ .nil) (R := R)
    (by intro i; fin_cases i; exacts [h1, h4]) kernel_normal (p := [vector n m, vector n sd]) hp hm hd ω
    (fun z w => if w = 10 then numbers (R 0).shape (z 0) else numbers (R 1).shape (z 1)) (by intro z i; fin_cases i <;> rfl)
    (by intro z i; simp [parts, List.ofFn_succ, evalGiven])
  refine ⟨j, hj, hiff.trans ⟨fun h => ?_, ?_⟩⟩
  · by_contra h0
    have hs0 : InRange [k - 1] (R 0).shape := by rw [show (R 0).shape = [k - 0] from h2]; exact inRange_one.2 ⟨k - 1, by omega, rfl⟩
    have hs1 : InRange [l - 1] (R 1).shape := by rw [show (R 1).shape = [n - (k - l)] from h5]; exact inRange_one.2 ⟨l - 1, by omega, rfl⟩
    have := (h 0 1 [k - 1] [l - 1] hs0 hs1 (by
      rw [show (R 0).get [k - 1] = _ from h3 _ (by omega), show (R 1).get [l - 1] = _ from h6 _ (by omega)]
      congr 1
      omega)).1
    simp at this
  · rintro rfl i i' c c' hc hc' he
    have hget : ∀ (i : Fin 2) c, InRange c (R i).shape → ∃ q, c = [q] ∧ (R i).get c = [(if i = 0 then 0 else k) + q] ∧ (i = 0 → q < k) := by
      intro i c hc
      fin_cases i
      · have hc' : InRange c R0.shape := hc
        rw [h2] at hc'
        obtain ⟨q, hq, rfl⟩ := inRange_one.1 hc'
        exact ⟨q, rfl, h3 q hq, fun _ => by omega⟩
      · have hc' : InRange c R1.shape := hc
        rw [h5] at hc'
        obtain ⟨q, hq, rfl⟩ := inRange_one.1 hc'
        exact ⟨q, rfl, h6 q hq, fun h => by simp at h⟩
    obtain ⟨q, rfl, e1, b1⟩ := hget i c hc
    obtain ⟨q', rfl, e2, b2⟩ := hget i' c' hc'
    rw [e1, e2, List.cons.injEq] at he
    have he' := he.1
    clear hget he hiff hj hp hm hd e1 e2
    fin_cases i <;> fin_cases i' <;> simp_all
    omega

/-- Nothing is shared. -/
example (empty : List ℕ → FVal) (ω : ℕ → Derived Dist → List (Arr FVal) → Arr FVal) := C126_slices_iff_partial empty (n := 5) (k := 2) (l := 0) (by norm_num) (by norm_num) (fun i => i) (sd := fun i => i + 1)
  (fun i _ => by positivity) ω

/-- `X[:2]` and `X[1:]`: wrong. -/
example (empty : List ℕ → FVal) (ω : ℕ → Derived Dist → List (Arr FVal) → Arr FVal) := C126_slices_iff_partial empty (n := 3) (k := 2) (l := 1) (by norm_num) (by norm_num) (fun i => i) (sd := fun i => i + 1)
  (fun i _ => by positivity) ω

/-- `X[:2, newaxis, i]` of a matrix of standard normal variables, for an integer `i` computed in the graph. -/
example (empty : List ℕ → FVal) {i : ℤ} (hi : 0 ≤ i ∧ i < 4) : ∃ R, npSelect [.slice none (some ((2 : ℕ) : ℤ)) none, .newaxis, .adv ⟨[], fun _ => i⟩] [3, 4] = .ok R ∧
    GoodAt (numbers R.shape) (derivedKernel kernel cdf elem empty (.index [3, 4] [.fixed (.slice none (some ((2 : ℕ) : ℤ)) none), .fixed .newaxis, .given] .normal))
      ((Measure.pi fun _ : Fin (entries [3, 4]) => gaussianReal 0 (1 ^ 2 : ℝ).toNNReal).map (selected [3, 4] R)) (Measure.pi fun _ => volume) [scalar i, scalar 0, scalar 1] := by
  obtain ⟨hp, hm, hd⟩ := normal_laws (S := [3, 4]) (a := scalar 0) (b := scalar 1) (m := fun _ => 0) (sd := fun _ => 1) (fun _ _ => rfl) (fun _ _ => rfl) fun _ _ => one_pos
  have h1 : ∃ R, npSelect [.slice none (some ((2 : ℕ) : ℤ)) none, .newaxis, .adv ⟨[], fun _ => i⟩] [3, 4] = .ok R := by
    have e : items [.slice none (some ((2 : ℕ) : ℤ)) none, .newaxis, .adv ⟨[], fun _ => i⟩] [3, 4] =
        .ok [.sl ((slicePositions none (some ((2 : ℕ) : ℤ)) 1 3).map Int.toNat), .new, .adv ⟨[], fun _ => wrap 4 i⟩] := by
      simp only [items]
      rw [if_neg (by simp), if_pos (fun _ _ => by constructor <;> push_cast <;> omega)]
      rfl
    exact ⟨_, by rw [npSelect, e]; rfl⟩
  obtain ⟨R, hR⟩ := h1
  exact ⟨R, hR, C126_basic kernel cdf elem empty (.fixed _ (.fixed _ (.given ⟨[], fun _ => i⟩ .nil))) (by simp) (by simp [Arr.map]) hR (d := Dist.normal) kernel_normal (ref := fun _ => volume) hp hm hd⟩

end SelectedDemo

end Verif.ArrGraph
