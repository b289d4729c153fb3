import Verif.Spec.Incsubtensor
import Verif.Props.MixtureArray
import Verif.Lemmas.Dist1

/-! # C71: partially observed variables -/

namespace Verif
open FVal

theorem allCoords_sorted : ∀ s : List ℕ, (allCoords s).Pairwise (· < ·)
  | [] => by simp [allCoords]
  | n :: s => by
    rw [allCoords, List.pairwise_flatMap]
    refine ⟨fun i _ => ?_, ?_⟩
    · rw [List.pairwise_map]
      exact (allCoords_sorted s).imp fun h => List.Lex.cons h
    · refine List.pairwise_lt_range.imp fun {a b} hab x hx y hy => ?_
      rw [List.mem_map] at hx hy
      obtain ⟨x, -, rfl⟩ := hx
      obtain ⟨y, -, rfl⟩ := hy
      exact List.Lex.rel hab

theorem lastSource_none {R : Arr (List ℕ)} {p : List ℕ} (h : ∀ c, InRange c R.shape → R.get c ≠ p) : lastSource R p = none := by
  rw [lastSource, List.find?_eq_none]
  intro c hc
  rw [List.mem_reverse, mem_allCoords] at hc
  simpa using h c hc

theorem lastSource_some {R : Arr (List ℕ)} {c : List ℕ} (hc : InRange c R.shape) (h : ∀ c', InRange c' R.shape → c < c' → R.get c' ≠ R.get c) :
    lastSource R (R.get c) = some c := by
  have hmem : c ∈ (allCoords R.shape).reverse := by rw [List.mem_reverse, mem_allCoords]; exact hc
  rcases hf : lastSource R (R.get c) with _ | b
  · rw [lastSource, List.find?_eq_none] at hf
    exact absurd (hf c hmem) (by simp)
  · rw [lastSource, List.find?_eq_some_iff_append] at hf
    obtain ⟨hb, as, bs, he, has⟩ := hf
    have hbr : InRange b R.shape := by
      rw [← mem_allCoords, ← List.mem_reverse, he]; simp
    rw [he, List.mem_append, List.mem_cons] at hmem
    rcases hmem with hm | rfl | hm
    · exact absurd (has c hm) (by simp)
    · rfl
    · have hp := List.pairwise_reverse.2 (allCoords_sorted R.shape)
      rw [he] at hp
      have := (List.pairwise_cons.1 (List.pairwise_append.1 hp).2.1).1 c hm
      exact absurd (by simpa using hb) (h b hbr this)

theorem setSubtensor_ok {α : Type} {y : Arr α} {idx : List Index} {data : Arr α} {R : Arr (List ℕ)} (hR : npSelect idx y.shape = .ok R)
    (hd : bshape [data.shape, R.shape] = some R.shape) : ∃ z, setSubtensor y idx data = .ok z ∧ Replaced y idx data z := by
  refine ⟨⟨y.shape, fun p => match lastSource R p with
      | some c => data.get (project c data.shape)
      | none => y.get p⟩, by simp only [setSubtensor, hR, bind, Except.bind, hd, if_true]; rfl, R, hR, rfl, fun p hp => ?_, fun c hc h => ?_⟩
  · simp only [lastSource_none hp]
  · simp only [lastSource_some hc h]

theorem prefix_iff {l : List ℤ} {a b c : Option ℤ} :
    (a.toList ++ b.toList ++ c.toList) <+: l ↔ ((convertIndices (l.map intIdx) (.slice (Written.part a) (Written.part b) (Written.part c))).index = .ok (.slice a b c)) := by
  rcases a with _ | a <;> rcases b with _ | b <;> rcases c with _ | c <;> rcases l with _ | ⟨x, _ | ⟨y, _ | ⟨z, l⟩⟩⟩ <;>
    simp [convertIndices, Written.part, convertPart, ConvEntry.index, Conv.bound, intIdx, bind, Except.bind, pure, Except.pure] <;>
    (constructor <;> intro h <;> simp_all)

theorem convert_iff {l : List ℤ} (u : Written) : (convertIndices (l.map intIdx) u.entry).index = .ok u.index ↔ u.ints <+: l := by
  rcases u with z | ⟨a, b, c⟩
  · rcases l with _ | ⟨x, l⟩
    · simp [convertIndices, Written.entry, Written.index, Written.ints, convertPart, ConvEntry.index]
    · simp only [convertIndices, Written.entry, Written.index, Written.ints, convertPart, ConvEntry.index, List.map_cons, Except.ok.injEq, intIdx,
        Index.adv.injEq, Arr.mk.injEq, true_and, List.cons_prefix_cons, List.nil_prefix, and_true]
      exact ⟨fun h => (congrFun h []).symm, fun h => by rw [h]⟩
  · exact prefix_iff.symm

theorem mapM_iff {α β : Type} {f : α → Except Err β} {g : α → β} : ∀ {l : List α}, l.mapM f = .ok (l.map g) ↔ ∀ x ∈ l, f x = .ok (g x)
  | [] => by simp [pure, Except.pure]
  | a :: l => by
    have ih := mapM_iff (f := f) (g := g) (l := l)
    rw [List.mapM_cons]
    rcases h1 : f a with e | b
    · simp [bind, Except.bind, h1]
    · rcases h2 : l.mapM f with e | bs
      · rw [h2] at ih
        simp only [bind, Except.bind, List.map_cons, reduceCtorEq, List.mem_cons, forall_eq_or_imp, h1, false_iff, not_and]
        intro _ h
        exact absurd (ih.2 h) (by simp)
      · rw [h2] at ih
        simp only [bind, Except.bind, pure, Except.pure, List.map_cons, Except.ok.injEq, List.cons.injEq, List.mem_cons, forall_eq_or_imp, h1, ← ih]

/-- **C71** (indices) The indices recovered from the node of `Y[ixs] = data` are those written if and only if the integers of every entry are the first
of all the integers. -/
theorem C71_indices_iff {ixs : List Written} (hne : ixs ≠ []) (b : Bool) (data : Arr FVal) :
    indicesFromSubtensor (basicNode ixs b data).idx_list (basicNode ixs b data).inputs = .ok (ixs.map Written.index) ↔
      ∀ u ∈ ixs, u.ints <+: ixs.flatMap Written.ints := by
  rcases ixs with _ | ⟨u, us⟩
  · exact absurd rfl hne
  have : indicesFromSubtensor (basicNode (u :: us) b data).idx_list (basicNode (u :: us) b data).inputs =
      (u :: us).mapM fun w => (convertIndices (((u :: us).flatMap Written.ints).map intIdx) w.entry).index := by
    simp only [basicNode, indicesFromSubtensor, List.map_cons]
    rw [← List.map_cons, List.mapM_map]
    rfl
  rw [this, mapM_iff]
  simp only [convert_iff]

/-- **C71** `Y[idx] = data` with integer arrays in `idx`, for every index expression, shape, data and value: the derived log-probability at `y`
is the log-probability of `Y` at `y` with the selected elements replaced; it raises if the index is not valid. -/
theorem C71_advanced {L : Type} (logp : Arr FVal → Except Err L) (idx : List Index) (data y : Arr FVal) :
    (∀ R, npSelect idx y.shape = .ok R → bshape [data.shape, R.shape] = some R.shape →
      ∃ z, Replaced y idx data z ∧ incsubtensorLogprob logp (advancedNode idx true data) y = logp z) ∧
    ∀ e, npSelect idx y.shape = .error e → incsubtensorLogprob logp (advancedNode idx true data) y = .error e := by
  refine ⟨fun R hR hd => ?_, fun e he => ?_⟩
  · obtain ⟨z, h1, h2⟩ := setSubtensor_ok hR hd
    refine ⟨z, h2, ?_⟩
    simp only [incsubtensorLogprob, advancedNode, indicesFromSubtensor, bind, Except.bind, h1]
  · simp only [incsubtensorLogprob, advancedNode, indicesFromSubtensor, bind, Except.bind, setSubtensor, he]

/-- **C71** `Y[ixs] = data` with integers and slices, if the integers of every entry are the first of all the integers (in particular if only the first
entry has integers): the derived log-probability at `y` is the log-probability of `Y` at `y` with the selected elements replaced.
Missing: other index expressions, for which it is false (`C71_two_indices_wrong`, `C71_two_slices_wrong`). -/
theorem C71_basic_partial {L : Type} (logp : Arr FVal → Except Err L) {ixs : List Written} (hpre : ∀ u ∈ ixs, u.ints <+: ixs.flatMap Written.ints) (data y : Arr FVal) :
    (∀ R, npSelect (ixs.map Written.index) y.shape = .ok R → bshape [data.shape, R.shape] = some R.shape →
      ∃ z, Replaced y (ixs.map Written.index) data z ∧ incsubtensorLogprob logp (basicNode ixs true data) y = logp z) ∧
    ∀ e, npSelect (ixs.map Written.index) y.shape = .error e → incsubtensorLogprob logp (basicNode ixs true data) y = .error e := by
  have hi : indicesFromSubtensor (basicNode ixs true data).idx_list (basicNode ixs true data).inputs = .ok (ixs.map Written.index) := by
    rcases eq_or_ne ixs [] with rfl | hne
    · rfl
    · exact (C71_indices_iff hne true data).2 hpre
  refine ⟨fun R hR hd => ?_, fun e he => ?_⟩
  · obtain ⟨z, h1, h2⟩ := setSubtensor_ok hR hd
    refine ⟨z, h2, ?_⟩
    rw [incsubtensorLogprob, hi]
    simp only [bind, Except.bind, basicNode, h1]
  · rw [incsubtensorLogprob, hi]
    simp only [bind, Except.bind, setSubtensor, he]

/-- `M[i, j]` -/
theorem select_element {n m i j : ℕ} (hi : i < n) (hj : j < m) : ∃ R, npSelect [intIdx i, intIdx j] [n, m] = .ok R ∧ R.shape = [] ∧ R.get [] = [i, j] := by
  obtain ⟨R, h1, h2, h3⟩ := npSelect_adv (as := [⟨[], fun _ => (i : ℤ)⟩, ⟨[], fun _ => (j : ℤ)⟩]) (sh := [n, m]) (s := []) (by simp) (by simp)
    (.cons (fun c _ => by simp only; omega) (.cons (fun c _ => by simp only; omega) .nil))
  exact ⟨R, h1, h2, by rw [h3 [] .nil]; simp [wrap]⟩

theorem two_ints (i j : ℤ) (b : Bool) (data : Arr FVal) :
    indicesFromSubtensor (basicNode [.int i, .int j] b data).idx_list (basicNode [.int i, .int j] b data).inputs = .ok [intIdx i, intIdx i] := rfl

/-- **C71** (refuted part) `Y[i, j] = d` for every matrix `Y` and every `i ≠ j`: the derived log-probability is that of `Y` at a matrix with `y[i, j]` not replaced
and `d` at `[i, i]`; it raises if there is no such element. -/
theorem C71_two_indices_wrong {L : Type} (logp : Arr FVal → Except Err L) {n m i j : ℕ} (hi : i < n) (hj : j < m) (hij : i ≠ j) (d : FVal) {y : Arr FVal} (hy : y.shape = [n, m]) :
    (∃ R, npSelect [intIdx i, intIdx j] y.shape = .ok R ∧ R.shape = [] ∧ R.get [] = [i, j]) ∧
    (i < m → ∃ z, incsubtensorLogprob logp (basicNode [.int i, .int j] true ⟨[], fun _ => d⟩) y = logp z ∧ z.get [i, j] = y.get [i, j] ∧ z.get [i, i] = d) ∧
    (m ≤ i → incsubtensorLogprob logp (basicNode [.int i, .int j] true ⟨[], fun _ => d⟩) y = .error .indexError) := by
  refine ⟨by rw [hy]; exact select_element hi hj, fun him => ?_, fun hmi => ?_⟩
  · obtain ⟨R, h1, h2, h3⟩ := select_element hi him
    rw [← hy] at h1
    obtain ⟨z, h4, R', h5, h6, h7, h8⟩ := setSubtensor_ok (data := ⟨[], fun _ => d⟩) h1 (by rw [h2]; rfl)
    rw [h1] at h5
    cases h5
    refine ⟨z, ?_, h7 _ fun c hc => ?_, ?_⟩
    · rw [incsubtensorLogprob, two_ints]
      simp only [bind, Except.bind, basicNode, h4]
    · rw [h2] at hc
      cases hc
      rw [h3]
      intro h
      simp only [List.cons.injEq, and_true, true_and] at h
      exact hij h
    · have := h8 [] (by rw [h2]; exact .nil) (fun c' hc' h => by rw [h2] at hc'; cases hc'; exact absurd h (List.lt_irrefl _))
      rw [h3] at this
      exact this
  · have hit : items [intIdx i, intIdx i] [n, m] = .error .indexError := by
      simp only [items, intIdx]
      rw [if_pos (fun c _ => by omega), if_neg (fun h => by have := h [] .nil; omega)]
      rfl
    rw [incsubtensorLogprob, two_ints]
    simp only [bind, Except.bind, basicNode, setSubtensor, npSelect, hy, hit]

example (d : FVal) := C71_two_indices_wrong (L := Unit) (fun _ => .ok ()) (n := 3) (m := 3) (i := 1) (j := 2) (by norm_num) (by norm_num) (by norm_num) d (y := ⟨[3, 3], fun _ => d⟩) rfl

/-- **C71** (refuted part) `Y[a:b, c:e] = data` is treated as `Y[a:b, a:b] = data`. -/
theorem C71_two_slices_wrong (a b c e : ℤ) (f : Bool) (data : Arr FVal) :
    indicesFromSubtensor (basicNode [.slice (some a) (some b) none, .slice (some c) (some e) none] f data).idx_list
      (basicNode [.slice (some a) (some b) none, .slice (some c) (some e) none] f data).inputs =
      .ok [.slice (some a) (some b) none, .slice (some a) (some b) none] := rfl

/-- **C71** (adding) `Y[[0]] += d` for a standard normal `Y` of length one: the derived log-probability at `v` is the log-density of `Y` at `d`, for every `v`, and differs from
the log-density of `Y + d` (a normal variable with mean `d`) at every `v` but two. -/
theorem C71_inc_wrong (d v : ℝ) (hv : (v - d) ^ 2 ≠ d ^ 2) :
    incsubtensorLogprob (fun z => normalLogprob (z.get [0]) 0 1) (advancedNode [.adv ⟨[1], fun _ => 0⟩] false ⟨[], fun _ => fin d⟩) ⟨[1], fun _ => fin v⟩ ≠
      normalLogprob (fin v) (fin d) 1 := by
  obtain ⟨R, h1, h2, h3⟩ := npSelect_adv (as := [⟨[1], fun _ => 0⟩]) (sh := [1]) (s := [1]) (by simp) (by simp) (.cons (fun c _ => by simp) .nil)
  obtain ⟨z, h4, R', h5, h6, h7, h8⟩ := setSubtensor_ok (y := ⟨[1], fun _ => fin v⟩) (data := ⟨[], fun _ => fin d⟩) h1 (by rw [h2]; rfl)
  rw [show npSelect _ (Arr.shape _) = .ok R from h1] at h5
  cases h5
  have hr0 : InRange [0] R.shape := by rw [h2]; exact .cons (by norm_num) .nil
  have hz := h8 [0] hr0 (fun c' hc' h => by
    rw [h2] at hc'
    cases hc' with
    | cons h0 hc' =>
      cases hc'
      obtain rfl : _ = 0 := Nat.lt_one_iff.1 h0
      exact absurd h (List.lt_irrefl _))
  rw [h3 [0] (by rw [← h2]; exact hr0)] at hz
  have hz0 : z.get [0] = fin d := hz
  have : incsubtensorLogprob (fun z => normalLogprob (z.get [0]) 0 1) (advancedNode [.adv ⟨[1], fun _ => 0⟩] false ⟨[], fun _ => fin d⟩) ⟨[1], fun _ => fin v⟩ =
      normalLogprob (fin d) (fin 0) (fin 1) := by
    simp only [incsubtensorLogprob, advancedNode, indicesFromSubtensor, bind, Except.bind]
    have h4' : setSubtensor ⟨[1], fun _ => fin v⟩ [.adv ⟨[1], fun _ => 0⟩] ⟨[], fun _ => fin d⟩ = .ok z := h4
    rw [h4']
    simp only [hz0]
    rfl
  rw [this, show (1 : FVal) = fin 1 from rfl, normal_eval _ _ one_pos, normal_eval _ _ one_pos]
  simp only [ne_eq, Except.ok.injEq, fin.injEq]
  intro h
  apply hv
  have h1 := Real.log_injOn_pos (Set.mem_Ioi.2 (ProbabilityTheory.gaussianPDFReal_pos _ _ _ (by simp))) (Set.mem_Ioi.2 (ProbabilityTheory.gaussianPDFReal_pos _ _ _ (by simp))) h
  rw [ProbabilityTheory.gaussianPDFReal_def, ProbabilityTheory.gaussianPDFReal_def] at h1
  beta_reduce at h1
  have h2 := Real.exp_injective (mul_left_cancel₀ (inv_ne_zero (Real.sqrt_ne_zero'.2 (by simp; positivity))) h1)
  simp at h2
  linarith

example := C71_inc_wrong 1 5 (by norm_num)

namespace IncsubtensorDemo

/-- `Y[1:3, :]` -/
def ixs : List Written := [.slice (some 1) (some 3) none, .slice none none none]

theorem ixs_prefix : ∀ u ∈ ixs, u.ints <+: ixs.flatMap Written.ints := by simp [ixs, Written.ints]

/-- The selection in a matrix with four rows and two columns, to which a row of data can be broadcast. -/
theorem ok : ∃ R, npSelect (ixs.map Written.index) [4, 2] = .ok R ∧ bshape [[2], R.shape] = some R.shape := by
  have hi : items (ixs.map Written.index) [4, 2] = .ok [.sl [1, 2], .sl [0, 1]] := by
    simp only [ixs, List.map_cons, List.map_nil, Written.index, items]
    rw [if_neg (by decide), if_neg (by decide)]
    rfl
  rw [npSelect, hi]
  exact ⟨_, rfl, rfl⟩

end IncsubtensorDemo

example (d : FVal) := (C71_basic_partial (fun z => Except.ok z) IncsubtensorDemo.ixs_prefix ⟨[2], fun _ => d⟩ ⟨[4, 2], fun _ => d⟩).1 _
  IncsubtensorDemo.ok.choose_spec.1 IncsubtensorDemo.ok.choose_spec.2

example (d : FVal) := (C71_advanced (fun z => Except.ok z) (IncsubtensorDemo.ixs.map Written.index) ⟨[2], fun _ => d⟩ ⟨[4, 2], fun _ => d⟩).1 _
  IncsubtensorDemo.ok.choose_spec.1 IncsubtensorDemo.ok.choose_spec.2

example (d : Arr FVal) := (C71_indices_iff (ixs := IncsubtensorDemo.ixs) (by simp [IncsubtensorDemo.ixs]) true d).2 IncsubtensorDemo.ixs_prefix

end Verif
