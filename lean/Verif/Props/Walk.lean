import Verif.Spec.Walk
import Mathlib.Data.Fin.VecNotation
import Mathlib.Tactic.FinCases

/-! # C58, C73: walks -/

set_option linter.unusedSectionVars false

namespace Verif.Walk
variable {V : Type} [Fintype V] [DecidableEq V]

theorem pop_mem {bfs : Bool} {nodes : List V} {node : V} (h : (if bfs then nodes.head? else nodes.getLast?) = some node) (x : V) :
    x ∈ nodes ↔ x = node ∨ x ∈ (if bfs then nodes.tail else nodes.dropLast) := by
  cases bfs with
  | true =>
    cases nodes with
    | nil => simp at h
    | cons a l => simp at h ⊢; rw [h]
  | false =>
    simp only [Bool.false_eq_true, if_false] at h ⊢
    obtain ⟨l, rfl⟩ := List.getLast?_eq_some_iff.mp h
    simp [or_comm]

theorem walkLoop_spec (expand : V → List V) (bfs : Bool) (nodes seen : List V) :
    (seen.Nodup → (walkLoop expand bfs nodes seen).Nodup) ∧
    (∀ v ∈ walkLoop expand bfs nodes seen, v ∈ seen ∨ ∃ s ∈ nodes, Relation.ReflTransGen (fun a b => b ∈ expand a) s v) ∧
    ((∀ u ∈ seen, ∀ w ∈ expand u, w ∈ seen ∨ w ∈ nodes) →
      (∀ v, v ∈ seen ∨ v ∈ nodes → v ∈ walkLoop expand bfs nodes seen) ∧
      ∀ u ∈ walkLoop expand bfs nodes seen, ∀ w ∈ expand u, w ∈ walkLoop expand bfs nodes seen) := by
  fun_induction walkLoop expand bfs nodes seen with
  | case1 nodes seen h =>
    have hn : nodes = [] := by cases bfs <;> simpa using h
    subst hn
    simp only [List.not_mem_nil, or_false, false_and, exists_false]
    exact ⟨id, fun v h => h, fun h => ⟨fun v hv => hv, h⟩⟩
  | case2 nodes seen node h rest hs ih =>
    obtain ⟨i1, i2, i3⟩ := ih
    have hp := pop_mem h
    refine ⟨i1, fun v hv => ?_, fun hc => ?_⟩
    · rcases i2 v hv with h | ⟨s, hs', hr⟩
      · exact .inl h
      · exact .inr ⟨s, (hp s).mpr (.inr hs'), hr⟩
    · obtain ⟨j1, j2⟩ := i3 fun u hu w hw => by
        rcases hc u hu w hw with h | h
        · exact .inl h
        · rcases (hp w).mp h with rfl | h
          · exact .inl hs
          · exact .inr h
      refine ⟨fun v hv => ?_, j2⟩
      rcases hv with h | h
      · exact j1 v (.inl h)
      · rcases (hp v).mp h with rfl | h
        · exact j1 _ (.inl hs)
        · exact j1 v (.inr h)
  | case3 nodes seen node h rest hs ih =>
    obtain ⟨i1, i2, i3⟩ := ih
    have hp := pop_mem h
    refine ⟨fun hn => i1 ?_, fun v hv => ?_, fun hc => ?_⟩
    · rw [List.nodup_append]
      refine ⟨hn, by simp, ?_⟩
      intro a ha b hb
      simp at hb
      rintro rfl
      exact hs (hb ▸ ha)
    · rcases i2 v hv with h | ⟨s, hs', hr⟩
      · rcases List.mem_append.mp h with h | h
        · exact .inl h
        · simp at h
          exact .inr ⟨node, (hp node).mpr (.inl rfl), h ▸ .refl⟩
      · rcases List.mem_append.mp hs' with h | h
        · exact .inr ⟨s, (hp s).mpr (.inr h), hr⟩
        · exact .inr ⟨node, (hp node).mpr (.inl rfl), .head h hr⟩
    · obtain ⟨j1, j2⟩ := i3 fun u hu w hw => by
        rcases List.mem_append.mp hu with h | h
        · rcases hc u h w hw with h | h
          · exact .inl (by simp [h])
          · rcases (hp w).mp h with rfl | h
            · exact .inl (by simp)
            · exact .inr (List.mem_append_left _ h)
        · simp at h
          subst h
          exact .inr (List.mem_append_right _ hw)
      refine ⟨fun v hv => ?_, j2⟩
      rcases hv with h | h
      · exact j1 v (.inl (by simp [h]))
      · rcases (hp v).mp h with rfl | h
        · exact j1 _ (.inl (by simp))
        · exact j1 v (.inr (List.mem_append_left _ h))

theorem walk_nodup (nodes : List V) (expand : V → List V) (bfs : Bool) : (walk nodes expand bfs).Nodup :=
  (walkLoop_spec expand bfs nodes []).1 List.nodup_nil

theorem mem_walk {nodes : List V} {expand : V → List V} {bfs : Bool} {v : V} :
    v ∈ walk nodes expand bfs ↔ ∃ s ∈ nodes, Relation.ReflTransGen (fun a b => b ∈ expand a) s v := by
  obtain ⟨_, h2, h3⟩ := walkLoop_spec expand bfs nodes []
  refine ⟨fun h => by simpa using h2 v h, ?_⟩
  rintro ⟨s, hs, hr⟩
  obtain ⟨j1, j2⟩ := h3 (by simp)
  induction hr with
  | refl => exact j1 _ (.inr hs)
  | tail _ hbc ih => exact j2 _ ih _ hbc

/-! ## C73 -/

theorem walkModelExpand_mem {G : VGraph V} {past : Bool} {stop : List V} {extra : V → List V} {a b : V} :
    b ∈ walkModelExpand G past stop extra a ↔
      b ∈ extra a ∨ (((past = true ∨ (G a).isMeasurable = false) ∧ a ∉ stop) ∧ Edge G a b) := by
  unfold walkModelExpand Edge
  cases h : (G a).inputs with
  | none => simp
  | some l =>
    dsimp only
    split_ifs with hc
    · simp at hc
      simp [hc]
    · simp at hc
      simp only [Option.some.injEq, exists_eq_left']
      constructor
      · exact .inl
      · rintro (h | ⟨⟨h1, h2⟩, _⟩)
        · exact h
        · exact absurd (hc h1) h2

/-- **C73**: `walk_model` yields every variable at most once, and yields exactly the variables reachable from the start variables by
following inputs (and the successors given by `expand_fn`) without passing beyond a stop variable, or, unless `walk_past_rvs`,
beyond a measurable variable. -/
theorem C73_walk_model (G : VGraph V) (graphs : List V) (past : Bool) (stop : List V) (extra : V → List V) :
    (walkModel G graphs past stop extra).Nodup ∧
    ∀ v, v ∈ walkModel G graphs past stop extra ↔
      ∃ s ∈ graphs, Reach G (fun u => (past = true ∨ (G u).isMeasurable = false) ∧ u ∉ stop) extra s v := by
  refine ⟨walk_nodup _ _ _, fun v => ?_⟩
  unfold walkModel
  rw [mem_walk]
  refine exists_congr fun s => and_congr_right_iff.mpr fun hs => ?_
  clear hs
  refine ⟨fun h => ?_, fun h => ?_⟩
  · induction h using Relation.ReflTransGen.head_induction_on with
    | refl => exact .refl _
    | head hab _ ih =>
      rcases walkModelExpand_mem.mp hab with h | ⟨h1, h2⟩
      · exact .extra h ih
      · exact .edge h1 h2 ih
  · induction h with
    | refl => exact .refl
    | edge h1 h2 _ ih => exact .head (walkModelExpand_mem.mpr (.inr ⟨h1, h2⟩)) ih
    | extra h1 _ ih => exact .head (walkModelExpand_mem.mpr (.inl h1)) ih

/-! ## C58 -/

theorem unvalued_iff {G : VGraph V} {v : V} : unvaluedMeasurable G v = true ↔ Random G v := by
  simp [unvaluedMeasurable, Random, Option.isSome_iff_exists, and_assoc]

theorem elemwiseExpand_mem {G : VGraph V} {a b : V} :
    b ∈ elemwiseExpand G a ↔ ((G a).isMeasurable = false ∧ (G a).isValued = false) ∧ Edge G a b := by
  unfold elemwiseExpand Edge
  cases h : (G a).inputs with
  | none => simp
  | some l =>
    dsimp only
    split_ifs with hc
    · simp at hc; simp [hc]
    · simp at hc
      simp only [List.not_mem_nil, Option.some.injEq, exists_eq_left', false_iff, not_and]
      intro h
      exact absurd h.2 (by simpa using hc h.1)

/-- Some random quantity is found by the walk exactly if the variable depends on one. -/
theorem walk_random_iff {G : VGraph V} {v : V} :
    (∃ r, Relation.ReflTransGen (fun a b => b ∈ elemwiseExpand G a) v r ∧ Random G r) ↔ ∃ r, DependsOn G v r := by
  constructor
  · rintro ⟨r, h, hr⟩
    refine ⟨r, hr, ?_⟩
    induction h using Relation.ReflTransGen.head_induction_on with
    | refl => exact .refl _
    | head hab _ ih => exact .edge (elemwiseExpand_mem.mp hab).1.2 (elemwiseExpand_mem.mp hab).2 ih
  · rintro ⟨r, hr, h⟩
    induction h with
    | refl a => exact ⟨a, .refl, hr⟩
    | @edge a b c h1 h2 _ ih =>
      cases hm : (G a).isMeasurable with
      | true =>
        obtain ⟨l, hl, _⟩ := h2
        exact ⟨a, .refl, ⟨l, hl⟩, hm, h1⟩
      | false =>
        obtain ⟨r', h', hr'⟩ := ih hr
        exact ⟨r', .head (elemwiseExpand_mem.mpr ⟨⟨hm, h1⟩, h2⟩) h', hr'⟩
    | extra h => simp at h

theorem filter_eq_singleton {p : V → Bool} {l : List V} {m : V} :
    l.filter p = [m] ↔ ∃ a b, l = a ++ m :: b ∧ p m = true ∧ ∀ x ∈ a ++ b, p x = false := by
  constructor
  · intro h
    obtain ⟨a, b, rfl, ha, hp, hb⟩ := List.filter_eq_cons_iff.mp h
    refine ⟨a, b, rfl, hp, fun x hx => ?_⟩
    rcases List.mem_append.mp hx with h | h
    · simpa using ha x h
    · simpa using List.filter_eq_nil_iff.mp hb x h
  · rintro ⟨a, b, rfl, hp, hx⟩
    rw [List.filter_append, List.filter_cons_of_pos hp,
      List.filter_eq_nil_iff.mpr fun x h => by simp [hx x (List.mem_append_left _ h)],
      List.filter_eq_nil_iff.mpr fun x h => by simp [hx x (List.mem_append_right _ h)]]
    rfl

/-- **C58**: an elementwise node is rewritten exactly if one of its direct inputs, at one position, is an unvalued random variable `m` whose
type is not a signed integer type, and none of the remaining inputs depends on an unvalued random variable; then the rewrite
inverts in `m` and keeps the remaining inputs, in order, as parameters. -/
theorem C58_single_source_partial (G : VGraph V) (inputs : List V) (m : V) (others : List V) :
    elemwiseCheck G inputs = some (m, others) ↔
      ∃ a b, inputs = a ++ m :: b ∧ others = a ++ b ∧ Random G m ∧ ¬ SignedInt (G m).dtype ∧
        ∀ v ∈ others, ∀ r, ¬ DependsOn G v r := by
  have key (a b : List V) (hm : Random G m) (hx : ∀ x ∈ a ++ b, unvaluedMeasurable G x = false) :
      (a ++ m :: b).filter (fun inp => inp ≠ m) = a ++ b := by
    have hne : ∀ x ∈ a ++ b, x ≠ m := by
      rintro x h rfl
      have := hx x h
      rw [unvalued_iff.mpr hm] at this
      cases this
    rw [List.filter_append, List.filter_cons_of_neg (by simp),
      List.filter_eq_self.mpr fun x h => by simpa using hne x (List.mem_append_left _ h),
      List.filter_eq_self.mpr fun x h => by simpa using hne x (List.mem_append_right _ h)]
  have hint (d : DType) : ['i', 'n', 't'].isPrefixOf d.name = true ↔ SignedInt d := by
    cases d <;> simp [DType.name, SignedInt]
  have wk (l : List V) : (walk l (elemwiseExpand G) false).any (unvaluedMeasurable G) = true ↔ ∃ v ∈ l, ∃ r, DependsOn G v r := by
    rw [List.any_eq_true]
    constructor
    · rintro ⟨r, hr, hp⟩
      obtain ⟨s, hs, h⟩ := mem_walk.mp hr
      exact ⟨s, hs, walk_random_iff.mp ⟨r, h, unvalued_iff.mp hp⟩⟩
    · rintro ⟨s, hs, h⟩
      obtain ⟨r, h, hr⟩ := walk_random_iff.mpr h
      exact ⟨r, mem_walk.mpr ⟨s, hs, h⟩, unvalued_iff.mpr hr⟩
  constructor
  · intro h
    unfold elemwiseCheck at h
    split at h
    · rename_i m' hf
      obtain ⟨a, b, hin, hp, hx⟩ := filter_eq_singleton.mp hf
      by_cases h1 : ['i', 'n', 't'].isPrefixOf (G m').dtype.name = true
      · rw [if_pos h1] at h; cases h
      rw [if_neg h1] at h
      dsimp only at h
      by_cases h2 : (walk (inputs.filter (fun inp => inp ≠ m')) (elemwiseExpand G) false).any (unvaluedMeasurable G) = true
      · rw [if_pos h2] at h; cases h
      rw [if_neg h2] at h
      simp only [Option.some.injEq, Prod.mk.injEq] at h
      obtain ⟨rfl, ho⟩ := h
      have hk := key a b (unvalued_iff.mp hp) hx
      rw [hin, hk] at ho
      refine ⟨a, b, hin, ho.symm, unvalued_iff.mp hp, fun hs => h1 ((hint _).mpr hs), fun v hv r hd => h2 ?_⟩
      rw [wk, hin, hk, ho]
      exact ⟨v, hv, r, hd⟩
    · cases h
  · rintro ⟨a, b, hin, rfl, hm, hd, hn⟩
    have hx : ∀ x ∈ a ++ b, unvaluedMeasurable G x = false := fun x hx => by
      rw [Bool.eq_false_iff]
      intro h
      exact hn x hx x ⟨unvalued_iff.mp h, .refl _⟩
    have hf : inputs.filter (unvaluedMeasurable G) = [m] := filter_eq_singleton.mpr ⟨a, b, hin, unvalued_iff.mpr hm, hx⟩
    have hk := key a b hm hx
    unfold elemwiseCheck
    rw [hf]
    dsimp only
    rw [hin, hk, if_neg (fun h => hd ((hint _).mp h)), if_neg]
    rw [wk]
    rintro ⟨v, hv, r, h⟩
    exact hn v hv r h

/-- **C58**, consequence: in an acyclic graph the inputs kept as parameters have the same value in any two executions that agree on the
valued variables and on the variables without an owner, whatever the unvalued random variables draw. -/
theorem C58_parameters_not_random (G : VGraph V) (rank : V → ℕ) (acyclic : ∀ a b, Edge G a b → rank b < rank a)
    {inputs : List V} {m : V} {others : List V} (h : elemwiseCheck G inputs = some (m, others))
    {α : Type} (op : V → List α → α) (x y : V → α)
    (hx : ∀ v l, (G v).inputs = some l → (G v).isMeasurable = false → (G v).isValued = false → x v = op v (l.map x))
    (hy : ∀ v l, (G v).inputs = some l → (G v).isMeasurable = false → (G v).isValued = false → y v = op v (l.map y))
    (hroot : ∀ v, (G v).inputs = none → x v = y v) (hval : ∀ v, (G v).isValued = true → x v = y v) :
    ∀ v ∈ others, x v = y v := by
  obtain ⟨a, b, _, _, _, _, hn⟩ := (C58_single_source_partial G inputs m others).mp h
  have main : ∀ n v, rank v = n → (∀ r, ¬ DependsOn G v r) → x v = y v := by
    intro n
    induction n using Nat.strong_induction_on with
    | _ n ih =>
      intro v hv hd
      cases hi : (G v).inputs with
      | none => exact hroot v hi
      | some l =>
        cases hva : (G v).isValued with
        | true => exact hval v hva
        | false =>
          cases hm : (G v).isMeasurable with
          | true => exact absurd ⟨⟨⟨l, hi⟩, hm, hva⟩, .refl v⟩ (hd v)
          | false =>
            rw [hx v l hi hm hva, hy v l hi hm hva]
            congr 1
            refine List.map_congr_left fun w hw => ?_
            have he : Edge G v w := ⟨l, hi, hw⟩
            exact ih (rank w) (hv ▸ acyclic v w he) w rfl fun r hr => hd r ⟨hr.1, .edge hva he hr.2⟩
  exact fun v hv => main _ v rfl (hn v hv)

/-- A small model: `0` and `1` are random variables, `2` their sum, `3` a value-bound copy of `1`, `4` a constant, `5` a sum of `3` and `4`. -/
def sample (d : DType) : VGraph (Fin 6) := ![
 
  ⟨some [4], true, false, d⟩, ⟨some [4], true, false, d⟩, ⟨some [0, 1], false, false, d⟩, ⟨some [1, 4], true, true, d⟩,
  ⟨none, false, false, d⟩, ⟨some [3, 4], false, false, d⟩]

/-- `0 + 5` is inverted in `0`: `5` only depends on `1` through its value. -/
theorem sample_ok : elemwiseCheck (sample .float64) [0, 5] = some (0, [5]) := by
  rw [C58_single_source_partial]
  refine ⟨[], [5], rfl, rfl, ⟨⟨[4], rfl⟩, rfl, rfl⟩, by simp [sample, SignedInt], fun v hv r hd => ?_⟩
  simp at hv
  subst hv
  obtain ⟨hr, h⟩ := hd
  have h4 : ∀ c, Reach (sample .float64) (fun u => (sample .float64 u).isValued = false) (fun _ => []) 4 c → c = 4 := by
    intro c h
    cases h with
    | refl => rfl
    | edge _ h _ => obtain ⟨l, hl, _⟩ := h; simp [sample] at hl
    | extra h _ => simp at h
  have h3 : ∀ c, Reach (sample .float64) (fun u => (sample .float64 u).isValued = false) (fun _ => []) 3 c → c = 3 := by
    intro c h
    cases h with
    | refl => rfl
    | edge h _ _ => simp [sample] at h
    | extra h _ => simp at h
  cases h with
  | refl => obtain ⟨_, hr, _⟩ := hr; simp [sample] at hr
  | @edge _ b _ h1 h2 h =>
    obtain ⟨l, hl, hb⟩ := h2
    have hl' : l = [3, 4] := by
      have : (sample .float64 5).inputs = some [3, 4] := rfl
      rw [this] at hl; simpa using hl.symm
    subst hl'
    simp at hb
    rcases hb with rfl | rfl
    · have := h3 _ h
      subst this
      obtain ⟨_, _, hr⟩ := hr; simp [sample] at hr
    · have := h4 _ h
      subst this
      obtain ⟨⟨l, hr⟩, _, _⟩ := hr; simp [sample] at hr
  | extra h _ => simp at h

example := C58_parameters_not_random (sample .float64) ![1, 1, 2, 2, 0, 3]
  (by rintro a b ⟨l, hl, hb⟩; fin_cases a <;> simp [sample] at hl <;> subst hl <;> fin_cases b <;> simp_all) sample_ok
  (α := ℕ) (fun _ l => l.sum) (fun v => if v = 0 then 9 else if v = 5 then 4 else if v = 2 then 11 else 2)
  (fun v => if v = 5 then 4 else if v = 2 then 4 else 2)
  (by intro v l hl hm hv; fin_cases v <;> simp [sample] at hl hm hv <;> subst hl <;> rfl)
  (by intro v l hl hm hv; fin_cases v <;> simp [sample] at hl hm hv <;> subst hl <;> rfl)
  (by intro v hl; fin_cases v <;> simp [sample] at hl; rfl) (by intro v hl; fin_cases v <;> simp [sample] at hl; rfl)

/-- **C58** fails for unsigned integers and booleans: the check `dtype.startswith("int")` lets a random variable with data type `uint8`
through, so a density is derived for a function of a discrete variable as if it were continuous. -/
theorem C58_unsigned_passes : Discrete .uint8 ∧ elemwiseCheck (sample .uint8) [0] = some (0, []) := by
  refine ⟨by simp [Discrete], ?_⟩
  rw [C58_single_source_partial]
  exact ⟨[], [], rfl, rfl, ⟨⟨[4], rfl⟩, rfl, rfl⟩, by simp [sample, SignedInt], fun v hv => by simp at hv⟩

example := C73_walk_model (sample .float64) [2, 5] false [] fun _ => []

end Verif.Walk
