import Verif.Spec.Scan
import Verif.Model.Scan
import Verif.Props.ScanTaps
import Verif.Props.Graph

/-! # C82, C83: log-probabilities of scans -/

namespace Verif
open MeasureTheory ScanArgs

section
variable {ι V : Type}

theorem tapSequences_fst (taps : List ℤ) (ins : List ι) (values : List V) (h : taps.length = ins.length) : ((tapSequences taps ins values).1.map Prod.fst).Perm ins := by
  rw [(tapSequences_eq taps ins values).2, List.map_fst_zip (by simp [tapSlices_length])]
  refine (List.reverse_perm _).trans ?_
  have := (List.perm_insertionSort (fun x y : ℤ × ι => x.1 ≤ y.1) (taps.zip ins)).map Prod.snd
  rw [List.map_snd_zip h.ge] at this
  exact this

variable [DecidableEq ι]

/-- The inner variables of the sequences after one turn of the loop. -/
theorem convertOne_perm {args args' : ScanArgs ι V} (hc : args.Consistent) {io : ι} {l : List (ℤ × ι)} (hl : args.HasTaps io l) {new : ι} {values : List V}
    (h : args.convertOne io new values = .ok args') : args'.inner_in_seqs.Perm (args.inner_in_seqs ++ new :: l.map Prod.snd) := by
  have hnd := hc.nodup
  rw [List.nodup_append, List.nodup_append] at hnd
  obtain ⟨⟨hn1, hn2, hn12⟩, hn3, hn123⟩ := hnd
  rcases hl with ⟨i, taps, ins, h1, h2, h3, rfl⟩ | ⟨i, v, h1, h2, rfl⟩ | ⟨h1, rfl⟩
  · have hlen := hc.each_tap i taps ins h2 h3
    simp only [convertOne, idxOf_some hn1 h1, h2, h3, Except.ok.injEq] at h
    subst h
    simp only [addSeqs]
    refine List.Perm.append_left _ ((tapSequences_fst _ _ _ (by simp [hlen])).trans ?_)
    rw [List.map_snd_zip hlen.ge]
    exact List.perm_append_singleton _ _
  · have hm : args.inner_out_mit_sot.idxOf? io = none := by
      rw [List.idxOf?_eq_none_iff]
      exact fun h => hn12 _ h _ (List.mem_of_getElem? h1) rfl
    simp only [convertOne, hm, idxOf_some hn2 h1, h2, Except.ok.injEq] at h
    subst h
    simp only [addSeqs]
    refine List.Perm.append_left _ ((tapSequences_fst _ _ _ (by simp)).trans ?_)
    exact List.Perm.swap _ _ _
  · obtain ⟨i, hi'⟩ := List.mem_iff_getElem?.1 h1
    have hm : args.inner_out_mit_sot.idxOf? io = none := by
      rw [List.idxOf?_eq_none_iff]
      exact fun h => hn123 _ (List.mem_append_left _ h) _ h1 rfl
    have hm2 : args.inner_out_sit_sot.idxOf? io = none := by
      rw [List.idxOf?_eq_none_iff]
      exact fun h => hn123 _ (List.mem_append_right _ h) _ h1 rfl
    simp only [convertOne, hm, hm2, idxOf_some hn3 hi', Except.ok.injEq] at h
    subst h
    simp only [addSeqs]
    exact List.Perm.append_left _ (tapSequences_fst _ _ _ (by simp))

/-- The inner variables of the sequences after the conversion. -/
theorem convert_perm {args args' : ScanArgs ι V} (hc : args.Consistent) {taps : ι → List (ℤ × ι)} {outs : List (ι × ι × List V)}
    (hnd : (outs.map fun o => o.1).Nodup) (htaps : ∀ o ∈ outs, args.HasTaps o.1 (taps o.1)) (h : args.convertOuterOutToIn outs = .ok args') :
    args'.Consistent ∧ args'.inner_in_seqs.Perm (args.inner_in_seqs ++ outs.flatMap fun o => o.2.1 :: (taps o.1).map Prod.snd) := by
  induction outs generalizing args with
  | nil =>
    cases h
    exact ⟨hc, by simp⟩
  | cons o outs ih =>
    simp only [List.map_cons, List.nodup_cons] at hnd
    obtain ⟨a1, h1, h2, -, h4, -, -⟩ := convertOne_spec hc (htaps o (by simp)) o.2.1 o.2.2
    simp only [convertOuterOutToIn, List.foldlM_cons, h1] at h
    obtain ⟨h5, h6⟩ := ih h2 hnd.2 (fun o' ho' => h4 _ (fun h => hnd.1 (h ▸ List.mem_map_of_mem ho')) _ (htaps o' (by simp [ho']))) h
    refine ⟨h5, h6.trans ?_⟩
    rw [List.flatMap_cons, ← List.append_assoc]
    exact (convertOne_perm hc (htaps o (by simp)) h1).append_right _

/-- A variable that a step reads has that value in the step. -/
theorem stepEnv_reads {args : ScanArgs ι V} (hnd : args.inner_in_seqs.Nodup) (base : ι → V) {v : ι} {s : ℕ} {x : V} (h : args.Reads v s x) :
    args.stepEnv base s v = x := by
  obtain ⟨i, seq, h1, h2, h3⟩ := h
  simp only [stepEnv, idxOf_some hnd h1, h2]
  simp [h3]

theorem mapM_congr {α β : Type} {l : List α} {f g : α → Except Err β} (h : ∀ a ∈ l, f a = g a) : l.mapM f = l.mapM g := by
  induction l with
  | nil => rfl
  | cons a l ih => rw [List.mapM_cons, List.mapM_cons, h a (by simp), ih fun b hb => h b (by simp [hb])]

theorem find_out {outs : List (ι × ι × List V)} (hnd : (outs.map fun o => o.1).Nodup) {o : ι × ι × List V} (ho : o ∈ outs) :
    outs.find? (fun o' => o'.1 = o.1) = some o := by
  induction outs with
  | nil => simp at ho
  | cons a outs ih =>
    simp only [List.map_cons, List.nodup_cons] at hnd
    rcases List.mem_cons.1 ho with rfl | ho
    · simp
    · rw [List.find?_cons_of_neg (by
        have : a.1 ≠ o.1 := fun h => hnd.1 (h ▸ List.mem_map_of_mem ho)
        simpa using this), ih hnd.2 ho]

end

/-- **C82** (terms) For a scan with any number of random outputs with symmetric lags, at least one, `n` steps, and inner variables that are all different: the
log-probability has one row for every step `s`, with the log-probability of every output at its value of time `lag + s`, given the values of the series at the
lagged times, the entries `s` of the sequences, and the values of the other outputs at the same time.  When a term raises, so does the log-probability.
Missing: lags that are not symmetric (`C72_asymmetric_wrong`), other recurrent outputs. -/
theorem C82_terms_partial {ι V : Type} [DecidableEq ι] {args : ScanArgs ι V} (hc : args.Consistent) {taps : ι → List (ℤ × ι)} {lag : ι → ℕ} {outs : List (ι × ι × List V)} {n : ℕ}
    (hne : outs ≠ []) (htaps : ∀ o ∈ outs, args.HasTaps o.1 (taps o.1)) (hlag : ∀ o ∈ outs, Lags ((taps o.1).map Prod.fst) (lag o.1))
    (hsym : ∀ o ∈ outs, Symmetric ((taps o.1).map Prod.fst) (lag o.1)) (hlen : ∀ o ∈ outs, o.2.2.length = lag o.1 + n)
    (hseq : ∀ seq ∈ args.outer_in_seqs, n ≤ seq.length)
    (hnd : (args.inner_in_seqs ++ outs.flatMap fun o => o.1 :: o.2.1 :: (taps o.1).map Prod.snd).Nodup)
    (base : ι → V) (lp : ι → V → (ι → V) → Except Err FVal)
    (hlp : ∀ o ∈ outs, ∀ x e e', (∀ v, v ∉ outs.map (fun o => o.2.1) → e v = e' v) → lp o.1 x e = lp o.1 x e')
    (series : ι → List V) (hser : ∀ o ∈ outs, series o.1 = o.2.2)
    (env : ℕ → ι → V) (henv : ∀ s < n, IsStepEnv args base taps lag (outs.map fun o => o.1) series s (env s)) :
    args.scanLogprob base lp outs = (List.range n).mapM fun s => outs.mapM fun o => lp o.1 (env s o.1) (env s) := by
  rw [List.nodup_append] at hnd
  obtain ⟨hnd1, hnd2, hnd12⟩ := hnd
  have hnd3 : (outs.flatMap fun o => o.2.1 :: (taps o.1).map Prod.snd).Nodup := by
    refine hnd2.sublist ?_
    clear * -
    induction outs with
    | nil => simp
    | cons o outs ih =>
      rw [List.flatMap_cons, List.flatMap_cons]
      exact (List.sublist_cons_self _ _).append ih
  have hndo : (outs.map fun o => o.1).Nodup := by
    refine hnd2.sublist ?_
    clear * -
    induction outs with
    | nil => simp
    | cons o outs ih =>
      rw [List.flatMap_cons, List.map_cons, List.cons_append]
      exact (ih.trans (List.sublist_append_right _ _)).cons₂ _
  obtain ⟨args', h1, h2, h3, h4⟩ := C72_taps_partial hc hndo htaps hlag hsym (fun o ho => by rw [hlen o ho]; omega)
  obtain ⟨hc', hperm⟩ := convert_perm hc hndo htaps h1
  have hn : args'.n_steps = n := by
    obtain ⟨o, ho⟩ : ∃ o, o ∈ outs.getLast? := by
      rcases h : outs.getLast? with _ | o
      · exact absurd (List.getLast?_eq_none_iff.1 h) hne
      · exact ⟨o, rfl⟩
    rw [h2 o ho, hlen o (List.mem_of_getLast? ho)]; omega
  have hnd' : args'.inner_in_seqs.Nodup := by
    rw [hperm.nodup_iff, List.nodup_append]
    refine ⟨hnd1, hnd3, fun a ha b hb => hnd12 a ha b ?_⟩
    simp only [List.mem_flatMap, List.mem_cons] at hb ⊢
    obtain ⟨o, ho, hb⟩ := hb
    exact ⟨o, ho, .inr hb⟩
  have hold : ∀ s < n, ∀ (i : ℕ) (v : ι) (seq : List V), args.inner_in_seqs[i]? = some v → args.outer_in_seqs[i]? = some seq → args'.Reads v s (env s v) := fun s hs i v seq hv hq =>
    h3 v s _ ⟨i, seq, hv, hq, (henv s hs).seq i v seq hv hq⟩
  have hnew : ∀ s < n, ∀ o ∈ outs, args'.Reads o.2.1 s (env s o.1) := fun s hs o ho => by
    obtain ⟨x, hx, hr⟩ := h4 o ho (0, o.2.1) (by simp) s (by rw [hlen o ho]; omega)
    have := (henv s hs).out o.1 (List.mem_map_of_mem ho) (0, o.1) (by simp)
    rw [hser o ho, hx] at this
    cases this
    exact hr
  have htap : ∀ s < n, ∀ o ∈ outs, ∀ p ∈ taps o.1, args'.Reads p.2 s (env s p.2) := fun s hs o ho p hp => by
    obtain ⟨x, hx, hr⟩ := h4 o ho p (by simp [hp]) s (by rw [hlen o ho]; omega)
    have := (henv s hs).out o.1 (List.mem_map_of_mem ho) p (by simp [hp])
    rw [hser o ho, hx] at this
    cases this
    exact hr
  have hread : ∀ s < n, ∀ v ∈ args'.inner_in_seqs, ∃ x, args'.Reads v s x := fun s hs v hv => by
    rcases List.mem_append.1 (hperm.mem_iff.1 hv) with hv | hv
    · obtain ⟨i, hi⟩ := List.mem_iff_getElem?.1 hv
      obtain ⟨hlt, -⟩ := List.getElem?_eq_some_iff.1 hi
      exact ⟨_, hold s hs i v _ hi (List.getElem?_eq_getElem (hc.seqs ▸ hlt))⟩
    · simp only [List.mem_flatMap, List.mem_cons, List.mem_map] at hv
      obtain ⟨o, ho, rfl | ⟨p, hp, rfl⟩⟩ := hv
      · exact ⟨_, hnew s hs o ho⟩
      · exact ⟨_, htap s hs o ho p hp⟩
  have hlong : ∀ seq ∈ args'.outer_in_seqs, n ≤ seq.length := fun seq hq => by
    obtain ⟨i, hi⟩ := List.mem_iff_getElem?.1 hq
    obtain ⟨hlt, -⟩ := List.getElem?_eq_some_iff.1 hi
    have hv := List.getElem?_eq_getElem (l := args'.inner_in_seqs) (i := i) (hc'.seqs ▸ hlt)
    by_contra hn'
    obtain ⟨x, j, q, hj, hjq, hx⟩ := hread seq.length (by omega) _ (List.mem_of_getElem? hv)
    obtain ⟨hjl, hj'⟩ := List.getElem?_eq_some_iff.1 hj
    have hij : j = i := (hnd'.getElem_inj_iff).1 hj'
    subst hij
    rw [hi] at hjq
    cases hjq
    simp at hx
  have hempty : outs.isEmpty = false := by cases outs <;> simp_all
  simp only [scanLogprob, hempty, h1, bind, Except.bind, Bool.false_eq_true, if_false]
  rw [run, if_pos (by simpa [hn] using hlong), hn]
  refine mapM_congr fun s hs => ?_
  rw [List.mem_range] at hs
  refine mapM_congr fun o ho => ?_
  rw [stepEnv_reads hnd' base (hnew s hs o ho)]
  refine hlp o ho _ _ _ fun v hv => ?_
  rcases hf : outs.find? (fun o' => o'.1 = v) with _ | o'
  · have hvo : v ∉ outs.map fun o => o.1 := fun h => by
      obtain ⟨o', ho', rfl⟩ := List.mem_map.1 h
      rw [find_out hndo ho'] at hf
      cases hf
    simp only [hf]
    by_cases hmem : v ∈ args'.inner_in_seqs
    · rcases List.mem_append.1 (hperm.mem_iff.1 hmem) with hv' | hv'
      · obtain ⟨i, hi⟩ := List.mem_iff_getElem?.1 hv'
        obtain ⟨hlt, -⟩ := List.getElem?_eq_some_iff.1 hi
        exact stepEnv_reads hnd' base (hold s hs i v _ hi (List.getElem?_eq_getElem (hc.seqs ▸ hlt)))
      · simp only [List.mem_flatMap, List.mem_cons, List.mem_map] at hv'
        obtain ⟨o', ho', rfl | ⟨p, hp, rfl⟩⟩ := hv'
        · exact absurd (List.mem_map_of_mem (f := fun o => o.2.1) ho') hv
        · exact stepEnv_reads hnd' base (htap s hs o' ho' p hp)
    · have hrest := (henv s hs).rest v (fun h => hmem (hperm.mem_iff.2 (List.mem_append_left _ h))) (fun io hio h => by
        obtain ⟨o', ho', rfl⟩ := List.mem_map.1 hio
        rcases List.mem_cons.1 h with rfl | h
        · exact hvo (List.mem_map_of_mem ho')
        · exact hmem (hperm.mem_iff.2 (List.mem_append_right _ (List.mem_flatMap.2 ⟨o', ho', List.mem_cons_of_mem _ h⟩))))
      rw [hrest]
      simp only [stepEnv, List.idxOf?_eq_none_iff.2 hmem]
  · have h1 := List.find?_some hf
    have h2 := List.mem_of_find?_eq_some hf
    simp only [decide_eq_true_eq] at h1
    simp only [hf]
    subst h1
    exact stepEnv_reads hnd' base (hnew s hs o' h2)

section
variable {ι : Type} [DecidableEq ι]

theorem toDens_sum (l : List FVal) : l.sum.toDens = (l.map FVal.toDens).prod := by
  induction l with
  | nil => simp [FVal.toDens]
  | cons a l ih => rw [List.sum_cons, Graph.toDens_add, ih, List.map_cons, List.prod_cons]

theorem mapM_ok_length {α β : Type} {f : α → Except Err β} : ∀ {l : List α} {r : List β}, l.mapM f = .ok r → r.length = l.length
  | [], r, h => by cases h; rfl
  | a :: l, r, h => by
    rw [List.mapM_cons] at h
    rcases hfa : f a with e | b
    · rw [hfa] at h; cases h
    · rcases hfl : l.mapM f with e | r'
      · rw [hfa, hfl] at h; cases h
      · rw [hfa, hfl] at h
        cases h
        rw [List.length_cons, List.length_cons, mapM_ok_length hfl]

theorem dens_row {α : Type} (g : α → Except Err FVal) : ∀ l : List α, (l.map fun o => dens (g o)).prod =
    match l.mapM g with
    | .ok row => (row.map FVal.toDens).prod
    | .error _ => 0
  | [] => by simp [pure, Except.pure]
  | a :: l => by
    have ih := dens_row g l
    rw [List.map_cons, List.prod_cons, ih, List.mapM_cons]
    rcases hga : g a with e | b
    · simp [bind, Except.bind, dens]
    · rcases hgl : l.mapM g with e | r
      · simp [bind, Except.bind, dens]
      · simp [bind, Except.bind, dens, pure, Except.pure]

theorem range_getD_prod (row : List FVal) : ((List.range row.length).map fun k => (row.getD k 0).toDens).prod = (row.map FVal.toDens).prod := by
  congr 1
  apply List.ext_getElem
  · simp
  · intro i h1 h2
    simp at h1
    simp [h1]

theorem dens_rows {α : Type} (g : ℕ → α → Except Err FVal) (outs : List α) (l : List ℕ) :
    dens (do
      let rows ← l.mapM fun s => outs.mapM (g s)
      .ok (((List.range outs.length).map fun k => (rows.map fun row => row.getD k 0).sum).sum)) = (l.map fun s => (outs.map fun o => dens (g s o)).prod).prod := by
  induction l with
  | nil =>
    simp only [List.mapM_nil, pure, Except.pure, bind, Except.bind, dens, toDens_sum, List.map_map]
    simp [Function.comp_def, FVal.toDens]
  | cons s l ih =>
    rw [List.map_cons, List.prod_cons, ← ih, dens_row, List.mapM_cons]
    rcases h1 : outs.mapM (g s) with e | row
    · simp [bind, Except.bind, dens]
    · rcases h2 : l.mapM (fun s => outs.mapM (g s)) with e | rows
      · simp [bind, Except.bind, dens]
      · simp only [bind, Except.bind, dens, pure, Except.pure, toDens_sum, List.map_map, Function.comp_def, List.map_cons, List.sum_cons, Graph.toDens_add, List.prod_cons]
        rw [List.prod_map_mul, ← mapM_ok_length h1, range_getD_prod]

/-- `h'` continues the series of `h`. -/
def Continues (h h' : ι → List ℝ) : Prop := ∀ io, h io <+: h' io

theorem entriesE_congr {ref : ι → Measure ℝ} (l : List (ℕ × ι)) (h : ι → List ℝ) {φ ψ : (ι → List ℝ) → ENNReal}
    (hh : ∀ h', Continues h h' → (∀ io, (h' io).length = (h io).length + (l.map Prod.snd).count io) → φ h' = ψ h') : entriesE ref l h φ = entriesE ref l h ψ := by
  induction l generalizing h with
  | nil => exact hh h (fun _ => List.prefix_rfl) (by simp)
  | cons d l ih =>
    obtain ⟨s, io⟩ := d
    simp only [entriesE]
    refine lintegral_congr fun x => ih _ fun h' h1 h2 => hh h' (fun i => List.IsPrefix.trans ?_ (h1 i)) fun i => ?_
    · simp only [push]
      by_cases hi : i = io
      · subst hi; simp
      · rw [Function.update_of_ne hi]
    · rw [h2 i, List.map_cons, List.count_cons]
      simp only [push]
      by_cases hi : i = io
      · subst hi; simp; omega
      · rw [Function.update_of_ne hi]
        have : ¬ (io == i) = true := by simpa using fun h => hi h.symm
        simp [this]

theorem entriesE_const_mul {ref : ι → Measure ℝ} (l : List (ℕ × ι)) (h : ι → List ℝ) {c : ENNReal} (hc : c ≠ ⊤) (φ : (ι → List ℝ) → ENNReal) :
    entriesE ref l h (fun h => c * φ h) = c * entriesE ref l h φ := by
  induction l generalizing h with
  | nil => rfl
  | cons d l ih =>
    obtain ⟨s, io⟩ := d
    simp only [entriesE, ih]
    rw [lintegral_const_mul' _ _ hc]

/-- The factor of every draw is fixed when it is drawn. -/
def Fixed (F : ℕ × ι → (ι → List ℝ) → ENNReal) (f : ℕ × ι → (ι → List ℝ) → ℝ → ENNReal) : List (ℕ × ι) → (ι → ℕ) → Prop
  | [], _ => True
  | d :: l, len => (∀ h h' x, (∀ io, (h io).length = len io) → Continues (push h d.2 x) h' → F d h' = f d h x) ∧ Fixed F f l (Function.update len d.2 (len d.2 + 1))

theorem entriesE_eq_drawE (lp : ι → FVal → (ι → FVal) → Except Err FVal) (law : ι → (ι → FVal) → Measure ℝ) (ref : ι → Measure ℝ)
    (env : ℕ → (ι → List ℝ) → ι → FVal) (F : ℕ × ι → (ι → List ℝ) → ENNReal) (φ : (ι → List ℝ) → ENNReal) (l : List (ℕ × ι)) (h : ι → List ℝ)
    (hfix : Fixed F (fun d h x => dens (lp d.2 (.fin x) (env d.1 h))) l fun io => (h io).length) (hvalid : DrawsValid lp law ref env l h) :
    entriesE ref l h (fun h' => (l.map fun d => F d h').prod * φ h') = drawE law env l h φ := by
  induction l generalizing h with
  | nil => simp [entriesE, drawE]
  | cons d l ih =>
    obtain ⟨s, io⟩ := d
    obtain ⟨h1, hfix'⟩ := hfix
    obtain ⟨good, hval'⟩ := hvalid
    have hprob := good.prob
    simp only [entriesE, drawE]
    set f : ℝ → ENNReal := fun x => dens (lp io (.fin x) (env s h)) with hf
    have hfin : ∀ᵐ x ∂(ref io), f x < ⊤ := by
      refine ae_lt_top good.meas ?_
      have : (law io (env s h)) Set.univ = 1 := measure_univ
      rw [good.dens, withDensity_apply _ MeasurableSet.univ, Measure.restrict_univ] at this
      rw [hf, this]; exact ENNReal.one_ne_top
    have hdens : law io (env s h) = (ref io).withDensity f := good.dens
    rw [hdens, lintegral_withDensity_eq_lintegral_mul_non_measurable _ good.meas hfin]
    refine lintegral_congr_ae ?_
    filter_upwards [hfin] with x hx
    have e1 : entriesE ref l (push h io x) (fun h' => (((s, io) :: l).map fun d => F d h').prod * φ h') =
        entriesE ref l (push h io x) (fun h' => f x * ((l.map fun d => F d h').prod * φ h')) := by
      refine entriesE_congr _ _ fun h' hc _ => ?_
      rw [List.map_cons, List.prod_cons, h1 h h' x (fun _ => rfl) hc, mul_assoc]
    rw [e1, entriesE_const_mul _ _ hx.ne, Pi.mul_apply]
    show f x * _ = f x * _
    by_cases h0 : f x = 0
    · rw [h0, zero_mul, zero_mul]
    · have hlen : (fun i => (push h io x i).length) = Function.update (fun i => (h i).length) io ((h io).length + 1) := by
        funext i
        simp only [push]
        by_cases hi : i = io
        · subst hi; simp
        · rw [Function.update_of_ne hi, Function.update_of_ne hi]
      rw [ih (push h io x) (by rw [hlen]; exact hfix') (hval' x h0)]

theorem prefix_getD {l l' : List ℝ} (h : l <+: l') {i : ℕ} (hi : i < l.length) : l'.getD i 0 = l.getD i 0 := by
  obtain ⟨t, rfl⟩ := h
  simp [List.getD, List.getElem?_append_left hi]

theorem mem_of_lookup {α β : Type} [DecidableEq α] {l : List (α × β)} {a : α} {b : β} (h : l.lookup a = some b) : (a, b) ∈ l := by
  induction l with
  | nil => simp at h
  | cons p l ih =>
    obtain ⟨a', b'⟩ := p
    rw [List.lookup_cons] at h
    by_cases he : a == a'
    · rw [he] at h
      have : a = a' := by simpa using he
      subst this
      cases h
      simp
    · rw [Bool.not_eq_true] at he
      rw [he] at h
      exact List.mem_cons_of_mem _ (ih h)

theorem lookup_of_mem {α β : Type} [DecidableEq α] {l : List (α × β)} (hnd : (l.map Prod.fst).Nodup) {a : α} {b : β} (h : (a, b) ∈ l) : l.lookup a = some b := by
  induction l with
  | nil => simp at h
  | cons p l ih =>
    obtain ⟨a', b'⟩ := p
    simp only [List.map_cons, List.nodup_cons] at hnd
    rw [List.lookup_cons]
    rcases List.mem_cons.1 h with h | h
    · cases h; simp
    · have : (a == a') = false := by
        have : a ≠ a' := fun he => hnd.1 (he ▸ List.mem_map_of_mem (f := Prod.fst) h)
        simpa using this
      rw [this]
      exact ih hnd.2 h

theorem lookup_none {α β : Type} [DecidableEq α] {l : List (α × β)} {a : α} (h : a ∉ l.map Prod.fst) : l.lookup a = none := by
  rcases hl : l.lookup a with _ | b
  · rfl
  · exact absurd (List.mem_map_of_mem (f := Prod.fst) (mem_of_lookup hl)) h

variable {args : ScanArgs ι FVal} {taps : ι → List (ℤ × ι)} {lag : ι → ℕ} {ios fresh : List ι} {base : ι → FVal} {lp : ι → FVal → (ι → FVal) → Except Err FVal}

/-- The variables that the draw of `io` depends on have the same values later on. -/
theorem seriesEnv_stable (hlag : ∀ io ∈ ios, Lags ((taps io).map Prod.fst) (lag io)) {s : ℕ} {h h' : ι → List ℝ} (hc : ∀ io ∈ ios, h io <+: h' io)
    (hlen : ∀ io ∈ ios, lag io + s ≤ (h io).length) {v : ι} (hv : v ∈ ios → lag v + s < (h v).length) :
    seriesEnv args base taps lag ios s h' v = seriesEnv args base taps lag ios s h v := by
  simp only [seriesEnv]
  by_cases hvi : v ∈ ios
  · rw [if_pos hvi, if_pos hvi, prefix_getD (hc v hvi) (hv hvi)]
  · rw [if_neg hvi, if_neg hvi]
    rcases hl : (ios.flatMap fun io => (taps io).map fun p => (p.2, io, p.1)).lookup v with _ | ⟨io, t⟩
    · simp only [hl]
    · have hm := mem_of_lookup hl
      simp only [hl]
      simp only [List.mem_flatMap, List.mem_map, Prod.mk.injEq] at hm
      obtain ⟨io', hio', p, hp, rfl, rfl, rfl⟩ := hm
      have h1 := (hlag io' hio').neg _ (List.mem_map_of_mem hp)
      have h2 := (hlag io' hio').ge _ (List.mem_map_of_mem hp)
      rw [prefix_getD (hc io' hio') (by have := hlen io' hio'; omega)]

theorem fixed_step (hnd : ios.Nodup) (hlag : ∀ io ∈ ios, Lags ((taps io).map Prod.fst) (lag io)) {s : ℕ} {rest : List (ℕ × ι)} :
    ∀ (pre ios' : List ι) (len : ι → ℕ), ios = pre ++ ios' → OutOrder lp fresh ios' → (∀ io ∈ pre, len io = lag io + s + 1) → (∀ io ∈ ios', len io = lag io + s) →
      (∀ len, (∀ io ∈ ios, len io = lag io + s + 1) →
        Fixed (fun d h => dens (lp d.2 (seriesEnv args base taps lag ios d.1 h d.2) (seriesEnv args base taps lag ios d.1 h)))
          (fun d h x => dens (lp d.2 (.fin x) (seriesEnv args base taps lag ios d.1 h))) rest len) →
      Fixed (fun d h => dens (lp d.2 (seriesEnv args base taps lag ios d.1 h d.2) (seriesEnv args base taps lag ios d.1 h)))
        (fun d h x => dens (lp d.2 (.fin x) (seriesEnv args base taps lag ios d.1 h))) (ios'.map (fun io => (s, io)) ++ rest) len
  | pre, [], len, he, _, h1, _, h3 => by
    rw [List.append_nil] at he
    subst he
    exact h3 len h1
  | pre, io :: ios', len, he, ho, h1, h2, h3 => by
    have hnd' := hnd
    rw [he, List.nodup_append] at hnd'
    obtain ⟨hn1, hn2, hn12⟩ := hnd'
    rw [List.nodup_cons] at hn2
    refine ⟨fun h h' x hl hc => ?_, fixed_step hnd hlag (pre ++ [io]) ios' _ (by rw [he]; simp) ho.2 ?_ ?_ h3⟩
    · have hio : io ∈ ios := by rw [he]; simp
      have hx : seriesEnv args base taps lag ios s h' io = .fin x := by
        simp only [seriesEnv, if_pos hio]
        have h4 : push h io x io = h io ++ [x] := by simp [push]
        have h5 := hc io
        rw [h4] at h5
        rw [prefix_getD h5 (by simp [hl, h2 io]), ← h2 io (by simp), ← hl io]
        simp
      simp only [hx]
      congr 1
      refine ho.1 _ _ _ fun v hv1 hv2 => seriesEnv_stable hlag (fun i hi => ?_) (fun i hi => ?_) fun hvi => ?_
      · refine List.IsPrefix.trans ?_ (hc i)
        simp only [push]
        by_cases hi : i = io
        · subst hi; simp
        · rw [Function.update_of_ne hi]
      · rw [hl i]
        rw [he, List.mem_append] at hi
        rcases hi with hi | hi
        · rw [h1 i hi]; omega
        · rw [h2 i hi]
      · rw [hl v]
        rw [he, List.mem_append] at hvi
        rcases hvi with hi | hi
        · rw [h1 v hi]; omega
        · exact absurd hi hv2
    · intro i hi
      by_cases hii : i = io
      · subst hii
        rw [Function.update_self, h2 i (by simp)]
      · rw [Function.update_of_ne hii]
        rcases List.mem_append.1 hi with hi | hi
        · exact h1 i hi
        · exact absurd (by simpa using hi) hii
    · intro i hi
      have hii : i ≠ io := fun h => hn2.1 (h ▸ hi)
      rw [Function.update_of_ne hii]
      exact h2 i (by simp [hi])

theorem fixed_draws (hnd : ios.Nodup) (hlag : ∀ io ∈ ios, Lags ((taps io).map Prod.fst) (lag io)) (ho : OutOrder lp fresh ios) :
    ∀ (n s : ℕ) (len : ι → ℕ), (∀ io ∈ ios, len io = lag io + s) →
      Fixed (fun d h => dens (lp d.2 (seriesEnv args base taps lag ios d.1 h d.2) (seriesEnv args base taps lag ios d.1 h)))
        (fun d h x => dens (lp d.2 (.fin x) (seriesEnv args base taps lag ios d.1 h))) ((List.range' s n).flatMap fun s => ios.map fun io => (s, io)) len
  | 0, _, _, _ => trivial
  | n + 1, s, len, h => by
    rw [List.range'_succ, List.flatMap_cons]
    exact fixed_step hnd hlag [] ios len rfl ho (by simp) h fun len' h' => fixed_draws hnd hlag ho n (s + 1) len' fun io hio => by rw [h' io hio]; omega

theorem seriesEnv_isStepEnv {n : ℕ} (hc : args.Consistent) (hlag : ∀ io ∈ ios, Lags ((taps io).map Prod.fst) (lag io))
    (hnd : (args.inner_in_seqs ++ ios.flatMap fun io => io :: (taps io).map Prod.snd).Nodup) (hseq : ∀ seq ∈ args.outer_in_seqs, n ≤ seq.length)
    {h : ι → List ℝ} (hlen : ∀ io ∈ ios, (h io).length = lag io + n) {s : ℕ} (hs : s < n) :
    IsStepEnv args base taps lag ios (fun io => (h io).map .fin) s (seriesEnv args base taps lag ios s h) := by
  rw [List.nodup_append] at hnd
  obtain ⟨hnd1, hnd2, hnd12⟩ := hnd
  have hkeys : ((ios.flatMap fun io => (taps io).map fun p => (p.2, io, p.1)).map Prod.fst) = ios.flatMap fun io => (taps io).map Prod.snd := by
    rw [List.map_flatMap]
    simp [Function.comp_def]
  have hndt : (ios.flatMap fun io => (taps io).map Prod.snd).Nodup := by
    refine hnd2.sublist ?_
    clear * -
    induction ios with
    | nil => simp
    | cons o outs ih =>
      rw [List.flatMap_cons, List.flatMap_cons]
      exact (List.sublist_cons_self _ _).append ih
  have hnot : ∀ io ∈ ios, ∀ p ∈ taps io, p.2 ∉ ios := by
    clear * - hnd2
    induction ios with
    | nil => simp
    | cons o outs ih =>
      rw [List.flatMap_cons, List.nodup_append] at hnd2
      obtain ⟨h1, h2, h3⟩ := hnd2
      rw [List.nodup_cons] at h1
      intro io hio p hp hm
      rcases List.mem_cons.1 hio with rfl | hio
      · rcases List.mem_cons.1 hm with hm | hm
        · exact h1.1 (List.mem_map.2 ⟨p, hp, hm⟩)
        · exact h3 p.2 (List.mem_cons_of_mem _ (List.mem_map_of_mem hp)) p.2 (List.mem_flatMap.2 ⟨_, hm, by simp⟩) rfl
      · rcases List.mem_cons.1 hm with hm | hm
        · exact h3 o (by simp) p.2 (List.mem_flatMap.2 ⟨_, hio, List.mem_cons_of_mem _ (List.mem_map_of_mem hp)⟩) hm.symm
        · exact ih h2 io hio p hp hm
  refine ⟨fun io hio p hp => ?_, fun i v seq hv hq => ?_, fun v hv1 hv2 => ?_⟩
  · rcases List.mem_cons.1 hp with rfl | hp
    · have : ((lag io : ℤ) + s + 0).toNat = lag io + s := by omega
      simp only [seriesEnv, if_pos hio, this]
      have hl : lag io + s < (h io).length := by rw [hlen io hio]; omega
      simp [hl]
    · have hl := lookup_of_mem (l := ios.flatMap fun io => (taps io).map fun p => (p.2, io, p.1)) (by rw [hkeys]; exact hndt) (a := p.2) (b := (io, p.1))
        (List.mem_flatMap.2 ⟨io, hio, List.mem_map.2 ⟨p, hp, rfl⟩⟩)
      simp only [seriesEnv, if_neg (hnot io hio p hp), hl]
      have h1 := (hlag io hio).neg _ (List.mem_map_of_mem hp)
      have h2 : ((lag io : ℤ) + s + p.1).toNat < (h io).length := by rw [hlen io hio]; omega
      simp [h2]
  · have hvm := List.mem_of_getElem? hv
    have h1 : v ∉ ios := fun hm => hnd12 v hvm v (List.mem_flatMap.2 ⟨v, hm, by simp⟩) rfl
    have h2 : v ∉ ((ios.flatMap fun io => (taps io).map fun p => (p.2, io, p.1)).map Prod.fst) := by
      rw [hkeys]
      intro hm
      obtain ⟨io, hio, hm⟩ := List.mem_flatMap.1 hm
      exact hnd12 v hvm v (List.mem_flatMap.2 ⟨io, hio, List.mem_cons_of_mem _ hm⟩) rfl
    have h3 := lookup_of_mem (l := args.inner_in_seqs.zip args.outer_in_seqs) (by rw [List.map_fst_zip hc.seqs.le]; exact hnd1) (a := v) (b := seq)
      (List.mem_of_getElem? (i := i) (by rw [List.getElem?_zip_eq_some]; exact ⟨hv, hq⟩))
    simp only [seriesEnv, if_neg h1, lookup_none h2, h3]
    have : s < seq.length := lt_of_lt_of_le hs (hseq seq (List.mem_of_getElem? hq))
    simp [this]
  · have h1 : v ∉ ios := fun hm => hv2 v hm (by simp)
    have h2 : v ∉ ((ios.flatMap fun io => (taps io).map fun p => (p.2, io, p.1)).map Prod.fst) := by
      rw [hkeys]
      intro hm
      obtain ⟨io, hio, hm⟩ := List.mem_flatMap.1 hm
      exact hv2 io hio (List.mem_cons_of_mem _ hm)
    have h3 : v ∉ ((args.inner_in_seqs.zip args.outer_in_seqs).map Prod.fst) := by rw [List.map_fst_zip hc.seqs.le]; exact hv1
    simp only [seriesEnv, if_neg h1, lookup_none h2, lookup_none h3]

theorem prod_flatMap {α : Type} (f : α → List ENNReal) : ∀ l : List α, (l.flatMap f).prod = (l.map fun a => (f a).prod).prod
  | [] => rfl
  | a :: l => by rw [List.flatMap_cons, List.prod_append, prod_flatMap f l, List.map_cons, List.prod_cons]

theorem count_draws (hnd : ios.Nodup) (n : ℕ) {io : ι} (hio : io ∈ ios) : ((draws n ios).map Prod.snd).count io = n := by
  rw [draws, List.map_flatMap]
  have : (fun s : ℕ => ((ios.map fun io => (s, io)).map Prod.snd)) = fun _ => ios := by
    funext s; simp [Function.comp_def]
  rw [this, List.count_flatMap]
  simp [Function.comp_def, List.count_eq_one_of_mem hnd hio]

end

theorem outOrder_weaken {ι V : Type} {lp : ι → V → (ι → V) → Except Err FVal} {fresh : List ι} : ∀ {ios : List ι}, OutOrder lp fresh ios →
    ∀ io ∈ ios, ∀ x e e', (∀ v, v ∉ fresh → e v = e' v) → lp io x e = lp io x e'
  | io :: ios, h, i, hi, x, e, e', he => by
    rcases List.mem_cons.1 hi with rfl | hi
    · exact h.1 x e e' fun v hv _ => he v hv
    · exact outOrder_weaken h.2 i hi x e e' he

/-- **C82** (density) For a scan with any number of random outputs with symmetric lags, at least one, and any number of steps: `exp` of the joint log-probability, as a
function of the series, is the density of the series drawn step by step: starting from the initial values, at every step the outputs are drawn one after the other from
their laws given the lagged values, the sequences, and what was drawn before.
Missing: lags that are not symmetric (`C72_asymmetric_wrong`), other recurrent outputs, entries that are not real numbers. -/
theorem C82_density_partial {ι : Type} [DecidableEq ι] {args : ScanArgs ι FVal} (hc : args.Consistent) {taps : ι → List (ℤ × ι)} {lag : ι → ℕ} {outs : List (ι × ι)} {n : ℕ}
    (hne : outs ≠ []) (htaps : ∀ o ∈ outs, args.HasTaps o.1 (taps o.1)) (hlag : ∀ o ∈ outs, Lags ((taps o.1).map Prod.fst) (lag o.1))
    (hsym : ∀ o ∈ outs, Symmetric ((taps o.1).map Prod.fst) (lag o.1)) (hseq : ∀ seq ∈ args.outer_in_seqs, n ≤ seq.length)
    (hnd : (args.inner_in_seqs ++ outs.flatMap fun o => o.1 :: o.2 :: (taps o.1).map Prod.snd).Nodup)
    (base : ι → FVal) (lp : ι → FVal → (ι → FVal) → Except Err FVal) (hord : OutOrder lp (outs.map Prod.snd) (outs.map Prod.fst))
    (law : ι → (ι → FVal) → Measure ℝ) (ref : ι → Measure ℝ) (init : ι → List ℝ) (hinit : ∀ o ∈ outs, (init o.1).length = lag o.1)
    (hvalid : DrawsValid lp law ref (seriesEnv args base taps lag (outs.map Prod.fst)) (draws n (outs.map Prod.fst)) init) (φ : (ι → List ℝ) → ENNReal) :
    entriesE ref (draws n (outs.map Prod.fst)) init (fun h => dens (args.scanJoint base lp (outs.map fun o => (o.1, o.2, (h o.1).map .fin))) * φ h) =
      drawE law (seriesEnv args base taps lag (outs.map Prod.fst)) (draws n (outs.map Prod.fst)) init φ := by
  set ios := outs.map Prod.fst with hios
  have hsub : (ios.flatMap fun io => io :: (taps io).map Prod.snd).Sublist (outs.flatMap fun o => o.1 :: o.2 :: (taps o.1).map Prod.snd) := by
    rw [hios]
    clear * -
    induction outs with
    | nil => simp
    | cons o outs ih =>
      rw [List.map_cons, List.flatMap_cons, List.flatMap_cons]
      exact ((List.sublist_cons_self _ _).cons₂ _).append ih
  have hndo : ios.Nodup := by
    refine ((List.nodup_append.1 hnd).2.1).sublist (List.Sublist.trans ?_ hsub)
    clear * -
    induction ios with
    | nil => simp
    | cons o outs ih =>
      rw [List.flatMap_cons, List.cons_append]
      exact (ih.trans (List.sublist_append_right _ _)).cons₂ _
  have hlag' : ∀ io ∈ ios, Lags ((taps io).map Prod.fst) (lag io) := fun io hio => by
    obtain ⟨o, ho, rfl⟩ := List.mem_map.1 hio
    exact hlag o ho
  have hinit' : ∀ io ∈ ios, (init io).length = lag io := fun io hio => by
    obtain ⟨o, ho, rfl⟩ := List.mem_map.1 hio
    exact hinit o ho
  have hfix := fixed_draws (args := args) (base := base) (lp := lp) (fresh := outs.map Prod.snd) hndo hlag' hord n 0 (fun io => (init io).length) fun io hio => by
    simp [hinit' io hio]
  rw [← List.range_eq_range'] at hfix
  rw [← entriesE_eq_drawE lp law ref _ _ φ (draws n ios) init hfix hvalid]
  refine entriesE_congr _ _ fun h hcont hlen => ?_
  congr 1
  have hlen' : ∀ io ∈ ios, (h io).length = lag io + n := fun io hio => by rw [hlen io, hinit' io hio, count_draws hndo n hio]
  have hterms := C82_terms_partial hc (taps := taps) (lag := lag) (outs := outs.map fun o => (o.1, o.2, (h o.1).map FVal.fin)) (n := n) (by simpa using hne)
    (fun o ho => by obtain ⟨o', ho', rfl⟩ := List.mem_map.1 ho; exact htaps o' ho')
    (fun o ho => by obtain ⟨o', ho', rfl⟩ := List.mem_map.1 ho; exact hlag o' ho')
    (fun o ho => by obtain ⟨o', ho', rfl⟩ := List.mem_map.1 ho; exact hsym o' ho')
    (fun o ho => by obtain ⟨o', ho', rfl⟩ := List.mem_map.1 ho; rw [List.length_map]; exact hlen' _ (List.mem_map_of_mem ho'))
    hseq (by rw [List.flatMap_map]; exact hnd) base lp
    (fun o ho x e e' he => by
      obtain ⟨o', ho', rfl⟩ := List.mem_map.1 ho
      refine outOrder_weaken hord _ (List.mem_map_of_mem ho') x e e' fun v hv => he v ?_
      rw [List.map_map]
      exact hv)
    (fun io => (h io).map .fin) (fun o ho => by obtain ⟨o', ho', rfl⟩ := List.mem_map.1 ho; rfl)
    (fun s => seriesEnv args base taps lag ios s h)
    (fun s hs => by
      have : ((outs.map fun o => (o.1, o.2, (h o.1).map FVal.fin)).map fun o => o.1) = ios := by rw [List.map_map]; rfl
      rw [this]
      exact seriesEnv_isStepEnv hc hlag' (hnd.sublist ((List.Sublist.refl _).append hsub)) hseq hlen' hs)
  rw [scanJoint, hterms, dens_rows, draws, List.map_flatMap, prod_flatMap]
  simp only [List.map_map, Function.comp_def, hios]

/-- **C83** (the usual case) When the value is for everything after the initial values, `out[L:]` (or `out[-n:]` with `n` steps), the value of the whole series is the initial values followed by
the user's value, whatever is in the memory of `at.empty`.  Missing: other indices, for which it is false (`C83_memory_wrong`, `C83_no_initial_wrong`). -/
theorem C83_tail_partial {V : Type} (mem val init : List V) (hmem : mem.length = init.length + val.length) :
    padScanValue mem (.slice (some init.length) none) val (some init) = .ok (init ++ val) ∧
      (val ≠ [] → padScanValue mem (.slice (some (-val.length)) none) val (some init) = .ok (init ++ val)) := by
  have key : ∀ b : Option ℤ, sliceEnds b none 1 mem.length = ((init.length : ℤ), (mem.length : ℤ)) → padScanValue mem (.slice b none) val (some init) = .ok (init ++ val) := by
    intro b hb
    have h1 : (TimeIndex.slice b none).ends mem.length = .ok (init.length, mem.length) := by
      simp only [TimeIndex.ends, hb, Int.toNat_natCast]
      rw [max_eq_right (by omega)]
    have h2 : setTime mem (.slice b none) val = .ok (mem.take init.length ++ val) := by
      simp only [setTime, h1]
      rw [if_pos (by omega)]
      simp
    have hl : (mem.take init.length ++ val).length = mem.length := by
      rw [List.length_append, List.length_take, hmem, min_eq_left (by omega)]
    have h3 : sliceEnds none (some (init.length : ℤ)) 1 (mem.take init.length ++ val).length = (0, (init.length : ℤ)) := by
      have : ¬ ((init.length : ℤ) < 0) := by omega
      rw [hl]
      simp only [sliceEnds, this, if_false, zero_lt_one, if_true]
      rw [min_eq_left (by omega)]
    have h4 : (TimeIndex.slice none (some (init.length : ℤ))).ends (mem.take init.length ++ val).length = .ok (0, init.length) := by
      simp only [TimeIndex.ends, h3, Int.toNat_natCast]
      simp
    have h5 : (mem.take init.length ++ val).drop init.length = val := by
      rw [List.drop_append_of_le_length (by rw [List.length_take, hmem, min_eq_left (by omega)]), List.drop_eq_nil_of_le (by simp), List.nil_append]
    simp only [padScanValue, h2]
    simp only [setTime, h4]
    simp [h5]
  refine ⟨key _ ?_, fun hv => key _ ?_⟩
  · simp only [sliceEnds]
    rw [if_neg (by omega)]
    simp; omega
  · have : 0 < val.length := List.length_pos_iff.2 hv
    simp only [sliceEnds]
    rw [if_pos (by omega)]
    simp; omega

/-- **C83** (refuted part) Every later entry of the series that is not among those with a value is taken from the uninitialised memory of `at.empty`: the value the user gave has no
influence on it, and whatever is in the memory has. -/
theorem C83_memory_wrong {V : Type} {mem val init new : List V} {idx : TimeIndex} {a b : ℕ} (hidx : idx.ends mem.length = .ok (a, b)) (ha : a ≤ b) (hb : b ≤ mem.length)
    (h : padScanValue mem idx val (some init) = .ok new) {i : ℕ} (hi : init.length ≤ i) (hout : i < a ∨ b ≤ i) : new[i]? = mem[i]? := by
  simp only [padScanValue, setTime, hidx] at h
  by_cases hl : val.length = b - a
  · rw [if_pos hl] at h
    simp only at h
    have hlen : (mem.take a ++ val ++ mem.drop b).length = mem.length := by simp; omega
    have h4 : (TimeIndex.slice none (some (init.length : ℤ))).ends (mem.take a ++ val ++ mem.drop b).length = .ok (0, min init.length mem.length) := by
      have : ¬ ((init.length : ℤ) < 0) := by omega
      rw [hlen]
      simp only [TimeIndex.ends, sliceEnds, this, if_false, zero_lt_one, if_true]
      have h6 : (min (init.length : ℤ) mem.length).toNat = min init.length mem.length := by omega
      rw [h6]
      simp
    rw [h4] at h
    simp only at h
    by_cases hl2 : init.length = min init.length mem.length - 0
    · rw [if_pos hl2] at h
      cases h
      rw [← hl2.trans (Nat.sub_zero _), List.getElem?_append_right (by simpa using hi), List.take_zero, List.nil_append, List.getElem?_drop, Nat.add_sub_cancel' hi]
      rcases hout with ho | ho
      · rw [List.append_assoc, List.getElem?_append_left (by simp; omega), List.getElem?_take_of_lt ho]
      · rw [List.getElem?_append_right (by simp; omega), List.getElem?_drop]
        congr 1
        simp; omega
    · rw [if_neg hl2] at h; cases h
  · rw [if_neg hl] at h; cases h

/-- **C83** (refuted part) A value for a part of an output without initial values always raises. -/
theorem C83_no_initial_wrong {V : Type} (mem val : List V) (idx : TimeIndex) : ∃ e, padScanValue mem idx val none = .error e := by
  simp only [padScanValue]
  rcases setTime mem idx val with e | l
  · exact ⟨e, rfl⟩
  · exact ⟨_, rfl⟩

/-- **C83** One position: a value for a position outside the series raises `IndexError`; a value for one of its later positions becomes the entry there, and negative positions count from
the end. -/
theorem C83_position {V : Type} {mem init : List V} (x : V) {k : ℤ} :
    (k < -mem.length ∨ (mem.length : ℤ) ≤ k → ∀ i, padScanValue mem (.pos k) [x] i = .error .indexError) ∧
      ∀ j : ℕ, init.length ≤ j → j < mem.length → k = j ∨ k = j - mem.length → ∃ new, padScanValue mem (.pos k) [x] (some init) = .ok new ∧ new.length = mem.length ∧ new[j]? = some x := by
  refine ⟨fun h i => ?_, fun j h1 h2 hk => ?_⟩
  · have : (TimeIndex.pos k).ends mem.length = .error .indexError := by
      simp only [TimeIndex.ends]
      rw [if_neg]
      split <;> omega
    simp only [padScanValue, setTime, this]
  · have h3 : (TimeIndex.pos k).ends mem.length = .ok (j, j + 1) := by
      simp only [TimeIndex.ends]
      have : (if k < 0 then k + mem.length else k) = (j : ℤ) := by split <;> omega
      rw [this, if_pos (by omega)]
      simp
    have hlen : (mem.take j ++ [x] ++ mem.drop (j + 1)).length = mem.length := by simp; omega
    have h4 : (TimeIndex.slice none (some (init.length : ℤ))).ends (mem.take j ++ [x] ++ mem.drop (j + 1)).length = .ok (0, init.length) := by
      have : ¬ ((init.length : ℤ) < 0) := by omega
      rw [hlen]
      simp only [TimeIndex.ends, sliceEnds, this, if_false, zero_lt_one, if_true]
      have h6 : (min (init.length : ℤ) mem.length).toNat = init.length := by omega
      rw [h6]
      simp
    have h5 : setTime mem (.pos k) [x] = .ok (mem.take j ++ [x] ++ mem.drop (j + 1)) := by
      simp only [setTime, h3]
      rw [if_pos (by simp)]
    refine ⟨init ++ (mem.take j ++ [x] ++ mem.drop (j + 1)).drop init.length, ?_, ?_, ?_⟩
    · simp only [padScanValue, h5]
      simp only [setTime, h4]
      rw [if_pos (by simp)]
      simp
    · rw [List.length_append, List.length_drop, hlen]; omega
    · rw [List.getElem?_append_right h1, List.getElem?_drop, Nat.add_sub_cancel' h1, List.append_assoc, List.getElem?_append_right (by simp)]
      simp [Nat.min_eq_left h2.le]

/-- A value for the last entry of a series with one initial value, and one for a position that does not exist. -/
example : (∀ i, padScanValue [5, 6, 7] (.pos 3) [1] i = .error .indexError) ∧ ∃ new, padScanValue [5, 6, 7] (.pos (-1)) [1] (some [0]) = .ok new ∧ new.length = 3 ∧ new[2]? = some 1 :=
  ⟨(C83_position (init := [0]) 1).1 (.inr (by simp)), (C83_position (mem := [5, 6, 7]) (init := [0]) 1).2 2 (by simp) (by simp) (.inr (by simp))⟩

namespace ScanDensityDemo
open ProbabilityTheory

/-- A random walk `x` (output 0, inner-input 20) with observations `y` (output 1). -/
def args : ScanArgs ℕ FVal where
  inner_in_seqs := [100]
  outer_in_seqs := [[.fin 1, .fin 2, .fin 3]]
  inner_in_mit_sot := []
  mit_sot_in_slices := []
  inner_out_mit_sot := []
  inner_in_sit_sot := [20]
  inner_out_sit_sot := [0]
  inner_out_nit_sot := [1]
  outer_in_nit_sot := [3]
  n_steps := 3

theorem consistent : args.Consistent := ⟨rfl, rfl, rfl, rfl, by decide, fun i taps ins h1 _ => by simp [args] at h1⟩

/-- The random walk alone. -/
def walkArgs : ScanArgs ℕ FVal := { args with inner_out_nit_sot := [] }

theorem walkConsistent : walkArgs.Consistent := ⟨rfl, rfl, rfl, rfl, by decide, fun i taps ins h1 _ => by simp [walkArgs, args] at h1⟩

def taps : ℕ → List (ℤ × ℕ)
  | 0 => [(-1, 20)]
  | _ => []

def lag : ℕ → ℕ
  | 0 => 1
  | _ => 0

def outs : List (ℕ × ℕ) := [(0, 30), (1, 31)]

/-- `x_t` is normal with mean `x_{t-1}`, `y_t` with mean `x_t`. -/
def parent (io : ℕ) : ℕ := if io = 0 then 20 else 0

noncomputable def lp (io : ℕ) (x : FVal) (e : ℕ → FVal) : Except Err FVal := normalLogprob x (e (parent io)) (.fin 1)

noncomputable def law (io : ℕ) (e : ℕ → FVal) : Measure ℝ :=
  match e (parent io) with
  | .fin a => gaussianReal a ((1 : ℝ) ^ 2).toNNReal
  | _ => 0

theorem stepGood (io : ℕ) {e : ℕ → FVal} {a : ℝ} (he : e (parent io) = .fin a) : StepGood (lp io) (law io) volume e := by
  have e1 : (fun y : ℝ => dens (lp io (.fin y) e)) = gaussianPDF a ((1 : ℝ) ^ 2).toNNReal := by
    funext y
    rw [lp, he, normal_eval y a one_pos, dens_log (gaussianPDFReal_pos _ _ _ (toNNReal_sq_ne one_pos))]; rfl
  refine ⟨?_, ?_, ?_⟩
  · rw [law, he]; infer_instance
  · rw [e1]; exact measurable_gaussianPDF _ _
  · rw [e1, law, he]; exact gaussianReal_of_var_ne_zero _ (toNNReal_sq_ne one_pos)

theorem drawsValid (base : ℕ → FVal) : ∀ (l : List (ℕ × ℕ)) (h : ℕ → List ℝ), DrawsValid lp law (fun _ => volume) (seriesEnv args base taps lag [0, 1]) l h
  | [], _ => trivial
  | (s, io) :: l, h => by
    refine ⟨?_, fun x _ => drawsValid base l _⟩
    by_cases hio : io = 0
    · exact stepGood io (a := (h 0).getD ((1 : ℤ) + s + (-1)).toNat 0) (by simp [parent, hio, seriesEnv, taps, lag, List.lookup])
    · exact stepGood io (a := (h 0).getD (lag 0 + s) 0) (by simp [parent, hio, seriesEnv])

end ScanDensityDemo

open ScanDensityDemo in
example (base : ℕ → FVal) := C82_density_partial consistent (taps := taps) (lag := lag) (outs := outs) (n := 3) (by simp [outs])
  (by
    intro o ho
    simp only [outs, List.mem_cons, List.not_mem_nil, or_false] at ho
    rcases ho with rfl | rfl
    · exact .inr (.inl ⟨0, 20, rfl, rfl, rfl⟩)
    · exact .inr (.inr ⟨by simp [args], rfl⟩))
  (by
    intro o ho
    simp only [outs, List.mem_cons, List.not_mem_nil, or_false] at ho
    rcases ho with rfl | rfl
    · exact ScanDemo.lags1
    · exact ScanDemo.lags0)
  (by
    intro o ho
    simp only [outs, List.mem_cons, List.not_mem_nil, or_false] at ho
    rcases ho with rfl | rfl <;> refine symmetric_all fun t => ?_ <;> simp [taps, lag] <;> omega)
  (by simp [args]) (by decide) base lp
  (by
    refine ⟨fun x e e' h => ?_, fun x e e' h => ?_, trivial⟩ <;>
    · simp only [lp]
      rw [h (parent _) (by decide) (by decide)])
  law (fun _ => volume) (fun io => if io = 0 then [0.5] else []) (by simp [outs, lag]) (drawsValid base _ _)

example := C83_tail_partial [0, 0, 0] [5, 6] [1] rfl
example := C83_memory_wrong (mem := [7, 8, 9]) (val := [5]) (init := [1]) (new := [1, 8, 5]) (idx := .pos (-1)) (a := 2) (b := 3) rfl (by decide) (by decide) rfl (i := 1) (by decide) (.inl (by decide))

open ScanDensityDemo ProbabilityTheory in
/-- **C83** (refuted part) A random walk of two steps of which only the last value is given (`out[-1]`): the log-probability is not determined by that value and the initial one. -/
theorem C83_last_value_wrong : ∃ mem mem' : List FVal, mem.length = 3 ∧ mem'.length = 3 ∧
    (padScanValue mem (.pos (-1)) [.fin 0] (some [.fin 0]) >>= fun v => walkArgs.scanLogprob (fun _ => .nan) lp [(0, 30, v)]) ≠
      (padScanValue mem' (.pos (-1)) [.fin 0] (some [.fin 0]) >>= fun v => walkArgs.scanLogprob (fun _ => .nan) lp [(0, 30, v)]) := by
  refine ⟨[.fin 0, .fin 0, .fin 0], [.fin 0, .fin 1, .fin 0], rfl, rfl, ?_⟩
  have key : ∀ m : ℝ, (padScanValue [.fin 0, .fin m, .fin 0] (.pos (-1)) [.fin 0] (some [.fin 0]) >>= fun v => walkArgs.scanLogprob (fun _ => .nan) lp [(0, 30, v)]) =
      .ok [[.fin (Real.log (gaussianPDFReal 0 ((1 : ℝ) ^ 2).toNNReal m))], [.fin (Real.log (gaussianPDFReal m ((1 : ℝ) ^ 2).toNNReal 0))]] := by
    intro m
    have h1 : padScanValue [.fin 0, .fin m, .fin 0] (.pos (-1)) [.fin 0] (some [.fin 0]) = .ok [FVal.fin 0, .fin m, .fin 0] := rfl
    rw [h1]
    have := C82_terms_partial walkConsistent (taps := taps) (lag := lag) (outs := [(0, 30, [FVal.fin 0, .fin m, .fin 0])]) (n := 2) (by simp)
      (by simp only [List.mem_singleton, forall_eq]; exact .inr (.inl ⟨0, 20, rfl, rfl, rfl⟩))
      (by simp only [List.mem_singleton, forall_eq]; exact ScanDemo.lags1)
      (by simp only [List.mem_singleton, forall_eq]; refine symmetric_all fun t => ?_; simp [taps, lag]; omega)
      (by simp [lag]) (by simp [walkArgs, args]) (by simp [walkArgs, args, taps]) (fun _ => .nan) lp
      (fun o ho x e e' h => by
        simp only [List.mem_singleton] at ho
        subst ho
        simp only [lp]
        rw [h (parent _) (by simp [parent])])
      (fun _ => [.fin 0, .fin m, .fin 0]) (by simp)
      (fun s v => if v = 0 then (if s = 0 then .fin m else .fin 0) else if v = 20 then (if s = 0 then .fin 0 else .fin m) else if v = 100 then (if s = 0 then .fin 1 else .fin 2) else .nan)
      (fun s hs => by
        refine ⟨?_, ?_, ?_⟩
        · intro io hio p hp
          simp only [List.map_cons, List.map_nil, List.mem_singleton] at hio
          subst hio
          simp only [taps, List.mem_cons, List.not_mem_nil, or_false] at hp
          have : s = 0 ∨ s = 1 := by omega
          rcases this with rfl | rfl <;> rcases hp with rfl | rfl <;> simp [lag]
        · intro i v seq hv hq
          rcases i with _ | i
          · simp only [walkArgs, args, List.getElem?_cons_zero, Option.some.injEq] at hv hq
            subst hv; subst hq
            have : s = 0 ∨ s = 1 := by omega
            rcases this with rfl | rfl <;> simp
          · simp [walkArgs, args] at hv
        · intro v h1 h2
          have h3 := h2 0 (by simp)
          simp only [walkArgs, args, List.mem_singleton] at h1
          simp only [taps, List.map_cons, List.map_nil, List.mem_cons, List.not_mem_nil, or_false, not_or] at h3
          simp [h1, h3.1, h3.2])
    refine (this : _ = _).trans ?_
    simp [List.range_succ, lp, parent, normal_eval, bind, Except.bind, pure, Except.pure]
  rw [key 0, key 1]
  intro h
  simp only [Except.ok.injEq, List.cons.injEq, FVal.fin.injEq, and_true] at h
  have h2 := Real.log_injOn_pos (gaussianPDFReal_pos _ _ _ (toNNReal_sq_ne one_pos)) (gaussianPDFReal_pos _ _ _ (toNNReal_sq_ne one_pos)) h.1
  simp [gaussianPDFReal] at h2
  have h3 : Real.exp (-1 / 2) < 1 := by rw [Real.exp_lt_one_iff]; norm_num
  have h4 : 0 < (√Real.pi)⁻¹ * (√2)⁻¹ := by positivity
  nlinarith

end Verif
