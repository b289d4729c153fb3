import Verif.Spec.ArrScan
import Verif.Props.Scan
import Verif.Props.ArrGraph
import Verif.Props.Repeated
import Mathlib.MeasureTheory.Constructions.Pi
import Mathlib.MeasureTheory.Measure.WithDensity
import Mathlib.Probability.Kernel.Basic

/-! # C109: scans as variables of models -/

namespace Verif.ArrGraph
open Verif Cond MeasureTheory Set

variable {ι : Type} [DecidableEq ι]

/-! ## Series drawn step by step have the product density -/

/-- Density of the entries `x` after `h`. -/
noncomputable def seriesDens (f : List ℝ → ℝ → ENNReal) (n : ℕ) (h : List ℝ) (x : Fin n → ℝ) : ENNReal := ∏ k : Fin n, f (h ++ (List.ofFn x).take k) (x k)

theorem seriesDens_cons (f : List ℝ → ℝ → ENNReal) (n : ℕ) (h : List ℝ) (a : ℝ) (x : Fin n → ℝ) :
    seriesDens f (n + 1) h (Fin.cons a x) = f h a * seriesDens f n (h ++ [a]) x := by
  rw [seriesDens, Fin.prod_univ_succ, seriesDens]
  simp [List.ofFn_cons]

theorem seriesDens_measurable {f : List ℝ → ℝ → ENNReal} {n : ℕ} {h : List ℝ} (hm : ∀ k : Fin n, Measurable fun x : Fin n → ℝ => f (h ++ (List.ofFn x).take k) (x k)) :
    Measurable (seriesDens f n h) := Finset.measurable_prod _ fun k _ => hm k

theorem measurable_cons {n : ℕ} : Measurable fun q : ℝ × (Fin n → ℝ) => (Fin.cons q.1 q.2 : Fin (n + 1) → ℝ) := by
  refine measurable_pi_iff.2 fun i => ?_
  refine Fin.cases ?_ (fun i => ?_) i
  · simpa using measurable_fst
  · simp only [Fin.cons_succ]
    exact (measurable_pi_apply i).comp measurable_snd

theorem seriesLaw_eq (lp : FVal → (ι → FVal) → Except Err FVal) (law : (ι → FVal) → Measure ℝ) (ref : Measure ℝ) [SigmaFinite ref] (env : List ℝ → ι → FVal) :
    ∀ (n : ℕ) (h : List ℝ), SeriesValid lp law ref env n h → (∀ k : Fin n, Measurable fun x : Fin n → ℝ => dens (lp (.fin (x k)) (env (h ++ (List.ofFn x).take k)))) →
      IsProbabilityMeasure (seriesLaw (fun h => law (env h)) n h) ∧
      seriesLaw (fun h => law (env h)) n h = (Measure.pi fun _ : Fin n => ref).withDensity (seriesDens (fun h x => dens (lp (.fin x) (env h))) n h)
  | 0, h, _, _ => by
    refine ⟨Measure.dirac.isProbabilityMeasure, ?_⟩
    have e : seriesDens (fun h x => dens (lp (.fin x) (env h))) 0 h = 1 := by funext x; simp [seriesDens]
    rw [e, withDensity_one, seriesLaw, Measure.pi_of_empty (x := Fin.elim0)]
  | n + 1, h, hv, hm => by
    set f : List ℝ → ℝ → ENNReal := fun h x => dens (lp (.fin x) (env h)) with hf
    obtain ⟨hg, hv⟩ := hv
    have hprob := hg.prob
    -- the first entry fixed
    have htail : ∀ (k : Fin n) (a : ℝ) (x : Fin n → ℝ),
        f (h ++ (List.ofFn (Fin.cons a x : Fin (n + 1) → ℝ)).take k.succ) ((Fin.cons a x : Fin (n + 1) → ℝ) k.succ) = f (h ++ [a] ++ (List.ofFn x).take k) (x k) := fun k a x => by
      simp [List.ofFn_cons]
    have hjoint : Measurable fun q : ℝ × (Fin n → ℝ) => seriesDens f n (h ++ [q.1]) q.2 := by
      refine Finset.measurable_prod _ fun k _ => ?_
      have := (hm k.succ).comp measurable_cons
      have e : (fun q : ℝ × (Fin n → ℝ) => f (h ++ [q.1] ++ (List.ofFn q.2).take k) (q.2 k)) = (fun x : Fin (n + 1) → ℝ => f (h ++ (List.ofFn x).take k.succ) (x k.succ)) ∘
          fun q : ℝ × (Fin n → ℝ) => (Fin.cons q.1 q.2 : Fin (n + 1) → ℝ) := funext fun q => (htail k q.1 q.2).symm
      rw [e]
      exact this
    have ih : ∀ x, f h x ≠ 0 → IsProbabilityMeasure (seriesLaw (fun h => law (env h)) n (h ++ [x])) ∧
        seriesLaw (fun h => law (env h)) n (h ++ [x]) = (Measure.pi fun _ : Fin n => ref).withDensity (seriesDens f n (h ++ [x])) := fun x hx => by
      refine seriesLaw_eq lp law ref env n (h ++ [x]) (hv x hx) fun k => ?_
      have := (hm k.succ).comp (measurable_cons.comp (measurable_const.prodMk measurable_id : Measurable fun y : Fin n → ℝ => (x, y)))
      have e : (fun y : Fin n → ℝ => f (h ++ [x] ++ (List.ofFn y).take k) (y k)) = (fun x : Fin (n + 1) → ℝ => f (h ++ (List.ofFn x).take k.succ) (x k.succ)) ∘
          ((fun q : ℝ × (Fin n → ℝ) => (Fin.cons q.1 q.2 : Fin (n + 1) → ℝ)) ∘ fun y : Fin n → ℝ => (x, y)) := funext fun y => (htail k x y).symm
      show Measurable (fun y : Fin n → ℝ => f (h ++ [x] ++ (List.ofFn y).take k) (y k))
      rw [e]
      exact this
    have hfm : Measurable (f h) := hg.meas
    have hae : ∀ᵐ x ∂(law (env h)), f h x ≠ 0 := by
      rw [hg.dens, ae_withDensity_iff hfm]
      exact ae_of_all _ fun x hx => hx
    have hcons : ∀ x : ℝ, Measurable fun y : Fin n → ℝ => (Fin.cons x y : Fin (n + 1) → ℝ) := fun x => measurable_cons.comp (measurable_const.prodMk measurable_id)
    set K : ℝ → Measure (Fin (n + 1) → ℝ) := fun x => ((Measure.pi fun _ : Fin n => ref).withDensity (seriesDens f n (h ++ [x]))).map (Fin.cons x) with hK
    have hKs : ∀ s : Set (Fin (n + 1) → ℝ), MeasurableSet s → ∀ x, K x s = ∫⁻ y, s.indicator 1 (Fin.cons x y : Fin (n + 1) → ℝ) * seriesDens f n (h ++ [x]) y ∂(Measure.pi fun _ : Fin n => ref) := by
      intro s hs x
      rw [hK, Measure.map_apply (hcons x) hs, withDensity_apply _ (hcons x hs), ← lintegral_indicator (hcons x hs)]
      refine lintegral_congr fun y => ?_
      by_cases hy : (Fin.cons x y : Fin (n + 1) → ℝ) ∈ s
      · rw [indicator_of_mem (show y ∈ Fin.cons x ⁻¹' s from hy), indicator_of_mem hy, Pi.one_apply, one_mul]
      · rw [indicator_of_notMem (show y ∉ Fin.cons x ⁻¹' s from hy), indicator_of_notMem hy, zero_mul]
    have hint : ∀ s : Set (Fin (n + 1) → ℝ), MeasurableSet s →
        Measurable fun q : ℝ × (Fin n → ℝ) => s.indicator (1 : (Fin (n + 1) → ℝ) → ENNReal) (Fin.cons q.1 q.2) * seriesDens f n (h ++ [q.1]) q.2 := fun s hs =>
      ((measurable_one.indicator hs).comp measurable_cons).mul hjoint
    have hKm : Measurable K := by
      refine Measure.measurable_of_measurable_coe _ fun s hs => ?_
      simp_rw [hKs s hs]
      exact (hint s hs).lintegral_prod_right'
    have hbind : seriesLaw (fun h => law (env h)) (n + 1) h = (law (env h)).bind K := by
      rw [seriesLaw]
      refine Measure.bind_congr_right ?_
      filter_upwards [hae] with x hx
      rw [hK, (ih x hx).2]
    have hmain : seriesLaw (fun h => law (env h)) (n + 1) h = (Measure.pi fun _ : Fin (n + 1) => ref).withDensity (seriesDens f (n + 1) h) := by
      rw [hbind]
      ext s hs
      have hmp := measurePreserving_piFinSuccAbove (fun _ : Fin (n + 1) => ref) 0
      have hF : Measurable (seriesDens f (n + 1) h) := seriesDens_measurable hm
      have hpt : ∀ q : ℝ × (Fin n → ℝ), s.indicator (seriesDens f (n + 1) h) ((MeasurableEquiv.piFinSuccAbove (fun _ => ℝ) 0).symm q) =
          f h q.1 * (s.indicator (1 : (Fin (n + 1) → ℝ) → ENNReal) (Fin.cons q.1 q.2) * seriesDens f n (h ++ [q.1]) q.2) := fun q => by
        have e : (MeasurableEquiv.piFinSuccAbove (fun _ => ℝ) 0).symm q = (Fin.cons q.1 q.2 : Fin (n + 1) → ℝ) := Fin.insertNth_zero' _ _
        rw [e]
        by_cases hq : (Fin.cons q.1 q.2 : Fin (n + 1) → ℝ) ∈ s
        · rw [indicator_of_mem hq, indicator_of_mem hq, seriesDens_cons, Pi.one_apply, one_mul]
        · rw [indicator_of_notMem hq, indicator_of_notMem hq, zero_mul, mul_zero]
      rw [Measure.bind_apply hs hKm.aemeasurable, withDensity_apply _ hs, ← lintegral_indicator hs, ← (hmp.symm _).lintegral_comp (hF.indicator hs)]
      simp_rw [hpt]
      have hprod : Measurable fun q : ℝ × (Fin n → ℝ) => f h q.1 * (s.indicator (1 : (Fin (n + 1) → ℝ) → ENNReal) (Fin.cons q.1 q.2) * seriesDens f n (h ++ [q.1]) q.2) :=
        (hfm.comp measurable_fst).mul (hint s hs)
      rw [lintegral_prod _ hprod.aemeasurable, hg.dens]
      have hKe : Measurable fun x => K x s := (Measure.measurable_coe hs).comp hKm
      change ∫⁻ a, K a s ∂(ref.withDensity (f h)) = _
      rw [lintegral_withDensity_eq_lintegral_mul _ hfm hKe]
      refine lintegral_congr fun x => ?_
      have hy : Measurable fun y : Fin n → ℝ => s.indicator (1 : (Fin (n + 1) → ℝ) → ENNReal) (Fin.cons x y) * seriesDens f n (h ++ [x]) y := (hint s hs).comp (measurable_const.prodMk measurable_id)
      rw [Pi.mul_apply, hKs s hs, ← lintegral_const_mul _ hy]
    refine ⟨?_, hmain⟩
    rw [hbind]
    constructor
    rw [Measure.bind_apply MeasurableSet.univ hKm.aemeasurable]
    have h1 : ∀ᵐ x ∂(law (env h)), K x univ = 1 := by
      filter_upwards [hae] with x hx
      have := (ih x hx).1
      simp only [hK]
      rw [← (ih x hx).2, Measure.map_apply (hcons x) MeasurableSet.univ, preimage_univ, measure_univ]
    rw [lintegral_congr_ae h1, lintegral_one, measure_univ]

/-! ## What the kernel computes -/

theorem vecList_eq {a : Arr FVal} {n : ℕ} (h : a.shape = [n]) : vecList a = (allCoords [n]).map a.get := by
  rw [vecList, h, allCoords_vector, List.map_map]
  rfl

theorem vecList_numbers {n : ℕ} (x : Fin (entries [n]) → ℝ) : vecList (numbers [n] x) = (List.ofFn x).map .fin := by
  rw [vecList_eq rfl, map_allCoords, List.map_ofFn]
  congr 1
  funext k
  exact numbers_get x k

theorem entries_vector (n : ℕ) : entries [n] = n := by
  rw [entries, allCoords_vector, List.length_map, List.length_range]

theorem mapM_single {α β : Type} (g : ℕ → α → Except Err β) (o : α) : ∀ l : List ℕ,
    (l.mapM fun s => [o].mapM (g s)) = (match l.mapM fun s => g s o with | .ok ys => .ok (ys.map fun y => [y]) | .error e => .error e : Except Err (List (List β)))
  | [] => rfl
  | s :: l => by
    have ih := mapM_single g o l
    rw [List.mapM_cons, List.mapM_cons, ih]
    rcases h1 : g s o with e | y
    · simp [h1, bind, Except.bind]
    · rcases h2 : l.mapM (fun s => g s o) with e | ys
      · simp [h1, h2, bind, Except.bind, pure, Except.pure]
      · simp [h1, h2, bind, Except.bind, pure, Except.pure]

theorem fsum_eq_sum (l : List FVal) : fsum l = l.sum := by
  rw [fsum, List.sum]

theorem dens_terms {α : Type} (g : ℕ → α → Except Err FVal) (o : α) (l : List ℕ) :
    dens (arrayJoint (do
      let rows ← l.mapM fun s => [o].mapM (g s)
      .ok ⟨[rows.length], fun c => (rows.getD (c.headD 0) []).getD 0 .nan⟩)) = (l.map fun s => dens (g s o)).prod := by
  rw [mapM_single, dens_row]
  rcases h : l.mapM (fun s => g s o) with e | ys
  · rfl
  · simp only [bind, Except.bind, arrayJoint, dens, fsum_eq_sum, toDens_sum, allCoords_vector, List.map_map, List.length_map]
    congr 1
    apply List.ext_getElem
    · simp
    · intro i h1 h2
      simp at h1
      simp [h1]

variable {d : ScanDist ι}

theorem scanArgs_consistent (hp : d.Proper) {seqs : List (List FVal)} (h : d.seqs.length = seqs.length) : (d.scanArgs seqs).Consistent := by
  have ht := hp.taps
  rcases hd : d.out with ⟨taps, ins⟩ | inp | _
  all_goals refine ⟨h, ?_, ?_, ?_, ?_, ?_⟩ <;> simp only [ScanDist.scanArgs, hd] <;> try simp
  intro i taps' ins' h1 h2
  rcases i with _ | i
  · simp only [List.getElem?_cons_zero, Option.some.injEq] at h1 h2
    subst h1 h2
    exact ht _ _ hd
  · simp at h1

theorem scanArgs_hasTaps (seqs : List (List FVal)) : (d.scanArgs seqs).HasTaps d.io d.out.taps := by
  rcases hd : d.out with ⟨taps, ins⟩ | inp | _
  · refine .inl ⟨0, taps, ins, ?_, ?_, ?_, rfl⟩ <;> simp [ScanDist.scanArgs, hd]
  · refine .inr (.inl ⟨0, inp, ?_, ?_, rfl⟩) <;> simp [ScanDist.scanArgs, hd]
  · refine .inr (.inr ⟨?_, rfl⟩)
    simp [ScanDist.scanArgs, hd]

theorem wholeSeries_eq (hp : d.Proper) {p : List (Arr FVal)} {init : List ℝ} {seqs vals : List (Arr FVal)} (h : ScanParams d p init seqs vals) {mem : List FVal}
    (hmem : mem.length = d.lag + d.steps) (x : Fin (entries [d.steps]) → ℝ) :
    d.wholeSeries mem (numbers [d.steps] x) (d.split p).1 = .ok ((init ++ List.ofFn x).map .fin) ∧ (d.split p).2 = (seqs, vals) := by
  have htd : (seqs ++ vals).take d.seqs.length = seqs ∧ (seqs ++ vals).drop d.seqs.length = vals := by
    rw [← h.count]
    simp
  rcases h.split with ⟨h1, rfl⟩ | ⟨h1, a, rfl, ha, hai⟩
  · have hl : init = [] := by
      rcases hp.lags.max with hm | ⟨-, hm⟩
      · rw [h1] at hm; simp [ScanOut.taps] at hm
      · exact List.eq_nil_of_length_eq_zero (h.start.trans hm)
    simp only [ScanDist.wholeSeries, ScanDist.split, h1, hl, List.nil_append, vecList_numbers, htd, and_self]
  · have hv : vecList a = init.map .fin := by
      rw [vecList, ha, ← h.start]
      apply List.ext_getElem
      · simp
      · intro i h1 h2
        simp at h2
        simp [hai i h2]
    have hs : d.split (a :: (seqs ++ vals)) = (some a, seqs, vals) := by
      rcases hd : d.out with ⟨taps, ins⟩ | inp | _
      · simp only [ScanDist.split, hd, htd]
      · simp only [ScanDist.split, hd, htd]
      · exact absurd hd h1
    have hw : ∀ v i, d.wholeSeries mem v i = padScanValue mem (.slice (some d.lag) none) (vecList v) (i.map vecList) := fun v i => by
      rcases hd : d.out with ⟨taps, ins⟩ | inp | _
      · simp only [ScanDist.wholeSeries, hd]
      · simp only [ScanDist.wholeSeries, hd]
      · exact absurd hd h1
    rw [hs, hw]
    refine ⟨?_, rfl⟩
    have := (C83_tail_partial mem ((List.ofFn x).map FVal.fin) (init.map FVal.fin) (by simp [hmem, h.start, entries_vector])).1
    rw [Option.map_some, hv, vecList_numbers, ← h.start, List.map_append, ← this, List.length_map]

theorem lookup_swap {l : List (ℤ × ι)} (hnd : (l.map Prod.snd).Nodup) {q : ℤ × ι} (hq : q ∈ l) : (l.map Prod.swap).lookup q.2 = some q.1 :=
  lookup_of_mem (by rw [List.map_map]; exact hnd) (List.mem_map_of_mem (f := Prod.swap) hq)

theorem lookup_swap_none {l : List (ℤ × ι)} {v : ι} (hv : v ∉ l.map Prod.snd) : (l.map Prod.swap).lookup v = none :=
  lookup_none (by rw [List.map_map]; exact hv)

/-- The values of the inner variables in step `s`. -/
theorem envAt_isStepEnv (hp : d.Proper) {p : List (Arr FVal)} {init : List ℝ} {seqs vals : List (Arr FVal)} (h : ScanParams d p init seqs vals) {ser : List ℝ}
    (hser : ser.length = d.lag + d.steps) {s : ℕ} (hs : s < d.steps) :
    IsStepEnv (d.scanArgs (seqs.map vecList)) (d.base vals) (fun _ => d.out.taps) (fun _ => d.lag) [d.io] (fun _ => ser.map .fin) s
      (Function.update (d.envAt seqs vals (ser.take (d.lag + s))) d.io (.fin (ser.getD (d.lag + s) 0))) := by
  have hnd := List.nodup_append.1 hp.names
  have hnd2 := List.nodup_cons.1 hnd.2.1
  have hnd3 := List.nodup_cons.1 hnd2.2
  have hlen : (ser.take (d.lag + s)).length = d.lag + s := by rw [List.length_take]; omega
  refine ⟨fun io hio q hq => ?_, fun i v seq hv hseq => ?_, fun v hv1 hv2 => ?_⟩
  · obtain rfl := List.mem_singleton.1 hio
    rcases List.mem_cons.1 hq with rfl | hq
    · have e : ((d.lag : ℤ) + s + 0).toNat = d.lag + s := by omega
      have hl : d.lag + s < ser.length := by omega
      simp only [Function.update_self, e]
      simp [hl]
    · have hne : q.2 ≠ d.io := fun he => hnd2.1 (List.mem_cons_of_mem _ (he ▸ List.mem_map_of_mem hq))
      have h1 := hp.lags.neg _ (List.mem_map_of_mem hq)
      have h2 := hp.lags.ge _ (List.mem_map_of_mem hq)
      have e : ((d.lag : ℤ) + s + q.1).toNat < d.lag + s := by omega
      have hl : ((d.lag : ℤ) + s + q.1).toNat < ser.length := by omega
      rw [Function.update_of_ne hne]
      simp only [ScanDist.envAt, lookup_swap hnd3.2 hq, hlen]
      push_cast
      simp [hl, e, List.getElem?_take]
  · have hvs : v ∈ d.seqs := List.mem_of_getElem? hv
    have hne : v ≠ d.io := fun he => hnd.2.2 v hvs v (by rw [he]; simp) rfl
    have hnt : v ∉ d.out.taps.map Prod.snd := fun hm => hnd.2.2 v hvs v (by simp only [List.mem_cons]; exact .inr (.inr hm)) rfl
    simp only [ScanDist.scanArgs, List.getElem?_map, Option.map_eq_some_iff] at hseq
    obtain ⟨a, ha, rfl⟩ := hseq
    have hz : (d.seqs.zip seqs).lookup v = some a := lookup_of_mem (by rw [List.map_fst_zip h.count.ge]; exact hnd.1)
      (List.mem_of_getElem? (i := i) (by rw [List.getElem?_zip_eq_some]; exact ⟨hv, ha⟩))
    obtain ⟨m, hm, hsm⟩ := h.long a (List.mem_of_getElem? ha)
    rw [Function.update_of_ne hne]
    simp only [ScanDist.envAt, lookup_swap_none hnt, hz, hlen]
    have e : d.lag + s - d.lag = s := by omega
    have hsm' : s < m := by omega
    simp [vecList, hm, e, hsm']
  · have hv1' : v ∉ d.seqs := hv1
    have hv2' := hv2 d.io (by simp)
    rw [List.mem_cons, not_or] at hv2'
    have hz : (d.seqs.zip seqs).lookup v = none := lookup_none (by rw [List.map_fst_zip h.count.ge]; exact hv1')
    rw [Function.update_of_ne hv2'.1]
    simp only [ScanDist.envAt, lookup_swap_none hv2'.2, hz, ScanDist.base]
    rfl

/-- The terms of a scan. -/
theorem scanKernel_dens (hp : d.Proper) (hsym : Symmetric (d.out.taps.map Prod.fst) d.lag) {p : List (Arr FVal)} {init : List ℝ} {seqs vals : List (Arr FVal)}
    (h : ScanParams d p init seqs vals) {mem : List FVal} (hmem : mem.length = d.lag + d.steps) (x : Fin (entries [d.steps]) → ℝ) :
    dens (arrayJoint (scanKernel mem d (numbers [d.steps] x) p)) = seriesDens (fun h x => dens (d.lp (.fin x) (d.envAt seqs vals h))) _ init x := by
  obtain ⟨hw, hsp⟩ := wholeSeries_eq hp h hmem x
  set ser := init ++ List.ofFn x with hser
  have hlen : ser.length = d.lag + d.steps := by simp [hser, h.start, entries_vector]
  set env : ℕ → ι → FVal := fun s => Function.update (d.envAt seqs vals (ser.take (d.lag + s))) d.io (.fin (ser.getD (d.lag + s) 0)) with henv
  have hterms := C82_terms_partial (scanArgs_consistent hp (seqs := seqs.map vecList) (by rw [List.length_map, h.count])) (taps := fun _ => d.out.taps) (lag := fun _ => d.lag)
    (outs := [(d.io, d.new, ser.map FVal.fin)]) (n := d.steps) (by simp) (fun o ho => by obtain rfl := List.mem_singleton.1 ho; exact scanArgs_hasTaps _)
    (fun _ _ => hp.lags) (fun _ _ => hsym) (fun o ho => by obtain rfl := List.mem_singleton.1 ho; rw [List.length_map]; exact hlen)
    (fun seq hseq => by
      obtain ⟨a, ha, rfl⟩ := List.mem_map.1 hseq
      obtain ⟨m, hm, hsm⟩ := h.long a ha
      simpa [vecList, hm] using hsm)
    (by simpa [ScanDist.scanArgs] using hp.names) (d.base vals) (fun _ => d.lp)
    (fun o ho y e e' he => by
      obtain rfl := List.mem_singleton.1 ho
      refine hp.lp y e e' fun v _ hv => he v (by simpa using hv))
    (fun _ => ser.map .fin) (fun o ho => by obtain rfl := List.mem_singleton.1 ho; rfl) env
    (fun s hs => envAt_isStepEnv hp h hlen hs)
  have hk : scanKernel mem d (numbers [d.steps] x) p = (do
      let rows ← (List.range d.steps).mapM fun s => [(d.io, d.new, ser.map FVal.fin)].mapM fun o => d.lp (env s o.1) (env s)
      .ok ⟨[rows.length], fun c => (rows.getD (c.headD 0) []).getD 0 .nan⟩) := by
    rw [← hterms]
    simp only [scanKernel, hw, hsp, bind, Except.bind]
  rw [hk, dens_terms (fun s (o : ι × ι × List FVal) => d.lp (env s o.1) (env s)), seriesDens, ← List.prod_ofFn]
  congr 1
  apply List.ext_getElem
  · simp [entries_vector]
  · intro i h1 h2
    simp at h1 h2
    have h3 : d.lag + i < ser.length := by omega
    have e1 : env i d.io = .fin (x ⟨i, h2⟩) := by
      rw [henv]
      simp only [Function.update_self]
      have : ser.getD (d.lag + i) 0 = x ⟨i, h2⟩ := by
        rw [hser, ← h.start, List.getD_append_right _ _ _ _ (by omega)]
        simp [h2]
      rw [this]
    have e2 : d.lp (.fin (x ⟨i, h2⟩)) (env i) = d.lp (.fin (x ⟨i, h2⟩)) (d.envAt seqs vals (init ++ (List.ofFn x).take i)) := by
      refine hp.lp _ _ _ fun v hv _ => ?_
      rw [henv]
      simp only [Function.update_of_ne hv]
      rw [hser, ← h.start, List.take_length_add_append]
    simp only [List.getElem_map, List.getElem_range, List.getElem_ofFn]
    rw [e1, e2]

/-- **C109** A scan with one random output, with symmetric lags (or one lag, or none), as a variable of a model: `exp` of the sum of its terms is the density of the series drawn step by step, starting
from the initial values, where each entry is drawn from its law given the earlier entries, the entries of the sequences and the non-sequences.  Whatever is in the memory of `at.empty`. -/
theorem C109_scan (hp : d.Proper) (hsym : Symmetric (d.out.taps.map Prod.fst) d.lag) {p : List (Arr FVal)} {init : List ℝ} {seqs vals : List (Arr FVal)} (h : ScanParams d p init seqs vals)
    {mem : List FVal} (hmem : mem.length = d.lag + d.steps) (law : (ι → FVal) → Measure ℝ) (ref : Measure ℝ) [SigmaFinite ref]
    (hvalid : SeriesValid d.lp law ref (d.envAt seqs vals) d.steps init)
    (hmeas : ∀ k, k < d.steps → Measurable fun x : Fin (entries [d.steps]) → ℝ => dens (d.lp (.fin ((List.ofFn x).getD k 0)) (d.envAt seqs vals (init ++ (List.ofFn x).take k)))) :
    GoodAt (numbers [d.steps]) (scanKernel mem d) (seriesLaw (fun h => law (d.envAt seqs vals h)) (entries [d.steps]) init) (Measure.pi fun _ => ref) p := by
  have hm : ∀ k : Fin (entries [d.steps]), Measurable fun x : Fin (entries [d.steps]) → ℝ => dens (d.lp (.fin (x k)) (d.envAt seqs vals (init ++ (List.ofFn x).take k))) := fun k => by
    have := hmeas k (k.2.trans_eq (entries_vector _))
    simpa using this
  obtain ⟨h1, h2⟩ := seriesLaw_eq d.lp law ref (d.envAt seqs vals) (entries [d.steps]) init (by rw [entries_vector]; exact hvalid) hm
  have e : (fun x => dens (arrayJoint (scanKernel mem d (numbers [d.steps] x) p))) = seriesDens (fun h x => dens (d.lp (.fin x) (d.envAt seqs vals h))) _ init :=
    funext fun x => scanKernel_dens hp hsym h hmem x
  exact ⟨h1, by rw [e]; exact (seriesDens_measurable hm).aemeasurable, by rw [e]; exact h2⟩

/-! ## Models with scans -/

section
variable {Di : Type} {seen : Di → Option (Arr FVal → Arr FVal → Arr FVal)}

theorem replaceScan_eq {vals : Dict ℕ ℕ} : ∀ {e : Expr Di}, User e → ¬ UsesScan seen e → (∀ id, Mentions id e → id ∈ Dict.keys vals) → replaceScan seen vals e = replaceValued vals e
  | .const _, _, _, _ => rfl
  | .inp _, _, _, _ => rfl
  | .app n f args, hu, h, hm => by
    simp only [replaceScan, replaceValued]
    congr 1
    funext i
    exact replaceScan_eq (hu i) (fun hi => h ⟨i, hi⟩) fun id hid => hm id ⟨i, hid⟩
  | .rv id dist n args, _, h, hm => by
    have hs : seen dist = none := by simpa [UsesScan] using h
    obtain ⟨v, hv⟩ := Dict.get?_isSome.2 (hm id rfl)
    simp only [replaceScan, replaceValued, hv, hs]

variable {X : ℕ → Type} [∀ i, MeasurableSpace (X i)]

/-- **C109** (models) For a model with scans in which no variable depends on a recurrent scan, `exp` of the joint log-probability is the joint density, as in C106.
Missing: variables that depend on a recurrent scan, for which it is false (`C109_used_wrong`, `C109_sequence_wrong`). -/
theorem C109_joint_density_partial (arr : ∀ i, X i → Arr FVal) (kernel : Di → Arr FVal → List (Arr FVal) → Except Err (Arr FVal)) (law : ∀ i, Di → List (Arr FVal) → Measure (X i))
    (ref : ∀ i, Measure (X i)) (ρ : ℕ → Arr FVal) (ω : ℕ → Di → List (Arr FVal) → Arr FVal) {l : List (ℕ × RVDef Di)} (hne : l ≠ []) (hord : DependencyOrder l)
    (huser : ∀ p ∈ l, ∀ i, User (p.2.args i)) (huses : ∀ p ∈ l, ∀ i, ¬ UsesScan seen (p.2.args i)) {rvs clones : List ℕ} {realized : Dict ℕ ℕ} (hc : clones.length = rvs.length)
    (hall : ∀ v, v ∈ l.map Prod.fst ↔ v ∈ rvs ∨ v ∈ Dict.keys realized) (hclosed : ∀ p ∈ l, ∀ i id, Mentions id (p.2.args i) → id ∈ l.map Prod.fst)
    (env : (∀ i, X i) → ℕ → Arr FVal) (henv : ∀ σ v x, Dict.get? (rvValues rvs clones realized) v = some x → env σ x = arr v (σ v))
    (hfresh : ∀ σ, ∀ p ∈ l, params (asg arr σ) (env σ) p.2 = params (asg arr σ) ρ p.2) :
    ∃ j vvs, jointScan seen (Dict.get? l) rvs clones realized = .ok (some (j, vvs)) ∧
      (∀ x, x ∈ vvs ↔ ∃ v, v ∉ Dict.keys realized ∧ Dict.get? (rvValues rvs clones realized) v = some x) ∧
      ∀ (σ₀ : ∀ i, X i), Valid arr kernel law ref ρ l σ₀ → ∀ φ : (∀ i, X i) → ENNReal,
        refE ref l σ₀ (fun σ => dens (evalJoint kernel (env σ) ω j) * φ σ) = sampleE arr law ρ l σ₀ φ := by
  have hb : backendScan seen (Dict.get? l) (rvValues rvs clones realized) = backend (Dict.get? l) (rvValues rvs clones realized) := by
    have hl : (fun n vs => match Dict.get? l n, vs with
        | some r, [v] => .ok [⟨r.dist, cleanup (.inp v), r.n, fun i => cleanup (replaceScan seen (rvValues rvs clones realized) (r.args i))⟩]
        | _, _ => .error .notImplemented : ℕ → List ℕ → Except Err (List (Term Di))) = fun n vs => match Dict.get? l n, vs with
        | some r, [v] => .ok [⟨r.dist, cleanup (.inp v), r.n, fun i => cleanup (replaceValued (rvValues rvs clones realized) (r.args i))⟩]
        | _, _ => .error .notImplemented := by
      funext n vs
      rcases hr : Dict.get? l n with _ | r
      · rfl
      · have hmem := Dict.mem_of_get? hr
        have e : (fun i => cleanup (replaceScan seen (rvValues rvs clones realized) (r.args i))) = fun i => cleanup (replaceValued (rvValues rvs clones realized) (r.args i)) := by
          funext i
          rw [replaceScan_eq (huser _ hmem i) (huses _ hmem i) fun id hid => ?_]
          rw [rvValues, Dict.mem_keys_update, Dict.mem_keys_ofList, List.map_fst_zip hc.ge, ← hall]
          exact hclosed _ hmem i id hid
        rcases vs with _ | ⟨v, _ | ⟨w, vs⟩⟩
        · rfl
        · show Except.ok [_] = Except.ok [_]
          rw [e]
        · rfl
    simp only [backendScan, backend]
    congr 1
  rw [jointScan, hb]
  exact C106_joint_density arr kernel law ref ρ ω hne hord huser hc hall hclosed env henv hfresh

end

/-- Variable 0 is a recurrent scan with initial values `a`; variable 1 has it as its only parameter. -/
def usedModel {Di : Type} (dx dy : Di) (a : Arr FVal) : List (ℕ × RVDef Di) :=
  [(0, ⟨dx, 1, fun _ => .const a⟩), (1, ⟨dy, 1, fun _ => .rv 0 dx 1 fun _ => .const a⟩)]

theorem bshape_vectors_none {m n : ℕ} (hm : m ≠ 1) (hn : n ≠ 1) (hmn : m ≠ n) : bshape [[m], [n]] = none := by
  rcases h : bshape [[m], [n]] with _ | s
  · rfl
  obtain ⟨h1, h2⟩ := bshape_some.1 h
  simp only [maxDims, List.map_cons, List.map_nil, List.foldr_cons, List.foldr_nil, List.length_cons, List.length_nil] at h1 h2
  have := (h2 0 (by rw [h1]; decide)).1
  simp [padded] at this
  omega

theorem seen_eq {Di : Type} {d : ScanDist ι} {dx : Di} {mem : List FVal} {seen : Di → Option (Arr FVal → Arr FVal → Arr FVal)} (hx : seen dx = d.seen mem) (hp : d.Proper) {a : Arr FVal} {init : List ℝ}
    (hout : d.out ≠ .nit) (h : ScanParams d [a] init [] []) (hmem : mem.length = d.lag + d.steps) (x : Fin (entries [d.steps]) → ℝ) :
    ∃ f, seen dx = some f ∧ f a (numbers [d.steps] x) = ⟨[d.lag + d.steps], fun c => ((init ++ List.ofFn x).map FVal.fin).getD (c.headD 0) .nan⟩ := by
  obtain ⟨hw, -⟩ := wholeSeries_eq hp h hmem x
  have hs : (d.split [a]).1 = some a := by
    rcases e : d.out with taps | inp | _
    · simp [ScanDist.split, e]
    · simp [ScanDist.split, e]
    · exact absurd e hout
  rw [hs] at hw
  rw [hx, ScanDist.seen]
  rcases e : d.out with taps | inp | _
  · refine ⟨_, rfl, ?_⟩
    simp only [hw]
    simp [h.start, entries_vector]
  · refine ⟨_, rfl, ?_⟩
    simp only [hw]
    simp [h.start, entries_vector]
  · exact absurd e hout

/-- What the joint log-probability of such a model is: the second term is evaluated at the initial values followed by the user's value. -/
theorem used_joint {Di : Type} {d : ScanDist ι} {dx dy : Di} {mem : List FVal} {seen : Di → Option (Arr FVal → Arr FVal → Arr FVal)} {kernel : Di → Arr FVal → List (Arr FVal) → Except Err (Arr FVal)}
    (hx : seen dx = d.seen mem) (hp : d.Proper) (hout : d.out ≠ .nit) {a : Arr FVal} {init : List ℝ} (h : ScanParams d [a] init [] []) (hmem : mem.length = d.lag + d.steps) :
    ∃ j vvs, jointScan seen (Dict.get? (usedModel dx dy a)) [0, 1] [10, 11] [] = .ok (some (j, vvs)) ∧
      ∀ (ρ : ℕ → Arr FVal) (ω : ℕ → Di → List (Arr FVal) → Arr FVal) (x : Fin (entries [d.steps]) → ℝ), ρ 10 = numbers [d.steps] x →
        evalJoint kernel ρ ω j = Graph.sumE [arrayJoint (kernel dx (ρ 10) [a]),
          arrayJoint (kernel dy (ρ 11) [⟨[d.lag + d.steps], fun c => ((init ++ List.ofFn x).map FVal.fin).getD (c.headD 0) .nan⟩])] := by
  refine ⟨_, _, rfl, fun ρ ω x hρ => ?_⟩
  obtain ⟨f, hf, hfe⟩ := seen_eq hx hp hout h hmem x
  have e2 : eval ρ ω (cleanup (replaceScan seen [(0, 10), (1, 11)] (.rv 0 dx 1 fun _ => .const a))) = ⟨[d.lag + d.steps], fun c => ((init ++ List.ofFn x).map FVal.fin).getD (c.headD 0) .nan⟩ := by
    have : replaceScan seen [(0, 10), (1, 11)] (.rv 0 dx 1 fun _ => .const a) =
        .valued (.rv 0 dx 1 fun _ => .const a) (.app 2 (fun b => f (b 0) (b 1)) fun i => if i = 0 then .const a else .inp 10) := by
      simp only [replaceScan, hf, Dict.get?]
      rfl
    rw [this, ← hfe, ← hρ]
    rfl
  show Graph.sumE [arrayJoint (kernel dx (ρ 10) [a]), arrayJoint (kernel dy (ρ 11) [eval ρ ω (cleanup (replaceScan seen [(0, 10), (1, 11)] (.rv 0 dx 1 fun _ => .const a)))])] = _
  rw [e2]

/-- **C109** (refuted part) A variable with one term for each of the two or more entries of a recurrent scan, `y = normal(x[1:], 1)`, has no joint log-probability: the value of `x[1:]` is replaced by one with the
initial values before it, which does not broadcast with the value of `y`. -/
theorem C109_used_wrong {Di : Type} {d : ScanDist ι} {dx dy : Di} {mem : List FVal} {seen : Di → Option (Arr FVal → Arr FVal → Arr FVal)}
    {kernel : Di → Arr FVal → List (Arr FVal) → Except Err (Arr FVal)} {k : FVal → List FVal → Except Err FVal} (hx : seen dx = d.seen mem) (hy : kernel dy = elemwiseLogprob k) (hp : d.Proper)
    (hout : d.out ≠ .nit) (hlag : 1 ≤ d.lag) (hsteps : 2 ≤ d.steps) {a : Arr FVal} {init : List ℝ} (h : ScanParams d [a] init [] []) (hmem : mem.length = d.lag + d.steps) :
    ∃ j vvs, jointScan seen (Dict.get? (usedModel dx dy a)) [0, 1] [10, 11] [] = .ok (some (j, vvs)) ∧
      ∀ (ρ : ℕ → Arr FVal) (ω : ℕ → Di → List (Arr FVal) → Arr FVal) (x y : Fin (entries [d.steps]) → ℝ), ρ 10 = numbers [d.steps] x → ρ 11 = numbers [d.steps] y →
        ∃ e, evalJoint kernel ρ ω j = .error e := by
  obtain ⟨j, vvs, hj, he⟩ := used_joint (kernel := kernel) (dy := dy) hx hp hout h hmem
  refine ⟨j, vvs, hj, fun ρ ω x y hρx hρy => ?_⟩
  rw [he ρ ω x hρx, hρy, hy]
  have hb : bshape [[d.steps], [d.lag + d.steps]] = none := bshape_vectors_none (by omega) (by omega) (by omega)
  have : ∀ g, elemwiseLogprob k (numbers [d.steps] y) [⟨[d.lag + d.steps], g⟩] = .error .valueError := fun g => by
    simp only [elemwiseLogprob, List.map_cons, List.map_nil, numbers, hb]
  rw [this]
  rcases arrayJoint (kernel dx (ρ 10) [a]) with e | t
  · exact ⟨e, rfl⟩
  · exact ⟨_, rfl⟩

/-- **C109** (refuted part) A scan with a recurrent scan as its sequence, `y_t ~ N(x_t, 1)`: at each step it reads the entry of `x` that is `lag` steps earlier, the initial values first.
So `exp` of the joint log-probability is the density of another model. -/
theorem C109_sequence_wrong {Di : Type} {d d' : ScanDist ι} {dx dy : Di} {mem mem' : List FVal} {seen : Di → Option (Arr FVal → Arr FVal → Arr FVal)}
    {kernel : Di → Arr FVal → List (Arr FVal) → Except Err (Arr FVal)} (hx : seen dx = d.seen mem) (hkx : kernel dx = scanKernel mem d) (hky : kernel dy = scanKernel mem' d') (hp : d.Proper)
    (hsym : Symmetric (d.out.taps.map Prod.fst) d.lag) (hp' : d'.Proper) (hout : d.out ≠ .nit) (hout' : d'.out = .nit) {s : ι} (hs : d'.seqs = [s]) (hsteps : d'.steps = d.steps)
    {a : Arr FVal} {init : List ℝ} (h : ScanParams d [a] init [] []) (hmem : mem.length = d.lag + d.steps) (hmem' : mem'.length = d'.lag + d'.steps) :
    ∃ j vvs, jointScan seen (Dict.get? (usedModel dx dy a)) [0, 1] [10, 11] [] = .ok (some (j, vvs)) ∧
      ∀ (ρ : ℕ → Arr FVal) (ω : ℕ → Di → List (Arr FVal) → Arr FVal) (x : Fin (entries [d.steps]) → ℝ) (y : Fin (entries [d'.steps]) → ℝ), ρ 10 = numbers [d.steps] x → ρ 11 = numbers [d'.steps] y →
        dens (evalJoint kernel ρ ω j) = (∏ i, dens (d.lp (.fin (x i)) (d.envAt [] [] (init ++ (List.ofFn x).take i)))) *
          ∏ i, dens (d'.lp (.fin (y i)) fun v => if v = s then .fin ((init ++ List.ofFn x).getD i 0) else .nan) := by
  obtain ⟨j, vvs, hj, he⟩ := used_joint (kernel := kernel) (dy := dy) hx hp hout h hmem
  refine ⟨j, vvs, hj, fun ρ ω x y hρx hρy => ?_⟩
  have hlag' : d'.lag = 0 := by
    rcases hp'.lags.max with hm | ⟨-, hm⟩
    · rw [hout'] at hm; simp [ScanOut.taps] at hm
    · exact hm
  set seq : Arr FVal := ⟨[d.lag + d.steps], fun c => ((init ++ List.ofFn x).map FVal.fin).getD (c.headD 0) .nan⟩ with hseq
  have h' : ScanParams d' [seq] [] [seq] [] := ⟨by simp [hlag'], .inl ⟨hout', rfl⟩, by simp [hs], by simp [hseq, hsteps]⟩
  rw [he ρ ω x hρx, hρx, hρy, hkx, hky, Graph.dens_sumE]
  simp only [List.map_cons, List.map_nil, List.prod_cons, List.prod_nil, mul_one]
  rw [scanKernel_dens hp hsym h hmem x, scanKernel_dens hp' (by rw [hout']; exact symmetric_all fun t => by simp [ScanOut.taps]; omega) h' hmem' y]
  congr 1
  refine Finset.prod_congr rfl fun i _ => ?_
  show dens (d'.lp (.fin (y i)) (d'.envAt [seq] [] ([] ++ (List.ofFn y).take i))) = _
  congr 2
  funext v
  have hi : (i : ℕ) < d.steps := i.2.trans_eq (by rw [entries_vector, hsteps])
  have hlen : ([] ++ (List.ofFn y).take i).length = (i : ℕ) := by simp [i.2.le]
  simp only [ScanDist.envAt, hout', ScanOut.taps, List.map_nil, List.lookup_nil, hs, hlen, hlag', Nat.sub_zero, List.zip_cons_cons, List.zip_nil_right, List.lookup_cons]
  by_cases hv : v = s
  · subst hv
    simp only [BEq.rfl, if_true, hseq, List.headD_cons]
    rw [List.getD_eq_getElem _ _ (by simp [h.start, entries_vector]; omega), List.getD_eq_getElem _ _ (by simp [h.start, entries_vector]; omega), List.getElem_map]
  · simp [hv, beq_eq_false_iff_ne.2 hv]


end Verif.ArrGraph
