import Verif.Spec.SameSeries
import Verif.Props.ArrScan
import Verif.Props.ValueShape
import Verif.Lemmas.FVal

/-! # Lemmas for C140: the same series of random numbers, written in different ways -/

namespace Verif.ArrGraph
open Verif FVal

theorem isTerms_congr {n : ℕ} {f g : ℕ → Except Err FVal} (h : ∀ i < n, f i = g i) {r : Except Err (Arr FVal)} (hr : IsTerms n f r) : IsTerms n g r := by
  rcases r with e | a
  · obtain ⟨i, hi, h1, h2⟩ := hr
    exact ⟨i, hi, by rw [← h i hi, h1], fun j hj => by rw [← h j (hj.trans hi)]; exact h2 j hj⟩
  · exact ⟨hr.1, fun i hi => by rw [← h i hi]; exact hr.2 i hi⟩

theorem isTerms_same {n : ℕ} {f : ℕ → Except Err FVal} {r r' : Except Err (Arr FVal)} (h : IsTerms n f r) (h' : IsTerms n f r') : SameResult r r' := by
  rcases r with e | a <;> rcases r' with e' | a'
  · obtain ⟨i, hi, h1, h2⟩ := h
    obtain ⟨j, hj, h3, h4⟩ := h'
    rcases lt_trichotomy i j with hij | rfl | hij
    · obtain ⟨x, hx⟩ := h4 i hij
      rw [hx] at h1; cases h1
    · rw [h3] at h1
      cases h1
      exact .inl ⟨e, rfl, rfl⟩
    · obtain ⟨x, hx⟩ := h2 j hij
      rw [hx] at h3; cases h3
  · obtain ⟨i, hi, h1, -⟩ := h
    rw [h'.2 i hi] at h1; cases h1
  · obtain ⟨i, hi, h1, -⟩ := h'
    rw [h.2 i hi] at h1; cases h1
  · refine .inr ⟨a, a', rfl, rfl, h.1.trans h'.1.symm, fun c hc => ?_⟩
    rw [h.1] at hc
    obtain ⟨i, hi, rfl⟩ : ∃ i, i < n ∧ c = [i] := by
      rcases hc with _ | ⟨h1, h2⟩
      cases h2
      exact ⟨_, h1, rfl⟩
    have := h.2 i hi
    rw [h'.2 i hi] at this
    exact (Except.ok.inj this).symm

theorem isTerms_mapM {n : ℕ} {f : ℕ → Except Err FVal} {g : List FVal → Arr FVal}
    (hg : ∀ l, l.length = n → (g l).shape = [n] ∧ ∀ i (h : i < l.length), (g l).get [i] = l[i]) : IsTerms n f (((List.range n).mapM f).map g) := by
  have key : ∀ (l : List ℕ), match l.mapM f with
      | .ok ys => List.Forall₂ (fun i y => f i = .ok y) l ys
      | .error e => ∃ k, ∃ h : k < l.length, f l[k] = .error e ∧ ∀ j (hj : j < k), ∃ x, f (l[j]'(hj.trans h)) = .ok x := by
    intro l
    induction l with
    | nil => exact List.Forall₂.nil
    | cons a l ih =>
      rw [List.mapM_cons]
      rcases ha : f a with e | y
      · exact ⟨0, by simp, ha, fun j hj => absurd hj (by omega)⟩
      · rcases hl : l.mapM f with e | ys
        · rw [hl] at ih
          obtain ⟨k, hk, h1, h2⟩ := ih
          refine ⟨k + 1, by simpa using hk, by simpa using h1, fun j hj => ?_⟩
          rcases j with _ | j
          · exact ⟨y, ha⟩
          · obtain ⟨x, hx⟩ := h2 j (by omega)
            exact ⟨x, by simpa using hx⟩
        · rw [hl] at ih
          exact List.Forall₂.cons ha ih
  have := key (List.range n)
  rcases hm : (List.range n).mapM f with e | ys
  · rw [hm] at this
    obtain ⟨k, hk, h1, h2⟩ := this
    simp only [List.length_range] at hk
    exact ⟨k, hk, by simpa using h1, fun j hj => by simpa using h2 j hj⟩
  · rw [hm] at this
    obtain ⟨hl, hf⟩ := List.forall₂_iff_get.1 this
    rw [List.length_range] at hl
    obtain ⟨g1, g2⟩ := hg ys hl.symm
    refine ⟨g1, fun i hi => ?_⟩
    have := hf i (by simpa using hi) (by omega)
    simp only [List.get_eq_getElem, List.getElem_range] at this
    rw [this, g2 i (by omega)]

/-! ## Arrays -/

theorem bshape_columns (n : ℕ) (P : List (ℕ → FVal)) : bshape ([n] :: (P.map (column n)).map Arr.shape) = some [n] := by
  rw [bshape_cons_iff]
  intro t ht
  simp only [List.map_map, List.mem_map] at ht
  obtain ⟨p, -, rfl⟩ := ht
  refine ⟨le_rfl, fun d hd => ?_⟩
  right
  simp [column] at hd ⊢
  subst hd
  simp [padded]

theorem project_one {n i : ℕ} (hi : i < n) : project [i] [n] = [i] := project_self (List.Forall₂.cons hi List.Forall₂.nil)

theorem column_entry {n i : ℕ} (hi : i < n) (f : ℕ → FVal) : entryAt (column n f) [i] = f i := by
  simp only [entryAt, column]
  rw [project_one hi]
  rfl

theorem mapM_map {α β γ : Type} (f : β → Except Err γ) (g : α → β) (l : List α) : (l.map g).mapM f = l.mapM fun a => f (g a) := by
  induction l with
  | nil => rfl
  | cons a l ih => simp only [List.map_cons, List.mapM_cons, ih]

theorem elemwise_terms_fit {n : ℕ} {v : Arr FVal} (hv : v.shape = [n]) (k : FVal → List FVal → Except Err FVal) {ps : List (Arr FVal)} (hb : bshape ([n] :: ps.map Arr.shape) = some [n]) :
    IsTerms n (fun i => k (v.get [i]) (ps.map fun a => entryAt a [i])) (elemwiseLogprob k v ps) := by
  simp only [elemwiseLogprob, hv, hb, allCoords_vector, mapM_map]
  have he : ∀ i < n, entryLogprob k v ps [i] = k (v.get [i]) (ps.map fun a => entryAt a [i]) := fun i hi => by
    simp only [entryLogprob]
    congr 1
    simp only [entryAt, hv, project_one hi]
  refine isTerms_congr he ?_
  have h1 := isTerms_mapM (n := n) (f := fun i => entryLogprob k v ps [i]) (g := fun l => ⟨[n], fun c => l.getD (c.headD 0) .nan⟩)
    (fun l hl => ⟨rfl, fun i hi => by simp [hi]⟩)
  rcases hm : (List.range n).mapM fun i => entryLogprob k v ps [i] with e | ys
  · rw [hm] at h1
    exact h1
  · rw [hm] at h1
    refine ⟨rfl, fun i hi => ?_⟩
    have := h1.2 i hi
    simp only [this]

theorem elemwise_terms {n : ℕ} {v : Arr FVal} (hv : v.shape = [n]) (k : FVal → List FVal → Except Err FVal) (P : List (ℕ → FVal)) :
    IsTerms n (fun i => k (v.get [i]) (P.map fun p => p i)) (elemwiseLogprob k v (P.map (column n))) := by
  refine isTerms_congr (fun i hi => ?_) (elemwise_terms_fit hv k (bshape_columns n P))
  rw [List.map_map]
  congr 1
  exact List.map_congr_left fun p _ => column_entry hi p

/-! ## Stacks -/

theorem makeVector_terms (lps : List (Arr FVal → Except Err (Arr FVal))) (vals : List (Arr FVal)) : ∀ off, off + lps.length ≤ vals.length →
    makeVectorLogprob off vals lps = (List.range lps.length).mapM fun i => match lps[i]?, vals[off + i]? with
      | some lp, some v => lp v
      | _, _ => .error .indexError := by
  induction lps with
  | nil => intro off _; rfl
  | cons lp lps ih =>
    intro off h
    simp only [List.length_cons] at h
    have h1 : off < vals.length := by omega
    rw [makeVectorLogprob, List.length_cons, List.range_succ_eq_map, List.mapM_cons, mapM_map, ih (off + 1) (by omega)]
    simp only [List.getElem?_cons_zero, List.getElem?_cons_succ, Nat.add_zero, List.getElem?_eq_getElem h1]
    rcases lp vals[off] with e | x
    · rfl
    · simp only [Nat.succ_eq_add_one, Nat.add_assoc, Nat.add_comm 1]
      cases ((List.range lps.length).mapM fun i => match lps[i]?, vals[off + (i + 1)]? with
        | some lp, some v => lp v
        | _, _ => .error .indexError) <;> rfl

theorem stackComps_eq (kernel : (FVal → List FVal → Except Err FVal) → Arr FVal → List (Arr FVal) → Except Err (Arr FVal)) (k : FVal → List FVal → Except Err FVal) (P : List (ℕ → FVal)) (l : List ℕ) :
    stackComps kernel (List.replicate l.length (k, P.length)) (l.flatMap fun i => P.map fun p => scalar (p i)) = l.map fun i x => kernel k x (P.map fun p => scalar (p i)) := by
  induction l with
  | nil => rfl
  | cons i l ih =>
    rw [List.length_cons, List.replicate_succ, stackComps, List.flatMap_cons, List.map_cons]
    have h1 : ((P.map fun p => scalar (p i)) ++ l.flatMap fun i => P.map fun p => scalar (p i)).take P.length = P.map fun p => scalar (p i) :=
      List.take_left' (by simp)
    have h2 : ((P.map fun p => scalar (p i)) ++ l.flatMap fun i => P.map fun p => scalar (p i)).drop P.length = l.flatMap fun i => P.map fun p => scalar (p i) :=
      List.drop_left' (by simp)
    rw [h1, h2, ih]

theorem elemwise_scalar (k : FVal → List FVal → Except Err FVal) {v : Arr FVal} (hv : v.shape = []) (ps : List FVal) :
    elemwiseLogprob k v (ps.map scalar) = match k (v.get []) ps with
      | .ok x => .ok ⟨[], fun c => match entryLogprob k v (ps.map scalar) c with | .ok x => x | .error _ => .nan⟩
      | .error e => .error e := by
  have hb : bshape ([] :: (ps.map scalar).map Arr.shape) = some [] := by
    rw [bshape_cons_iff]
    intro t ht
    simp only [List.map_map, List.mem_map] at ht
    obtain ⟨p, -, rfl⟩ := ht
    exact ⟨le_rfl, fun d hd => absurd hd (by simp [scalar])⟩
  have he : entryLogprob k v (ps.map scalar) [] = k (v.get []) ps := by
    simp only [entryLogprob, List.map_map, entryAt, hv]
    congr 1
    · simp [Function.comp_def, scalar]
  simp only [elemwiseLogprob, hv, hb, allCoords, List.mapM_cons, List.mapM_nil, he]
  rcases k (v.get []) ps with e | x <;> rfl

theorem elemwise_scalar_get (k : FVal → List FVal → Except Err FVal) {v : Arr FVal} (hv : v.shape = []) (ps : List FVal) :
    (elemwiseLogprob k v (ps.map scalar)).map (fun a => a.get []) = k (v.get []) ps := by
  rw [elemwise_scalar k hv]
  have he : entryLogprob k v (ps.map scalar) [] = k (v.get []) ps := by
    simp only [entryLogprob, List.map_map, entryAt, hv]
    congr 1
    · simp [Function.comp_def, scalar]
  rcases hk : k (v.get []) ps with e | x
  · rfl
  · simp only [Except.map, he, hk]

theorem mapM_map_ok {α β γ : Type} (f : α → Except Err β) (g : β → γ) (l : List α) : (l.mapM f).map (List.map g) = l.mapM fun a => (f a).map g := by
  induction l with
  | nil => rfl
  | cons a l ih =>
    rw [List.mapM_cons, List.mapM_cons, ← ih]
    rcases f a with e | x
    · rfl
    · rcases l.mapM f with e | xs <;> rfl

theorem mapM_congr_range {n : ℕ} {β : Type} {f g : ℕ → Except Err β} (h : ∀ i < n, f i = g i) : (List.range n).mapM f = (List.range n).mapM g := by
  have : ∀ l : List ℕ, (∀ i ∈ l, f i = g i) → l.mapM f = l.mapM g := fun l => by
    induction l with
    | nil => intro _; rfl
    | cons a l ih => intro hl; rw [List.mapM_cons, List.mapM_cons, hl a (by simp), ih fun i hi => hl i (by simp [hi])]
  exact this _ fun i hi => h i (List.mem_range.1 hi)

theorem stack_terms {n : ℕ} {v : Arr FVal} (hv : v.shape = [n]) (k : FVal → List FVal → Except Err FVal) (P : List (ℕ → FVal)) :
    IsTerms n (fun i => k (v.get [i]) (P.map fun p => p i)) (stackLogprob (stackComps elemwiseLogprob (List.replicate n (k, P.length)) (oneByOne n P)) v) := by
  have hc := stackComps_eq elemwiseLogprob k P (List.range n)
  rw [List.length_range] at hc
  have hvi : (vectorItems v).length = n := by simp [vectorItems, Arr.size, hv]
  rw [oneByOne, hc, stackLogprob, makeVector_terms _ _ 0 (by simp [hvi])]
  have h1 := isTerms_mapM (n := n) (f := fun i => k (v.get [i]) (P.map fun p => p i)) (g := fun l => ⟨[n], fun c => l.getD (c.headD 0) .nan⟩)
    (fun l hl => ⟨rfl, fun i hi => by simp [hi]⟩)
  have e1 : ((List.range n).mapM fun i => elemwiseLogprob k ⟨[], fun c => v.get (i :: c)⟩ (P.map fun p => scalar (p i))).map (List.map fun a => a.get []) =
      (List.range n).mapM fun i => k (v.get [i]) (P.map fun p => p i) := by
    rw [mapM_map_ok]
    refine mapM_congr_range fun i _ => ?_
    have := elemwise_scalar_get k (v := ⟨[], fun c => v.get (i :: c)⟩) rfl (P.map fun p => p i)
    rw [List.map_map] at this
    exact this
  have e2 : ((List.range (List.map (fun i x => elemwiseLogprob k x (P.map fun p => scalar (p i))) (List.range n)).length).mapM fun i =>
      match (List.map (fun i x => elemwiseLogprob k x (P.map fun p => scalar (p i))) (List.range n))[i]?, (vectorItems v)[0 + i]? with
      | some lp, some v => lp v
      | _, _ => .error .indexError) = (List.range n).mapM fun i => elemwiseLogprob k ⟨[], fun c => v.get (i :: c)⟩ (P.map fun p => scalar (p i)) := by
    rw [List.length_map, List.length_range]
    refine mapM_congr_range fun i hi => ?_
    have h2 : (vectorItems v)[0 + i]? = some ⟨[], fun c => v.get (i :: c)⟩ := by
      simp [vectorItems, Arr.size, hv, hi]
    rw [h2]
    simp [hi]
  rw [e2]
  rw [← e1] at h1
  rcases hm : (List.range n).mapM fun i => elemwiseLogprob k ⟨[], fun c => v.get (i :: c)⟩ (P.map fun p => scalar (p i)) with e | l
  · rw [hm] at h1
    simp only [hm]
    exact h1
  · rw [hm] at h1
    simp only [hm]
    have hl : l.length = n := by
      have hlen : ∀ (f : ℕ → Except Err (Arr FVal)) (m : List ℕ) (ys), m.mapM f = .ok ys → ys.length = m.length := fun f m => by
        induction m with
        | nil => intro ys h; cases h; rfl
        | cons a m ih =>
          intro ys h
          rw [List.mapM_cons] at h
          rcases ha : f a with e | y
          · rw [ha] at h; cases h
          · rcases hm : m.mapM f with e | zs
            · rw [ha, hm] at h; cases h
            · rw [ha, hm] at h
              cases h
              simp [ih _ hm]
      rw [hlen _ _ _ hm, List.length_range]
    refine ⟨by simp [stackScalars, hl], fun i hi => ?_⟩
    have h3 := h1.2 i hi
    have hi' : i < l.length := by omega
    rw [h3]
    simp [stackScalars, hi']

/-! ## Scans -/

section scans
variable {ι : Type} [DecidableEq ι] {d : ScanDist ι}

theorem scanKernel_terms (hp : d.Proper) (hsym : Symmetric (d.out.taps.map Prod.fst) d.lag) {p : List (Arr FVal)} {init : List ℝ} {seqs vals : List (Arr FVal)}
    (h : ScanParams d p init seqs vals) {mem : List FVal} (hmem : mem.length = d.lag + d.steps) (x : Fin (entries [d.steps]) → ℝ) :
    IsTerms d.steps (fun i => d.lp (.fin ((List.ofFn x).getD i 0)) (d.envAt seqs vals (init ++ (List.ofFn x).take i))) (scanKernel mem d (numbers [d.steps] x) p) := by
  obtain ⟨hw, hsp⟩ := wholeSeries_eq hp h hmem x
  set ser := init ++ List.ofFn x with hser
  have hlen : ser.length = d.lag + d.steps := by simp [hser, h.start, entries_vector]
  set env : ℕ → ι → FVal := fun s => Function.update (d.envAt seqs vals (ser.take (d.lag + s))) d.io (.fin (ser.getD (d.lag + s) 0)) with henv
  have hterms := C82_terms_partial (scanArgs_consistent hp (seqs := seqs.map vecList) (by rw [List.length_map, h.count])) (taps := fun _ => d.out.taps) (lag := fun _ => d.lag)
    (outs := [(d.io, d.new, ser.map FVal.fin)]) (n := d.steps) (by simp) (fun o ho => by obtain rfl := List.mem_singleton.1 ho; exact scanArgs_hasTaps _)
    (fun _ _ => hp.lags) (fun _ _ => hsym) (fun o ho => by obtain rfl := List.mem_singleton.1 ho; rw [List.length_map]; exact hlen)
    (fun seq hseq => by
      obtain ⟨a, ha, rfl⟩ := List.mem_map.1 hseq
      obtain ⟨m, hm, hsm⟩ := h.long a ha
      simpa [vecList, hm] using hsm)
    (by simpa [ScanDist.scanArgs] using hp.names) (d.base vals) (fun _ => d.lp)
    (fun o ho y e e' he => by
      obtain rfl := List.mem_singleton.1 ho
      refine hp.lp y e e' fun v _ hv => he v (by simpa using hv))
    (fun _ => ser.map .fin) (fun o ho => by obtain rfl := List.mem_singleton.1 ho; rfl) env
    (fun s hs => envAt_isStepEnv hp h hlen hs)
  have hk : scanKernel mem d (numbers [d.steps] x) p = (do
      let rows ← (List.range d.steps).mapM fun s => [(d.io, d.new, ser.map FVal.fin)].mapM fun o => d.lp (env s o.1) (env s)
      .ok ⟨[rows.length], fun c => (rows.getD (c.headD 0) []).getD 0 .nan⟩) := by
    rw [← hterms]
    simp only [scanKernel, hw, hsp, bind, Except.bind]
  have hf : ∀ i < d.steps, d.lp (env i d.io) (env i) = d.lp (.fin ((List.ofFn x).getD i 0)) (d.envAt seqs vals (init ++ (List.ofFn x).take i)) := fun i hi => by
    have e1 : env i d.io = .fin ((List.ofFn x).getD i 0) := by
      rw [henv]
      simp only [Function.update_self]
      rw [hser, ← h.start, List.getD_append_right _ _ _ _ (by omega)]
      simp
    have e2 : ∀ y, d.lp y (env i) = d.lp y (d.envAt seqs vals (init ++ (List.ofFn x).take i)) := fun y => by
      refine hp.lp _ _ _ fun v hv _ => ?_
      rw [henv]
      simp only [Function.update_of_ne hv]
      rw [hser, ← h.start, List.take_length_add_append]
    rw [e1, e2]
  refine isTerms_congr hf ?_
  rw [hk, mapM_single (fun s (o : ι × ι × List FVal) => d.lp (env s o.1) (env s))]
  have h1 := isTerms_mapM (n := d.steps) (f := fun i => d.lp (env i d.io) (env i)) (g := fun l => ⟨[(l.map fun y => [y]).length], fun c => ((l.map fun y => [y]).getD (c.headD 0) []).getD 0 .nan⟩)
    (fun l hl => ⟨by simp [hl], fun i hi => by simp [hi]⟩)
  rcases hm : (List.range d.steps).mapM fun i => d.lp (env i d.io) (env i) with e | ys
  · rw [hm] at h1
    exact h1
  · rw [hm] at h1
    exact h1

end scans

theorem vecList_column (n : ℕ) (f : ℕ → FVal) : vecList (column n f) = (List.range n).map f := by simp [vecList, column]

theorem scanKernel_vecList {ι : Type} [DecidableEq ι] (mem : List FVal) (d : ScanDist ι) {v v' : Arr FVal} (h : vecList v = vecList v') (p : List (Arr FVal)) :
    scanKernel mem d v p = scanKernel mem d v' p := by
  have : ∀ i, d.wholeSeries mem v i = d.wholeSeries mem v' i := fun i => by
    unfold ScanDist.wholeSeries
    rw [h]
  unfold scanKernel
  simp only [this]

theorem column_numbers (n : ℕ) (x : ℕ → ℝ) : vecList (column n fun i => .fin (x i)) = vecList (numbers [n] fun i => x i) := by
  rw [vecList_column, vecList_numbers]
  apply List.ext_getElem
  · simp [entries_vector]
  · intro i h1 h2
    simp

theorem names_nodup (m : ℕ) (l : List ℕ) (hl : l.Nodup) (h : ∀ i ∈ l, m ≤ i) : (List.range m ++ l).Nodup := by
  rw [List.nodup_append]
  refine ⟨List.nodup_range, hl, fun a ha b hb => ?_⟩
  have := List.mem_range.1 ha
  have := h b hb
  omega

theorem lookup_seq {m : ℕ} {seqs : List (Arr FVal)} (hl : seqs.length = m) {j : ℕ} (hj : j < m) : ((List.range m).zip seqs).lookup j = some (seqs[j]'(hl ▸ hj)) := by
  refine lookup_of_mem (by rw [List.map_fst_zip (by simp [hl])]; exact List.nodup_range) ?_
  refine List.mem_of_getElem? (i := j) ?_
  rw [List.getElem?_zip_eq_some]
  exact ⟨by simp [hj], by rw [List.getElem?_eq_getElem (hl ▸ hj)]⟩

theorem map_range_env {n m : ℕ} {P : List (ℕ → FVal)} (hP : P.length = m) {e : ℕ → FVal} {i : ℕ} (he : ∀ j (h : j < P.length), e j = (P[j]) i) :
    (List.range m).map e = P.map fun p => p i := by
  apply List.ext_getElem
  · simp [hP]
  · intro j h1 h2
    simp at h1 h2
    simp [he j h2]

theorem drawScan_proper (n : ℕ) (k : FVal → List FVal → Except Err FVal) (m : ℕ) : (drawScan n k m).Proper where
  names := names_nodup m _ (by simp [drawScan, ScanOut.taps]) (by simp [drawScan, ScanOut.taps])
  lags := by simp only [drawScan, ScanOut.taps, List.map_nil]; exact ⟨by simp, by simp, by simp, .inr ⟨rfl, rfl⟩⟩
  taps := by intro taps ins h; cases h
  lp x e e' h := by
    simp only [drawScan]
    congr 1
    refine List.map_congr_left fun j hj => h j ?_ ?_ <;> have := List.mem_range.1 hj <;> simp [drawScan] <;> omega

theorem draw_terms (n : ℕ) (k : FVal → List FVal → Except Err FVal) (P : List (ℕ → FVal)) {mem : List FVal} (hmem : mem.length = n) (x : ℕ → ℝ) :
    IsTerms n (fun i => k (.fin (x i)) (P.map fun p => p i)) (scanKernel mem (drawScan n k P.length) (column n fun i => .fin (x i)) (P.map (column n))) := by
  rw [scanKernel_vecList mem _ (column_numbers n x)]
  have hpar : ScanParams (drawScan n k P.length) (P.map (column n)) [] (P.map (column n)) [] :=
    ⟨rfl, .inl ⟨rfl, by simp⟩, by simp [drawScan], fun a ha => by
      obtain ⟨p, -, rfl⟩ := List.mem_map.1 ha
      exact ⟨n, rfl, le_rfl⟩⟩
  have h := scanKernel_terms (drawScan_proper n k P.length) (fun t ht => by simp [drawScan, ScanOut.taps] at ht) hpar (mem := mem) (by simp [drawScan, hmem]) (fun i => x i)
  refine isTerms_congr (fun i hi => ?_) h
  have hi' : i < entries [n] := by rw [entries_vector]; exact hi
  have e1 : (List.ofFn fun i : Fin (entries [(drawScan n k P.length).steps]) => x i).getD i 0 = x i := by simp [drawScan, hi']
  rw [e1]
  simp only [drawScan]
  congr 1
  refine map_range_env (n := n) rfl fun j hj => ?_
  simp only [ScanDist.envAt, ScanOut.taps, List.map_nil, List.lookup_nil]
  rw [lookup_seq (by simp) hj]
  simp [column, hi'.le]

theorem stepScan_proper (n : ℕ) (k : FVal → FVal → List FVal → Except Err FVal) (m : ℕ) : (stepScan n k m).Proper where
  names := names_nodup m _ (by simp [stepScan, ScanOut.taps]) (by simp [stepScan, ScanOut.taps])
  lags := by
    simp only [stepScan, ScanOut.taps, List.map_cons, List.map_nil]
    exact ⟨by simp, by simp, by simp, .inl (by simp)⟩
  taps := by intro taps ins h; cases h
  lp x e e' h := by
    have h0 : e (m + 2) = e' (m + 2) := h _ (by simp [stepScan]) (by simp [stepScan])
    simp only [stepScan, h0]
    congr 1
    refine List.map_congr_left fun j hj => h j ?_ ?_ <;> have := List.mem_range.1 hj <;> simp [stepScan] <;> omega

theorem step_terms (n : ℕ) (k : FVal → FVal → List FVal → Except Err FVal) (P : List (ℕ → FVal)) {mem : List FVal} (hmem : mem.length = 1 + n) (a : ℝ) (x : ℕ → ℝ) :
    IsTerms n (fun i => k (.fin (if i = 0 then a else x (i - 1))) (.fin (x i)) (P.map fun p => p i))
      (scanKernel mem (stepScan n k P.length) (column n fun i => .fin (x i)) (column 1 (fun _ => .fin a) :: P.map (column n))) := by
  rw [scanKernel_vecList mem _ (column_numbers n x)]
  have hpar : ScanParams (stepScan n k P.length) (column 1 (fun _ => .fin a) :: P.map (column n)) [a] (P.map (column n)) [] :=
    ⟨rfl, .inr ⟨by simp [stepScan], column 1 (fun _ => .fin a), by simp, rfl, fun i hi => by
      have : i = 0 := by simpa using hi
      subst this
      rfl⟩, by simp [stepScan], fun a ha => by
      obtain ⟨p, -, rfl⟩ := List.mem_map.1 ha
      exact ⟨n, rfl, le_rfl⟩⟩
  have h := scanKernel_terms (stepScan_proper n k P.length) (fun t ht => by
      right
      simpa [stepScan, ScanOut.taps] using ht) hpar (mem := mem) (by simp [stepScan, hmem]) (fun i => x i)
  refine isTerms_congr (fun i hi => ?_) h
  have hi : i < n := hi
  have hi' : i < entries [n] := by rw [entries_vector]; exact hi
  have e1 : (List.ofFn fun i : Fin (entries [(stepScan n k P.length).steps]) => x i).getD i 0 = x i := by simp [stepScan, hi']
  rw [e1]
  simp only [stepScan]
  have hlen : (List.ofFn fun i : Fin (entries [n]) => x i).length = n := by simp [entries_vector]
  congr 1
  · simp only [ScanDist.envAt, ScanOut.taps, List.map_cons, List.map_nil, Prod.swap, List.lookup_cons_self]
    congr 1
    rcases i with _ | i
    · simp
    · have : ((([a] ++ (List.ofFn fun i : Fin (entries [n]) => x i).take (i + 1)).length : ℤ) + -1).toNat = i + 1 := by
        rw [List.length_append, List.length_take, hlen, Nat.min_eq_left hi.le]
        simp
      rw [this]
      have hi2 : i < entries [n] := by omega
      simp [hi2]
  · refine map_range_env (n := n) rfl fun j hj => ?_
    have hne : j ≠ P.length + 2 := by omega
    simp only [ScanDist.envAt, ScanOut.taps, List.map_cons, List.map_nil, Prod.swap, List.lookup_cons, List.lookup_nil, beq_eq_false_iff_ne.2 hne]
    rw [lookup_seq (by simp) hj]
    simp [column, hi'.le]

/-! ## Cumulative sums -/

theorem cumsum_value {n : ℕ} (hn : n ≠ 0) {v : Arr FVal} (hv : v.shape = [n]) :
    ∃ w, cumsumValueDiff 0 v = .ok w ∧ w.shape = [n] ∧ w.get [0] = v.get [0] ∧ ∀ i, w.get [i + 1] = v.get [i + 1] - v.get [i] := by
  refine ⟨_, by rw [cumsumValueDiff, if_neg (by simp [Arr.size, hv, hn])], ?_, ?_, fun i => ?_⟩
  · simp [Arr.concat2, Arr.padAxis, Arr.take0, Arr.diff, Arr.size, hv]
    omega
  · simp [Arr.concat2, Arr.padAxis, Arr.take0, Arr.size, hv]
  · simp [Arr.concat2, Arr.padAxis, Arr.take0, Arr.diff, Arr.size, hv]

theorem cumsum_terms {n : ℕ} (hn : n ≠ 0) {v : Arr FVal} (hv : v.shape = [n]) (k : FVal → List FVal → Except Err FVal) (P : List (ℕ → FVal)) :
    IsTerms n (fun i => k (if i = 0 then v.get [0] else v.get [i] - v.get [i - 1]) (P.map fun p => p i)) (cumsumLogprob 0 (fun w => elemwiseLogprob k w (P.map (column n))) v) := by
  obtain ⟨w, h1, h2, h3, h4⟩ := cumsum_value hn hv
  have ha : normAxis 0 v.ndim = .ok 0 := by simp [normAxis, Arr.ndim, hv]
  simp only [cumsumLogprob, ha, h1]
  refine isTerms_congr (fun i hi => ?_) (elemwise_terms h2 k P)
  rcases i with _ | i
  · rw [if_pos rfl, h3]
  · rw [if_neg (by omega), h4, Nat.add_sub_cancel]

/-- Adding a constant to a series. -/
theorem loc_terms {n : ℕ} {f : ℕ → Except Err FVal} {v : Arr FVal} (hv : v.shape = [n]) (a : FVal) (lp : Arr FVal → Except Err (Arr FVal))
    (h : ∀ w : Arr FVal, w.shape = [n] → (∀ i < n, w.get [i] = v.get [i] - a) → IsTerms n f (lp w)) : IsTerms n f (arrayElemwiseLogprob (.loc (scalar a)) lp v) := by
  have hb : bshape [v.shape, (scalar a).shape] = some [n] := by
    rw [hv, bshape_cons_iff]
    intro t ht
    obtain rfl := List.mem_singleton.1 ht
    refine ⟨by simp [scalar], fun d hd => .inl ?_⟩
    simp at hd
    subst hd
    simp [padded, scalar]
  have hback : (ArrTransform.loc (scalar a)).backward v = .ok ⟨[n], fun c => v.get (project c v.shape) - a⟩ := by
    simp only [ArrTransform.backward, Arr.op2, hb]
    rfl
  have h1 := h ⟨[n], fun c => v.get (project c v.shape) - a⟩ rfl fun i hi => by rw [hv]; simp only [project_one hi]
  simp only [arrayElemwiseLogprob, hback, bind, Except.bind]
  rcases hl : lp ⟨[n], fun c => v.get (project c v.shape) - a⟩ with e | r
  · rw [hl] at h1
    exact h1
  · rw [hl] at h1
    obtain ⟨h2, h3⟩ := h1
    have hb2 : bshape [r.shape, ((ArrTransform.loc (scalar a)).logJacDet v).shape] = some [n] := by
      simp only [ArrTransform.logJacDet, Arr.map, h2, hv]
      exact bshape_columns n [fun _ => 0]
    simp only [Arr.op2, hb2]
    refine ⟨rfl, fun i hi => ?_⟩
    rw [h3 i hi]
    simp only [h2, project_one hi, ArrTransform.logJacDet, Arr.map]
    congr 1
    rcases r.get [i] <;> simp

/-! ## Joins -/

/-- The pieces of a series of terms, from position `off` on. -/
def PieceTerms (f : ℕ → Except Err FVal) : ℕ → List ℕ → List (Arr FVal) → Prop
  | _, [], [] => True
  | off, len :: lens, a :: l => a.shape = [len] ∧ (∀ i < len, f (off + i) = .ok (a.get [i])) ∧ PieceTerms f (off + len) lens l
  | _, _, _ => False

theorem zip_pieces {v : Arr FVal} {n : ℕ} (hv : v.shape = [n]) (k : FVal → List FVal → Except Err FVal) (P : List (ℕ → FVal)) (lens : List ℕ) : ∀ off,
    match zipM (fun base_var split_value => base_var.2 split_value) (joinPieces elemwiseLogprob (lens.map fun len => (k, P.length, len)) (inPieces P off lens)) (Arr.splitFrom 0 v off lens) with
    | .ok l => PieceTerms (fun i => k (v.get [i]) (P.map fun p => p i)) off lens l
    | .error e => ∃ i < lens.sum, k (v.get [off + i]) (P.map fun p => p (off + i)) = .error e ∧ ∀ j < i, ∃ x, k (v.get [off + j]) (P.map fun p => p (off + j)) = .ok x := by
  induction lens with
  | nil => intro off; exact trivial
  | cons len lens ih =>
    intro off
    have h1 : ((P.map fun p => column len fun j => p (off + j)) ++ inPieces P (off + len) lens).take P.length = P.map fun p => column len fun j => p (off + j) :=
      List.take_left' (by simp)
    have h2 : ((P.map fun p => column len fun j => p (off + j)) ++ inPieces P (off + len) lens).drop P.length = inPieces P (off + len) lens :=
      List.drop_left' (by simp)
    simp only [List.map_cons, inPieces, joinPieces, h1, h2, Arr.splitFrom, zipM]
    have ht := elemwise_terms (n := len) (v := ⟨v.shape.set 0 len, fun c => v.get (c.set 0 (off + c.getD 0 0))⟩) (by simp [hv]) k (P.map fun p j => p (off + j))
    rw [List.map_map] at ht
    simp only [List.map_map, Function.comp_def, List.set_cons_zero, List.getD_cons_zero] at ht
    rcases hr : elemwiseLogprob k ⟨v.shape.set 0 len, fun c => v.get (c.set 0 (off + c.getD 0 0))⟩ (P.map fun p => column len fun j => p (off + j)) with e | a
    · rw [hr] at ht
      simp only [hr]
      obtain ⟨i, hi, h3, h4⟩ := ht
      exact ⟨i, by rw [List.sum_cons]; omega, h3, h4⟩
    · rw [hr] at ht
      obtain ⟨h3, h4⟩ := ht
      have ih := ih (off + len)
      rcases hz : zipM (fun base_var split_value => base_var.2 split_value) (joinPieces elemwiseLogprob (lens.map fun len => (k, P.length, len)) (inPieces P (off + len) lens))
          (Arr.splitFrom 0 v (off + len) lens) with e | l
      · simp only [hz] at ih
        simp only [hr, hz]
        obtain ⟨i, hi, h5, h6⟩ := ih
        refine ⟨len + i, by rw [List.sum_cons]; omega, by simpa only [Nat.add_assoc] using h5, fun j hj => ?_⟩
        rcases lt_or_ge j len with hjl | hjl
        · exact ⟨_, h4 j hjl⟩
        · obtain ⟨x, hx⟩ := h6 (j - len) (by omega)
          rw [show off + len + (j - len) = off + j by omega] at hx
          exact ⟨x, hx⟩
      · simp only [hz] at ih
        simp only [hr, hz]
        exact ⟨h3, h4, ih⟩

theorem pieces_shape {f : ℕ → Except Err FVal} : ∀ {off : ℕ} {lens : List ℕ} {l : List (Arr FVal)}, PieceTerms f off lens l → l.length = lens.length ∧ (∀ a ∈ l, a.shape.length = 1) ∧ (l.map fun b => b.size 0) = lens
  | _, [], [], _ => by simp
  | _, len :: lens, a :: l, h => by
    obtain ⟨h1, h2, h3⟩ := pieces_shape h.2.2
    refine ⟨by simp [h1], fun b hb => ?_, by rw [List.map_cons, h3]; simp [Arr.size, h.1]⟩
    rcases List.mem_cons.1 hb with rfl | hb
    · simp [h.1]
    · exact h2 b hb
  | _, [], _ :: _, h => h.elim
  | _, _ :: _, [], h => h.elim

theorem joinGet_pieces {f : ℕ → Except Err FVal} : ∀ {lens : List ℕ} {off len : ℕ} {a : Arr FVal} {l : List (Arr FVal)} {i : ℕ} (c : ℕ), PieceTerms f off (len :: lens) (a :: l) → i < (len :: lens).sum →
    f (off + i) = .ok (Arr.joinGet 0 [c] i a l)
  | [], off, len, a, [], i, c, h, hi => by
    simp only [List.sum_cons, List.sum_nil, Nat.add_zero] at hi
    simpa [Arr.joinGet] using h.2.1 i hi
  | [], _, _, _, _ :: _, _, _, h, _ => h.2.2.elim
  | _ :: _, _, _, _, [], _, _, h, _ => h.2.2.elim
  | len' :: lens, off, len, a, b :: l, i, c, h, hi => by
    have hs : a.size 0 = len := by simp [Arr.size, h.1]
    rw [Arr.joinGet, hs]
    split_ifs with h1
    · simpa using h.2.1 i h1
    · rw [List.sum_cons] at hi
      have := joinGet_pieces (i := i - len) c h.2.2 (by omega)
      rwa [show off + len + (i - len) = off + i by omega] at this

theorem join_terms {lens : List ℕ} (hne : lens ≠ []) {v : Arr FVal} (hv : v.shape = [lens.sum]) (k : FVal → List FVal → Except Err FVal) (P : List (ℕ → FVal)) :
    IsTerms lens.sum (fun i => k (v.get [i]) (P.map fun p => p i)) (joinLogprob 0 (joinPieces elemwiseLogprob (lens.map fun len => (k, P.length, len)) (inPieces P 0 lens)) v) := by
  have ha : normAxis 0 v.ndim = .ok 0 := by simp [normAxis, Arr.ndim, hv]
  have hfst : ∀ (lens : List ℕ) (p : List (Arr FVal)), (joinPieces elemwiseLogprob (lens.map fun len => (k, P.length, len)) p).map Prod.fst = lens := fun lens => by
    induction lens with
    | nil => intro p; rfl
    | cons len lens ih => intro p; simp only [List.map_cons, joinPieces, ih]
  have hsplit : v.split 0 ((joinPieces elemwiseLogprob (lens.map fun len => (k, P.length, len)) (inPieces P 0 lens)).map Prod.fst) = .ok (Arr.splitFrom 0 v 0 lens) := by
    rw [hfst, Arr.split, if_pos (by simp [Arr.size, hv])]
  have hz := zip_pieces hv k P lens 0
  simp only [joinLogprob, ha, hsplit]
  rcases hr : zipM (fun base_var split_value => base_var.2 split_value) (joinPieces elemwiseLogprob (lens.map fun len => (k, P.length, len)) (inPieces P 0 lens)) (Arr.splitFrom 0 v 0 lens) with e | l
  · simp only [hr, Nat.zero_add] at hz ⊢
    exact hz
  · simp only [hr] at hz ⊢
    obtain ⟨h1, h2, h3⟩ := pieces_shape hz
    rcases lens with _ | ⟨len, lens⟩
    · exact absurd rfl hne
    rcases l with _ | ⟨a, l⟩
    · exact hz.elim
    have hall : (l.all fun b => decide (b.ndim = a.ndim)) = true := by
      rw [List.all_eq_true]
      intro b hb
      exact decide_eq_true ((h2 b (by simp [hb])).trans (h2 a (by simp)).symm)
    have h1d : (a :: l).map Arr.atleast1d = a :: l := by
      conv_rhs => rw [← List.map_id (a :: l)]
      refine List.map_congr_left fun b hb => ?_
      have := h2 b hb
      rw [Arr.atleast1d, if_neg (by rintro h; rw [h] at this; cases this)]
      rfl
    have hax : (0 : ℤ) - ((v.ndim : ℤ) - a.ndim) = 0 := by simp [Arr.ndim, hv, hz.1]
    simp only [hall, if_true, h1d, hax]
    rcases l with _ | ⟨b, l⟩
    · rcases lens with _ | ⟨len', lens⟩
      · exact ⟨by simpa using hz.1, fun i hi => by simpa using hz.2.1 i (by simpa using hi)⟩
      · exact hz.2.2.elim
    · have ha' : normAxis 0 a.ndim = .ok 0 := by simp [normAxis, Arr.ndim, hz.1]
      have hall2 : ((b :: l).all fun b => decide (b.shape.set 0 0 = a.shape.set 0 0)) = true := by
        simp only [List.all_eq_true, decide_eq_true_eq]
        intro c hc
        obtain ⟨m, hm⟩ := List.length_eq_one_iff.1 (h2 c (List.mem_cons_of_mem _ hc))
        simp [hm, hz.1]
      simp only [Arr.concatenate, ha', hall2, if_true]
      refine ⟨by rw [h3, hz.1]; rfl, fun i hi => ?_⟩
      have := joinGet_pieces i hz hi
      rw [Nat.zero_add] at this
      exact this

end Verif.ArrGraph
