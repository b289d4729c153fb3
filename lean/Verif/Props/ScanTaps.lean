import Verif.Spec.ScanTaps
import Mathlib.Data.List.GetD

/-! # C72: scan values are read at the right time offsets -/

namespace Verif

section Core
variable {ι V : Type}

/-- The sorted pairs of taps and inner-inputs. -/
def sortedTaps (taps : List ℤ) (ins : List ι) : List (ℤ × ι) := (taps.zip ins).insertionSort fun x y => x.1 ≤ y.1

instance : Std.Total (fun x y : ℤ × ι => x.1 ≤ y.1) := ⟨fun x y => le_total _ _⟩
instance : IsTrans (ℤ × ι) (fun x y => x.1 ≤ y.1) := ⟨fun _ _ _ h1 h2 => le_trans h1 h2⟩

theorem pySlice_getElem? {l : List V} {b : ℕ} {e : Option ℤ} (hb : b ≤ l.length) (he : ∀ z ∈ e, z < 0 ∧ 0 ≤ z + l.length) (s : ℕ) :
    (pySlice l b e)[s]? = if (b : ℤ) + s < l.length + e.getD 0 then l[b + s]? else none := by
  rcases e with _ | z
  · have h1 : (sliceEnds (some (b : ℤ)) none 1 l.length) = ((b : ℤ), (l.length : ℤ)) := by
      simp only [sliceEnds]
      rw [if_neg (by omega)]
      simp; omega
    simp only [pySlice, h1, Int.toNat_natCast, List.getElem?_drop, List.take_length, Option.getD_none, add_zero]
    split
    · rfl
    · exact List.getElem?_eq_none (by omega)
  · obtain ⟨h2, h3⟩ := he z rfl
    have h1 : (sliceEnds (some (b : ℤ)) (some z) 1 l.length) = ((b : ℤ), z + l.length) := by
      simp only [sliceEnds]
      rw [if_neg (by omega), if_pos h2]
      simp; omega
    simp only [pySlice, h1, Int.toNat_natCast, List.getElem?_drop, Option.getD_some, List.getElem?_take]
    congr 1
    simp only [eq_iff_iff]; omega

theorem pySlice_length {l : List V} {b : ℕ} {e : Option ℤ} (hb : b ≤ l.length) (he : ∀ z ∈ e, z < 0 ∧ 0 ≤ z + l.length) :
    (pySlice l b e).length = (l.length + e.getD 0 - b).toNat := by
  rcases e with _ | z
  · have h1 : (sliceEnds (some (b : ℤ)) none 1 l.length) = ((b : ℤ), (l.length : ℤ)) := by
      simp only [sliceEnds]
      rw [if_neg (by omega)]
      simp; omega
    simp only [pySlice, h1, Int.toNat_natCast, List.length_drop, List.take_length, Option.getD_none, add_zero]
    omega
  · obtain ⟨h2, h3⟩ := he z rfl
    have h1 : (sliceEnds (some (b : ℤ)) (some z) 1 l.length) = ((b : ℤ), z + l.length) := by
      simp only [sliceEnds]
      rw [if_neg (by omega), if_pos h2]
      simp; omega
    simp only [pySlice, h1, Int.toNat_natCast, List.length_drop, Option.getD_some, List.length_take]
    omega

theorem foldr_min_le {l : List ℕ} {m : ℕ} : ∀ {x}, x ∈ l → l.foldr min m ≤ x := by
  induction l with
  | nil => simp
  | cons a l ih =>
    intro x hx
    rw [List.foldr_cons]
    rcases List.mem_cons.1 hx with rfl | hx
    · exact min_le_left _ _
    · exact (min_le_right _ _).trans (ih hx)

theorem le_foldr_min {l : List ℕ} {m k : ℕ} (hm : k ≤ m) (h : ∀ x ∈ l, k ≤ x) : k ≤ l.foldr min m := by
  induction l with
  | nil => exact hm
  | cons a l ih =>
    rw [List.foldr_cons]
    exact le_min (h a (by simp)) (ih fun x hx => h x (by simp [hx]))

/-- What is known of the sorted taps. -/
structure SortedFacts (taps : List ℤ) (ins : List ι) (new : ι) (L : ℕ) (S : List (ℤ × ι)) : Prop where
  mem : ∀ p, p ∈ S ↔ p ∈ (0, new) :: taps.zip ins
  sorted : (S.map Prod.fst).Pairwise (· < ·)
  le : ∀ t ∈ S.map Prod.fst, -(L : ℤ) ≤ t ∧ t ≤ 0
  memfst : ∀ t, t ∈ S.map Prod.fst ↔ t = 0 ∨ t ∈ taps

theorem sortedFacts {taps : List ℤ} {ins : List ι} (hlen : taps.length = ins.length) {L : ℕ} (hL : Lags taps L) (new : ι) :
    SortedFacts taps ins new L (sortedTaps (taps ++ [0]) (ins ++ [new])) := by
  have hz : (taps ++ [0]).zip (ins ++ [new]) = taps.zip ins ++ [(0, new)] := by rw [List.zip_append hlen]; rfl
  have hp : (sortedTaps (taps ++ [0]) (ins ++ [new])).Perm (taps.zip ins ++ [(0, new)]) := by
    rw [sortedTaps, hz]; exact List.perm_insertionSort _ _
  have hfst : ((taps.zip ins ++ [(0, new)]).map Prod.fst) = taps ++ [0] := by
    rw [List.map_append, List.map_fst_zip hlen.le]; rfl
  have hpf := hp.map Prod.fst
  rw [hfst] at hpf
  have hnd : (taps ++ [0]).Nodup := by
    rw [List.nodup_append]
    refine ⟨hL.nodup, by simp, fun a ha b hb => ?_⟩
    have := hL.neg a ha
    simp at hb
    omega
  have hmf : ∀ t, t ∈ (sortedTaps (taps ++ [0]) (ins ++ [new])).map Prod.fst ↔ t = 0 ∨ t ∈ taps := fun t => by
    rw [hpf.mem_iff]; simp [or_comm]
  refine ⟨fun p => ?_, ?_, fun t ht => ?_, hmf⟩
  · rw [hp.mem_iff]; simp [or_comm]
  · have h1 : ((sortedTaps (taps ++ [0]) (ins ++ [new])).map Prod.fst).Pairwise (· ≤ ·) := by
      rw [List.pairwise_map]
      exact List.pairwise_insertionSort _ _
    have h2 := hpf.nodup_iff.2 hnd
    exact h1.imp₂ (fun a b h1 h2 => lt_of_le_of_ne h1 h2) h2
  · rcases (hmf t).1 ht with rfl | ht
    · omega
    · exact ⟨hL.ge t ht, (hL.neg t ht).le⟩

/-- The slices. -/
def tapSlices (S : List (ℤ × ι)) (values : List V) : List (List V) :=
  ((((S.map Prod.fst).map fun n => -n).zip ((S.map Prod.fst).reverse.map fun n => if n < 0 then some n else none)).map fun be => pySlice values be.1 be.2)

theorem tapSequences_eq (taps : List ℤ) (ins : List ι) (values : List V) :
    (tapSequences taps ins values).2 = ((tapSlices (sortedTaps taps ins) values).map List.length).foldr min values.length ∧
    (tapSequences taps ins values).1 = ((sortedTaps taps ins).map Prod.snd).reverse.zip
      ((tapSlices (sortedTaps taps ins) values).map fun v => v.take (tapSequences taps ins values).2) := ⟨rfl, rfl⟩

theorem tapSlices_length (S : List (ℤ × ι)) (values : List V) : (tapSlices S values).length = S.length := by simp [tapSlices]

theorem tapSlices_getElem (S : List (ℤ × ι)) (values : List V) {i : ℕ} (h : i < S.length) :
    (tapSlices S values)[i]'(by rw [tapSlices_length]; exact h) =
      pySlice values (-S[i].1) (if S[S.length - 1 - i].1 < 0 then some S[S.length - 1 - i].1 else none) := by
  simp [tapSlices]

theorem tapSlices_spec {S : List (ℤ × ι)} {values : List V} {L : ℕ} (hle : ∀ t ∈ S.map Prod.fst, -(L : ℤ) ≤ t ∧ t ≤ 0) (hn : L ≤ values.length) {i : ℕ} (h : i < S.length) :
    ((tapSlices S values)[i]'(by rw [tapSlices_length]; exact h)).length = (values.length + S[S.length - 1 - i].1 + S[i].1).toNat ∧
    ∀ s : ℕ, ((tapSlices S values)[i]'(by rw [tapSlices_length]; exact h))[s]? =
      if -S[i].1 + s < values.length + S[S.length - 1 - i].1 then values[(-S[i].1).toNat + s]? else none := by
  have h1 := hle S[i].1 (List.mem_map_of_mem (List.getElem_mem _))
  have h2 := hle S[S.length - 1 - i].1 (List.mem_map_of_mem (List.getElem_mem _))
  rw [tapSlices_getElem _ _ h]
  set x := S[i].1 with hx
  set y := S[S.length - 1 - i].1 with hy
  have hb : (-x) = (((-x).toNat : ℕ) : ℤ) := by omega
  have he : ∀ z ∈ (if y < 0 then some y else none : Option ℤ), z < 0 ∧ 0 ≤ z + values.length := by
    intro z hz
    split_ifs at hz with h0
    · cases hz; omega
    · cases hz
  have hg : (if y < 0 then some y else none : Option ℤ).getD 0 = y := by
    split_ifs with h0
    · rfl
    · simp only [Option.getD_none]; omega
  rw [hb]
  refine ⟨?_, fun s => ?_⟩
  · rw [pySlice_length (by omega) he, hg]; congr 1; omega
  · rw [pySlice_getElem? (by omega) he, hg]
    rfl

/-- The wiring: the `j`-th of the sorted inner-inputs gets the slice that starts at minus the `j`-th tap from the end. -/
theorem tap_wiring {taps : List ℤ} {ins : List ι} {L : ℕ} {values : List V} {S : List (ℤ × ι)} (hS : S = sortedTaps taps ins)
    (hle : ∀ t ∈ S.map Prod.fst, -(L : ℤ) ≤ t ∧ t ≤ 0) (hn : L ≤ values.length) :
    (tapSequences taps ins values).1.length = S.length ∧
    (∀ i (h : i < S.length), ∃ seq, (tapSequences taps ins values).1[i]? = some (S[S.length - 1 - i].2, seq) ∧
      ∀ s, s < (tapSequences taps ins values).2 → seq[s]? = values[(-S[i].1).toNat + s]? ∧ (-S[i].1).toNat + s < values.length) ∧
    (∀ k : ℕ, k ≤ values.length → (∀ i (h : i < S.length), (k : ℤ) ≤ values.length + S[S.length - 1 - i].1 + S[i].1) → k ≤ (tapSequences taps ins values).2) ∧
    (∀ i (h : i < S.length), (tapSequences taps ins values).2 ≤ (values.length + S[S.length - 1 - i].1 + S[i].1).toNat) := by
  obtain ⟨h1, h2⟩ := tapSequences_eq taps ins values
  rw [← hS] at h1 h2
  have hmin : ∀ i (h : i < S.length), (tapSequences taps ins values).2 ≤ (values.length + S[S.length - 1 - i].1 + S[i].1).toNat := fun i h => by
    rw [← (tapSlices_spec hle hn h).1, h1]
    exact foldr_min_le (List.mem_map_of_mem (List.getElem_mem _))
  refine ⟨?_, fun i h => ?_, fun k hk hk' => ?_, hmin⟩
  · rw [h2]; simp [tapSlices_length]
  · have hi : i < (tapSlices S values).length := by rw [tapSlices_length]; exact h
    refine ⟨(tapSlices S values)[i].take (tapSequences taps ins values).2, ?_, fun s hs => ?_⟩
    · rw [h2, List.getElem?_eq_getElem (by simp [tapSlices_length, h])]
      simp
    · have h3 := hmin i h
      have h4 := hle S[i].1 (List.mem_map_of_mem (List.getElem_mem _))
      have h5 := hle S[S.length - 1 - i].1 (List.mem_map_of_mem (List.getElem_mem _))
      rw [List.getElem?_take, if_pos hs, (tapSlices_spec hle hn h).2, if_pos (by omega)]
      exact ⟨rfl, by omega⟩
  · rw [h1]
    refine le_foldr_min hk fun x hx => ?_
    obtain ⟨sl, hsl, rfl⟩ := List.mem_map.1 hx
    obtain ⟨i, hi, rfl⟩ := List.mem_iff_getElem.1 hsl
    have hi' : i < S.length := by rw [tapSlices_length] at hi; exact hi
    rw [(tapSlices_spec hle hn hi').1]
    have := hk' i hi'
    omega

/-- The mirrored taps. -/
theorem mirror {taps : List ℤ} {ins : List ι} {new : ι} {L : ℕ} {S : List (ℤ × ι)} (hf : SortedFacts taps ins new L S) (hL : Lags taps L) :
    Symmetric taps L ↔ ∀ i (h : i < S.length), S[S.length - 1 - i].1 = -(L : ℤ) - S[i].1 := by
  set T := S.map Prod.fst with hT
  have hlen : T.length = S.length := by simp [hT]
  have hget : ∀ i (h : i < S.length), T[i]'(by rw [hlen]; exact h) = S[i].1 := fun i h => by simp [hT]
  have h0 : (0 : ℤ) ∈ T := (hf.memfst 0).2 (.inl rfl)
  have hLm : -(L : ℤ) ∈ T := by
    rcases hL.max with h | ⟨-, h⟩
    · exact (hf.memfst _).2 (.inr h)
    · rw [h]; exact h0
  constructor
  · intro hs
    have hmem : ∀ t ∈ T, -(L : ℤ) - t ∈ T := fun t ht => by
      rcases (hf.memfst t).1 ht with rfl | ht'
      · simpa using hLm
      · rcases hs t ht' with h | h
        · exact (hf.memfst _).2 (.inr h)
        · rw [h]; simpa using h0
    set T' := T.reverse.map fun t => -(L : ℤ) - t with hT'
    have hs' : T'.Pairwise (· < ·) := by
      rw [hT', List.pairwise_map, List.pairwise_reverse]
      exact hf.sorted.imp fun h => by omega
    have hperm : T'.Perm T := by
      refine (List.perm_ext_iff_of_nodup (hs'.imp fun h => ne_of_lt h) (hf.sorted.imp fun h => ne_of_lt h)).2 fun t => ?_
      rw [hT', List.mem_map]
      constructor
      · rintro ⟨u, hu, rfl⟩; exact hmem u (List.mem_reverse.1 hu)
      · exact fun ht => ⟨-(L : ℤ) - t, List.mem_reverse.2 (hmem t ht), by omega⟩
    have heq : T' = T := hperm.eq_of_pairwise (fun a b _ _ h1 h2 => absurd h1 (by omega)) hs' hf.sorted
    intro i h
    have h1 : i < T'.length := by rw [heq, hlen]; exact h
    have h2 : T'[i] = T[i]'(by rw [hlen]; exact h) := by simp only [heq]
    rw [hget i h] at h2
    simp only [hT', List.getElem_map, List.getElem_reverse] at h2
    have h3 := hget (S.length - 1 - i) (by omega)
    simp only [hlen] at h2
    omega
  · intro h t ht
    obtain ⟨i, hi, he⟩ := List.mem_iff_getElem.1 ((hf.memfst t).2 (.inr ht))
    rw [hlen] at hi
    rw [hget i hi] at he
    have h1 := h i hi
    have h2 : -(L : ℤ) - t ∈ T := by
      rw [← he, ← h1, ← hget _ (by omega)]
      exact List.getElem_mem _
    rcases (hf.memfst _).1 h2 with h3 | h3
    · right; omega
    · exact .inl h3

/-- A symmetric set of taps: every inner-input reads the value sequence at its own offset. -/
theorem tap_reads {taps : List ℤ} {ins : List ι} (hlen : taps.length = ins.length) {L : ℕ} (hL : Lags taps L) (hs : Symmetric taps L) (new : ι) {values : List V}
    (hn : L ≤ values.length) :
    (tapSequences (taps ++ [0]) (ins ++ [new]) values).2 = values.length - L ∧
    ∀ p ∈ (0, new) :: taps.zip ins, ∃ (i : ℕ) (seq : List V), (tapSequences (taps ++ [0]) (ins ++ [new]) values).1[i]? = some (p.2, seq) ∧
      ∀ s, s < values.length - L → seq[s]? = values[(L + p.1).toNat + s]? ∧ (L + p.1).toNat + s < values.length := by
  have hf := sortedFacts hlen hL new
  obtain ⟨-, h2, h3, h4⟩ := tap_wiring (values := values) rfl hf.le hn
  have hm := (mirror hf hL).1 hs
  have hsteps : (tapSequences (taps ++ [0]) (ins ++ [new]) values).2 = values.length - L := by
    refine le_antisymm ?_ (h3 _ (by omega) fun i h => by rw [hm i h]; omega)
    have hpos : 0 < (sortedTaps (taps ++ [0]) (ins ++ [new])).length := List.length_pos_of_mem ((hf.mem (0, new)).2 (by simp))
    refine (h4 0 hpos).trans ?_
    rw [hm 0 hpos]; omega
  refine ⟨hsteps, fun p hp => ?_⟩
  obtain ⟨j, hj, he⟩ := List.mem_iff_getElem.1 ((hf.mem p).2 hp)
  obtain ⟨seq, h5, h6⟩ := h2 ((sortedTaps (taps ++ [0]) (ins ++ [new])).length - 1 - j) (by omega)
  have hji : (sortedTaps (taps ++ [0]) (ins ++ [new])).length - 1 - ((sortedTaps (taps ++ [0]) (ins ++ [new])).length - 1 - j) = j := by omega
  refine ⟨(sortedTaps (taps ++ [0]) (ins ++ [new])).length - 1 - j, seq, ?_, fun s hs' => ?_⟩
  · rw [h5]
    simp only [hji, he]
  · rw [← hsteps] at hs'
    obtain ⟨h7, h8⟩ := h6 s hs'
    have h9 := hm j hj
    rw [he] at h9
    rw [h9] at h7 h8
    rw [h7]
    have : (-(-(L : ℤ) - p.1)).toNat = (L + p.1).toNat := by congr 1; omega
    rw [this] at h8 ⊢
    exact ⟨rfl, h8⟩

/-- Taps that are not symmetric: some inner-input reads at the wrong offset. -/
theorem tap_wrong {taps : List ℤ} {ins : List ι} (hlen : taps.length = ins.length) {L : ℕ} (hL : Lags taps L) (hs : ¬ Symmetric taps L) (new : ι) :
    ∃ p ∈ (0, new) :: taps.zip ins, ∀ values : List V, 2 * L < values.length → values.Nodup →
      ∃ (i : ℕ) (seq : List V) (x : V), (tapSequences (taps ++ [0]) (ins ++ [new]) values).1[i]? = some (p.2, seq) ∧ seq[0]? = some x ∧ values[(L + p.1).toNat]? ≠ some x := by
  have hf := sortedFacts hlen hL new
  rw [mirror hf hL] at hs
  push Not at hs
  obtain ⟨i, hi, hne⟩ := hs
  refine ⟨(sortedTaps (taps ++ [0]) (ins ++ [new]))[(sortedTaps (taps ++ [0]) (ins ++ [new])).length - 1 - i], (hf.mem _).1 (List.getElem_mem _), fun values hv hnd => ?_⟩
  obtain ⟨-, h2, h3, h4⟩ := tap_wiring (values := values) rfl hf.le (by omega)
  have hpos : 0 < (tapSequences (taps ++ [0]) (ins ++ [new]) values).2 := h3 1 (by omega) fun i h => by
    have h5 := hf.le _ (List.mem_map_of_mem (List.getElem_mem h))
    have h6 := hf.le (sortedTaps (taps ++ [0]) (ins ++ [new]))[(sortedTaps (taps ++ [0]) (ins ++ [new])).length - 1 - i].1 (List.mem_map_of_mem (List.getElem_mem _))
    omega
  obtain ⟨seq, h5, h6⟩ := h2 i hi
  obtain ⟨h7, h8⟩ := h6 0 hpos
  refine ⟨i, seq, values[_], h5, h7.trans (List.getElem?_eq_getElem h8), fun h => hne ?_⟩
  obtain ⟨h9, h10⟩ := List.getElem?_eq_some_iff.1 h
  have h11 := (hnd.getElem_inj_iff).1 h10
  have h5 := hf.le _ (List.mem_map_of_mem (List.getElem_mem hi))
  have h6 := hf.le (sortedTaps (taps ++ [0]) (ins ++ [new]))[(sortedTaps (taps ++ [0]) (ins ++ [new])).length - 1 - i].1 (List.mem_map_of_mem (List.getElem_mem _))
  omega

end Core

namespace ScanArgs
variable {ι V : Type}

theorem addSeqs_old (args : ScanArgs ι V) (taps : List ℤ) (ins : List ι) (values : List V) (b : Bool) {v : ι} {s : ℕ} {x : V} (h : args.Reads v s x) :
    (args.addSeqs taps ins values b).Reads v s x := by
  obtain ⟨i, seq, h1, h2, h3⟩ := h
  have h4 := (List.getElem?_eq_some_iff.1 h1).1
  have h5 := (List.getElem?_eq_some_iff.1 h2).1
  exact ⟨i, seq, by simp only [addSeqs]; rw [List.getElem?_append_left h4, h1], by simp only [addSeqs]; rw [List.getElem?_append_left h5, h2], h3⟩

theorem addSeqs_new {args : ScanArgs ι V} (hc : args.inner_in_seqs.length = args.outer_in_seqs.length) (taps : List ℤ) (ins : List ι) (values : List V) (b : Bool) {i : ℕ} {v : ι} {seq : List V}
    (h : (tapSequences taps ins values).1[i]? = some (v, seq)) {s : ℕ} {x : V} (hx : seq[s]? = some x) : (args.addSeqs taps ins values b).Reads v s x := by
  refine ⟨args.inner_in_seqs.length + i, seq, ?_, ?_, hx⟩
  · simp only [addSeqs]
    rw [List.getElem?_append_right (by omega), Nat.add_sub_cancel_left, List.getElem?_map, h]; rfl
  · simp only [addSeqs]
    rw [List.getElem?_append_right (by omega), hc, Nat.add_sub_cancel_left, List.getElem?_map, h]; rfl

theorem idxOf_some [DecidableEq ι] {l : List ι} {i : ℕ} {x : ι} (hnd : l.Nodup) (h : l[i]? = some x) : l.idxOf? x = some i := by
  obtain ⟨hi, he⟩ := List.getElem?_eq_some_iff.1 h
  rw [List.idxOf?, List.findIdx?_eq_some_iff_getElem]
  refine ⟨hi, by simpa using he, fun j hj => ?_⟩
  have : l[j] ≠ l[i] := fun h => by
    have := (hnd.getElem_inj_iff).1 h
    omega
  rw [he] at this
  simpa using this

theorem erase_other {i j : ℕ} (h : i ≠ j) : ∃ k : ℕ, ∀ {β : Type} (m : List β), (m.eraseIdx j)[k]? = m[i]? := by
  by_cases hij : i < j
  · exact ⟨i, fun m => by rw [List.getElem?_eraseIdx, if_pos hij]⟩
  · exact ⟨i - 1, fun m => by rw [List.getElem?_eraseIdx, if_neg (by omega), Nat.sub_add_cancel (by omega)]⟩

/-- What one turn of the loop does to an output with the inner-inputs `l`. -/
theorem convertOne_spec [DecidableEq ι] {args : ScanArgs ι V} (hc : args.Consistent) {io : ι} {l : List (ℤ × ι)} (hl : args.HasTaps io l) (new : ι) (values : List V) :
    ∃ args', args.convertOne io new values = .ok args' ∧ args'.Consistent ∧ (∀ v s x, args.Reads v s x → args'.Reads v s x) ∧
      (∀ io', io' ≠ io → ∀ l', args.HasTaps io' l' → args'.HasTaps io' l') ∧
      args'.n_steps = (tapSequences (l.map Prod.fst ++ [0]) (l.map Prod.snd ++ [new]) values).2 ∧
      ∀ (i : ℕ) (v : ι) (seq : List V), (tapSequences (l.map Prod.fst ++ [0]) (l.map Prod.snd ++ [new]) values).1[i]? = some (v, seq) →
        ∀ s x, seq[s]? = some x → args'.Reads v s x := by
  have hnd := hc.nodup
  rw [List.nodup_append, List.nodup_append] at hnd
  obtain ⟨⟨hn1, hn2, hn12⟩, hn3, hn123⟩ := hnd
  have hseq : ∀ (args' : ScanArgs ι V) taps ins b, args'.inner_in_seqs = args.inner_in_seqs → args'.outer_in_seqs = args.outer_in_seqs →
      (args'.addSeqs taps ins values b).inner_in_seqs.length = (args'.addSeqs taps ins values b).outer_in_seqs.length := fun args' taps ins b h1 h2 => by
    simp only [addSeqs, List.length_append, List.length_map, h1, h2, hc.seqs]
  rcases hl with ⟨i, taps, ins, h1, h2, h3, rfl⟩ | ⟨i, v, h1, h2, rfl⟩ | ⟨h1, rfl⟩
  · have hlen := hc.each_tap i taps ins h2 h3
    have e1 : (taps.zip ins).map Prod.fst = taps := List.map_fst_zip hlen.le
    have e2 : (taps.zip ins).map Prod.snd = ins := List.map_snd_zip hlen.ge
    have hi := idxOf_some hn1 h1
    rw [e1, e2]
    refine ⟨{ args with inner_out_mit_sot := args.inner_out_mit_sot.eraseIdx i, inner_in_mit_sot := args.inner_in_mit_sot.eraseIdx i, mit_sot_in_slices := args.mit_sot_in_slices.eraseIdx i }.addSeqs (taps ++ [0]) (ins ++ [new]) values true, by simp only [convertOne, hi, h2, h3], ⟨hseq _ _ _ true rfl rfl, ?_, ?_, hc.sit_in, ?_, ?_⟩, fun v s x h => addSeqs_old _ _ _ _ true h, ?_, rfl,
      fun k v seq h s x hx => addSeqs_new hc.seqs _ _ _ true h hx⟩
    · simp only [addSeqs, List.length_eraseIdx, hc.mit_in]
    · simp only [addSeqs, List.length_eraseIdx, hc.mit_taps]
    · exact hc.nodup.sublist (((List.eraseIdx_sublist _ _).append (List.Sublist.refl _)).append (List.Sublist.refl _))
    · intro j t is ht hs
      simp only [addSeqs, List.getElem?_eraseIdx] at ht hs
      split at ht
      · rw [if_pos (by assumption)] at hs; exact hc.each_tap _ _ _ ht hs
      · rw [if_neg (by assumption)] at hs; exact hc.each_tap _ _ _ ht hs
    · rintro io' hio l' (⟨j, t, is, h4, h5, h6, rfl⟩ | h | h)
      · have hij : j ≠ i := fun h => by subst h; rw [h1] at h4; exact hio (Option.some.inj h4).symm
        obtain ⟨k, hk⟩ := erase_other hij
        exact .inl ⟨k, t, is, by simp only [addSeqs]; rw [hk, h4], by simp only [addSeqs]; rw [hk, h5], by simp only [addSeqs]; rw [hk, h6], rfl⟩
      · exact .inr (.inl h)
      · exact .inr (.inr h)
  · have hm : args.inner_out_mit_sot.idxOf? io = none := by
      rw [List.idxOf?_eq_none_iff]
      exact fun h => hn12 _ h _ (List.mem_of_getElem? h1) rfl
    have hi := idxOf_some hn2 h1
    refine ⟨{ args with inner_out_sit_sot := args.inner_out_sit_sot.eraseIdx i, inner_in_sit_sot := args.inner_in_sit_sot.eraseIdx i }.addSeqs [-1, 0] [v, new] values true, by simp only [convertOne, hm, hi, h2], ⟨hseq _ _ _ true rfl rfl, hc.mit_in, hc.mit_taps, ?_, ?_, hc.each_tap⟩, fun v s x h => addSeqs_old _ _ _ _ true h, ?_, rfl,
      fun k v seq h s x hx => addSeqs_new hc.seqs _ _ _ true h hx⟩
    · simp only [addSeqs, List.length_eraseIdx, hc.sit_in]
    · exact hc.nodup.sublist (((List.Sublist.refl _).append (List.eraseIdx_sublist _ _)).append (List.Sublist.refl _))
    · rintro io' hio l' (h | ⟨j, w, h4, h5, rfl⟩ | h)
      · exact .inl h
      · have hij : j ≠ i := fun h => by subst h; rw [h1] at h4; exact hio (Option.some.inj h4).symm
        obtain ⟨k, hk⟩ := erase_other hij
        exact .inr (.inl ⟨k, w, by simp only [addSeqs]; rw [hk, h4], by simp only [addSeqs]; rw [hk, h5], rfl⟩)
      · exact .inr (.inr h)
  · obtain ⟨i, hi'⟩ := List.mem_iff_getElem?.1 h1
    have hm : args.inner_out_mit_sot.idxOf? io = none := by
      rw [List.idxOf?_eq_none_iff]
      exact fun h => hn123 _ (List.mem_append_left _ h) _ h1 rfl
    have hm2 : args.inner_out_sit_sot.idxOf? io = none := by
      rw [List.idxOf?_eq_none_iff]
      exact fun h => hn123 _ (List.mem_append_right _ h) _ h1 rfl
    have hi := idxOf_some hn3 hi'
    refine ⟨{ args with inner_out_nit_sot := args.inner_out_nit_sot.eraseIdx i }.addSeqs [0] [new] values false, by simp only [convertOne, hm, hm2, hi], ⟨hseq _ _ _ false rfl rfl, hc.mit_in, hc.mit_taps, hc.sit_in, ?_, hc.each_tap⟩, fun v s x h => addSeqs_old _ _ _ _ false h, ?_, rfl,
      fun k v seq h s x hx => addSeqs_new hc.seqs _ _ _ false h hx⟩
    · exact hc.nodup.sublist ((List.Sublist.refl _).append (List.eraseIdx_sublist _ _))
    · rintro io' hio l' (h | h | ⟨h4, rfl⟩)
      · exact .inl h
      · exact .inr (.inl h)
      · obtain ⟨j, hj⟩ := List.mem_iff_getElem?.1 h4
        have hij : j ≠ i := fun h => by subst h; rw [hi'] at hj; exact hio (Option.some.inj hj).symm
        obtain ⟨k, hk⟩ := erase_other hij
        exact .inr (.inr ⟨List.mem_of_getElem? (i := k) (by simp only [addSeqs]; rw [hk, hj]), rfl⟩)

end ScanArgs

open ScanArgs

theorem zip_fst_snd {α β : Type} : ∀ l : List (α × β), (l.map Prod.fst).zip (l.map Prod.snd) = l
  | [] => rfl
  | a :: l => by rw [List.map_cons, List.map_cons, List.zip_cons_cons, zip_fst_snd l]

/-- **C72** Any number of outputs of a scan with any symmetric sets of taps, in particular all lags up to `L` for any `L` (`symmetric_all`), one lag, and none:
after the conversion every inner-input with tap `t` reads at step `s` the value at time `L + s + t` of the value sequence (the first `L` are the
initial values), and the new inner-input reads the present value, at time `L + s`; sequences that were there before are read as before.
Missing: sets of taps that are not symmetric, for which it is false (`C72_asymmetric_wrong`). -/
theorem C72_taps_partial {ι V : Type} [DecidableEq ι] {args : ScanArgs ι V} (hc : args.Consistent) {taps : ι → List (ℤ × ι)} {lag : ι → ℕ} {outs : List (ι × ι × List V)}
    (hnd : (outs.map fun o => o.1).Nodup) (htaps : ∀ o ∈ outs, args.HasTaps o.1 (taps o.1)) (hlag : ∀ o ∈ outs, Lags ((taps o.1).map Prod.fst) (lag o.1))
    (hsym : ∀ o ∈ outs, Symmetric ((taps o.1).map Prod.fst) (lag o.1)) (hlen : ∀ o ∈ outs, lag o.1 ≤ o.2.2.length) :
    ∃ args', args.convertOuterOutToIn outs = .ok args' ∧ (∀ o ∈ outs.getLast?, args'.n_steps = o.2.2.length - lag o.1) ∧
      (∀ v s x, args.Reads v s x → args'.Reads v s x) ∧
      ∀ o ∈ outs, ∀ p ∈ (0, o.2.1) :: taps o.1, ∀ s, s < o.2.2.length - lag o.1 →
        ∃ x, o.2.2[((lag o.1 : ℤ) + s + p.1).toNat]? = some x ∧ args'.Reads p.2 s x := by
  induction outs generalizing args with
  | nil => exact ⟨args, rfl, by simp, fun _ _ _ h => h, by simp⟩
  | cons o outs ih =>
    simp only [List.map_cons, List.nodup_cons] at hnd
    obtain ⟨a1, h1, h2, h3, h4, h5, h6⟩ := convertOne_spec hc (htaps o (by simp)) o.2.1 o.2.2
    obtain ⟨a2, h7, h8, h9, h10⟩ := ih h2 hnd.2 (fun o' ho' => h4 _ (fun h => hnd.1 (h ▸ List.mem_map_of_mem ho')) _ (htaps o' (by simp [ho'])))
      (fun o' ho' => hlag o' (by simp [ho'])) (fun o' ho' => hsym o' (by simp [ho'])) (fun o' ho' => hlen o' (by simp [ho']))
    obtain ⟨h11, h12⟩ := tap_reads (by simp) (hlag o (by simp)) (hsym o (by simp)) o.2.1 (ins := (taps o.1).map Prod.snd) (hlen o (by simp))
    refine ⟨a2, ?_, ?_, fun v s x h => h9 v s x (h3 v s x h), ?_⟩
    · simp only [convertOuterOutToIn, List.foldlM_cons, h1]
      exact h7
    · intro o' ho'
      rcases outs with _ | ⟨o2, outs⟩
      · cases ho'
        cases h7
        rw [h5, h11]
        rfl
      · exact h8 o' (by simpa using ho')
    · intro o' ho' p hp s hs
      rcases List.mem_cons.1 ho' with rfl | ho'
      · obtain ⟨i, seq, h13, h14⟩ := h12 p (by
          rw [zip_fst_snd]
          exact hp)
        obtain ⟨h15, h16⟩ := h14 s hs
        have hidx : ((lag o'.1 : ℤ) + s + p.1).toNat = ((lag o'.1 : ℤ) + p.1).toNat + s := by
          have : 0 ≤ (lag o'.1 : ℤ) + p.1 := by
            rcases List.mem_cons.1 hp with rfl | hp
            · simp
            · have := (hlag o' (by simp)).ge _ (List.mem_map_of_mem hp); omega
          omega
        refine ⟨o'.2.2[((lag o'.1 : ℤ) + p.1).toNat + s], by rw [hidx]; exact List.getElem?_eq_getElem h16, h9 _ _ _ (h6 i p.2 seq h13 s _ ?_)⟩
        rw [h15]; exact List.getElem?_eq_getElem h16
      · exact h10 o' ho' p hp s hs

/-- **C72** (refuted part) For every set of taps that is not symmetric: some inner-input of the scan reads at the first step a value of the wrong time, in every
long enough value sequence without repetitions. -/
theorem C72_asymmetric_wrong {ι V : Type} [DecidableEq ι] {args : ScanArgs ι V} (hc : args.Consistent) {io : ι} {taps : List (ℤ × ι)} {L : ℕ}
    (htaps : args.HasTaps io taps) (hlag : Lags (taps.map Prod.fst) L) (hsym : ¬ Symmetric (taps.map Prod.fst) L) (new : ι) :
    ∃ p ∈ (0, new) :: taps, ∀ values : List V, 2 * L < values.length → values.Nodup →
      ∃ args' x, args.convertOuterOutToIn [(io, new, values)] = .ok args' ∧ args'.Reads p.2 0 x ∧ values[((L : ℤ) + p.1).toNat]? ≠ some x := by
  obtain ⟨p, hp, h⟩ := tap_wrong (V := V) (ins := taps.map Prod.snd) (by simp) hlag hsym new
  rw [zip_fst_snd] at hp
  refine ⟨p, hp, fun values hv hnd => ?_⟩
  obtain ⟨i, seq, x, h1, h2, h3⟩ := h values hv hnd
  obtain ⟨args', h4, -, -, -, -, h5⟩ := convertOne_spec hc htaps new values
  refine ⟨args', x, ?_, h5 i p.2 seq h1 0 x h2, h3⟩
  simp only [convertOuterOutToIn, List.foldlM_cons, h4]
  rfl

theorem convertOne_room [DecidableEq ι] {args args' : ScanArgs ι V} {io new : ι} {values : List V} (h : args.convertOne io new values = .ok args') :
    args'.outer_in_nit_sot.length + args.inner_out_nit_sot.length = args.outer_in_nit_sot.length + args'.inner_out_nit_sot.length + 1 ∧
    args'.inner_out_mit_sot.length + args'.inner_out_sit_sot.length + args'.inner_out_nit_sot.length + 1 =
      args.inner_out_mit_sot.length + args.inner_out_sit_sot.length + args.inner_out_nit_sot.length := by
  have hlt : ∀ {l : List ι} {x : ι} {i : ℕ}, l.idxOf? x = some i → i < l.length := fun {l x i} h => by
    have : l.findIdx? (· == x) = some i := h
    exact (List.findIdx?_eq_some_iff_getElem.1 this).1
  unfold convertOne at h
  split at h
  · rename_i i hi
    have := hlt hi
    split at h
    · cases h
      simp only [addSeqs, List.length_append, List.length_eraseIdx, List.length_singleton, if_true, this]
      omega
    · cases h
  · split at h
    · rename_i i hi
      have := hlt hi
      split at h
      · cases h
        simp only [addSeqs, List.length_append, List.length_eraseIdx, List.length_singleton, if_true, this]
        omega
      · cases h
    · split at h
      · rename_i i hi
        have := hlt hi
        cases h
        simp only [addSeqs, List.length_eraseIdx, if_true, this, Bool.false_eq_true, if_false]
        omega
      · cases h

/-- **C72** (outputs) If the scan had as many outer inputs as inner outputs that are not recurrent, the converted scan has room for one new inner output, the log-probability, for every converted output (scan.py:222-226), and all converted
outputs are gone. -/
theorem C72_outputs {ι V : Type} [DecidableEq ι] {outs : List (ι × ι × List V)} : ∀ {args args' : ScanArgs ι V}, args.convertOuterOutToIn outs = .ok args' → args.outer_in_nit_sot.length = args.inner_out_nit_sot.length →
    args'.outer_in_nit_sot.length = args'.inner_out_nit_sot.length + outs.length ∧
    args'.inner_out_mit_sot.length + args'.inner_out_sit_sot.length + args'.inner_out_nit_sot.length + outs.length =
      args.inner_out_mit_sot.length + args.inner_out_sit_sot.length + args.inner_out_nit_sot.length := by
  have key : ∀ {args args' : ScanArgs ι V}, args.convertOuterOutToIn outs = .ok args' →
      args'.outer_in_nit_sot.length + args.inner_out_nit_sot.length = args.outer_in_nit_sot.length + args'.inner_out_nit_sot.length + outs.length ∧
      args'.inner_out_mit_sot.length + args'.inner_out_sit_sot.length + args'.inner_out_nit_sot.length + outs.length =
        args.inner_out_mit_sot.length + args.inner_out_sit_sot.length + args.inner_out_nit_sot.length := by
    induction outs with
    | nil =>
      intro args args' h
      cases h
      simp
    | cons o outs ih =>
      intro args args' h
      simp only [convertOuterOutToIn, List.foldlM_cons, bind, Except.bind] at h
      rcases h1 : args.convertOne o.1 o.2.1 o.2.2 with e | args1
      · rw [h1] at h; cases h
      · rw [h1] at h
        have h2 := convertOne_room h1
        have h3 := ih (args := args1) h
        simp only [List.length_cons]
        omega
  intro args args' h h0
  have := key h
  omega

/-- All lags up to `L` in any order are symmetric. -/
theorem symmetric_all {taps : List ℤ} {L : ℕ} (h : ∀ t, t ∈ taps ↔ -(L : ℤ) ≤ t ∧ t < 0) : Symmetric taps L := fun t ht => by
  rw [h] at ht
  rw [h]
  omega

namespace ScanDemo

/-- A scan with one output of lags one and two, one of lag one, and one without lags.  Inner variables are numbers. -/
def args : ScanArgs ℕ ℕ where
  inner_in_seqs := [100]
  outer_in_seqs := [[7, 8, 9]]
  inner_in_mit_sot := [[10, 11], [12, 13]]
  mit_sot_in_slices := [[-1, -2], [-3, -1]]
  inner_out_mit_sot := [0, 1]
  inner_in_sit_sot := [20]
  inner_out_sit_sot := [2]
  inner_out_nit_sot := [3]
  outer_in_nit_sot := [3]
  n_steps := 3

theorem consistent : args.Consistent := by
  refine ⟨rfl, rfl, rfl, rfl, by decide, fun i taps ins h1 h2 => ?_⟩
  rcases i with _ | _ | i
  · cases h1; cases h2; rfl
  · cases h1; cases h2; rfl
  · simp [args] at h1

def taps : ℕ → List (ℤ × ℕ)
  | 0 => [(-1, 10), (-2, 11)]
  | 2 => [(-1, 20)]
  | _ => []

def lag : ℕ → ℕ
  | 0 => 2
  | 2 => 1
  | _ => 0

/-- The three outputs, their new inputs and values. -/
def outs : List (ℕ × ℕ × List ℕ) := [(0, 30, [1, 2, 3, 4, 5]), (2, 31, [6, 7, 8, 9]), (3, 32, [1, 2, 3])]

theorem lags2 : Lags [-1, -2] 2 := ⟨by simp, by simp, by simp, by simp⟩
theorem lags1 : Lags [-1] 1 := ⟨by simp, by simp, by simp, by simp⟩
theorem lags0 : Lags [] 0 := ⟨by simp, by simp, by simp, by simp⟩
theorem lags3 : Lags [-3, -1] 3 := ⟨by simp, by simp, by simp, by simp⟩

end ScanDemo

open ScanDemo in
example := C72_taps_partial consistent (taps := taps) (lag := lag) (outs := outs) (by decide)
  (by
    intro o ho
    simp only [outs, List.mem_cons, List.not_mem_nil, or_false] at ho
    rcases ho with rfl | rfl | rfl
    · exact .inl ⟨0, [-1, -2], [10, 11], rfl, rfl, rfl, rfl⟩
    · exact .inr (.inl ⟨0, 20, rfl, rfl, rfl⟩)
    · exact .inr (.inr ⟨by simp [args], rfl⟩))
  (by
    intro o ho
    simp only [outs, List.mem_cons, List.not_mem_nil, or_false] at ho
    rcases ho with rfl | rfl | rfl
    · exact lags2
    · exact lags1
    · exact lags0)
  (by
    intro o ho
    simp only [outs, List.mem_cons, List.not_mem_nil, or_false] at ho
    rcases ho with rfl | rfl | rfl <;> refine symmetric_all fun t => ?_ <;> simp [taps, lag] <;> omega)
  (by
    intro o ho
    simp only [outs, List.mem_cons, List.not_mem_nil, or_false] at ho
    rcases ho with rfl | rfl | rfl <;> simp [lag])

open ScanDemo in
example := C72_asymmetric_wrong consistent (io := 1) (taps := [(-3, 12), (-1, 13)]) (L := 3) (.inl ⟨1, [-3, -1], [12, 13], rfl, rfl, rfl, rfl⟩) lags3
  (fun h => by have := h (-1) (by simp); simp at this) 40

/-- The conversion of the three outputs succeeds (the example of `C72_taps_partial`). -/
example {args' : ScanArgs ℕ ℕ} (h : ScanDemo.args.convertOuterOutToIn ScanDemo.outs = .ok args') := C72_outputs h rfl

example : ∃ args', ScanDemo.args.convertOuterOutToIn ScanDemo.outs = .ok args' := ⟨_, rfl⟩

end Verif
