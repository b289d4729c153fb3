import Verif.Model.Printing
import Verif.Spec.Printing
import Verif.Lemmas.Dict
import Mathlib.Data.List.Nodup
import Mathlib.Tactic.Linarith

/-!
# Pretty printing (C77, C78, C79, C81)
-/

namespace Verif
open PrintSpec

/-! ## Names -/

namespace NameState
variable {V : Type} [DecidableEq V]

open Classical in
/-- The letters left by the names of the graph. -/
noncomputable def free (name : V → Option Text) (fgraph : List V) : List Text :=
  asciiLetters.filter fun s => ∀ w ∈ fgraph, name w ≠ some s

theorem asciiLetters_nodup : asciiLetters.Nodup := by decide +kernel

theorem asciiLetters_eq :
    asciiLetters = ("abcdefghijklmnopqrstuvwxyzABCDEFGHIJKLMNOPQRSTUVWXYZ".toList).map (fun c => [c]) := by
  decide +kernel

theorem asciiLetters_alpha : ∀ s ∈ asciiLetters, ∃ c : Char, s = [c] ∧ c.isAlpha := by
  have : ∀ s ∈ asciiLetters, s.length = 1 ∧ s.all Char.isAlpha = true := by decide +kernel
  intro s hs
  obtain ⟨h1, h2⟩ := this s hs
  obtain ⟨c, rfl⟩ := List.length_eq_one_iff.1 h1
  exact ⟨c, rfl, by simpa using h2⟩

theorem init_free (name : V → Option Text) (fgraph : List V) :
    (fgraph.filterMap name).foldl List.erase asciiLetters = free name fgraph := by
  rw [← List.diff_eq_foldl, asciiLetters_nodup.sdiff_eq_filter, free]
  apply List.filter_congr
  intro s _
  simp only [List.mem_filterMap, decide_eq_decide]
  constructor
  · intro h w hw e; exact h ⟨w, hw, e⟩
  · rintro h ⟨w, hw, e⟩; exact h w hw e

theorem free_length (name : V → Option Text) (fgraph : List V) : (free name fgraph).length = freeLetters name fgraph := by
  rw [free, freeLetters, asciiLetters_eq, List.filter_map, List.length_map]
  congr 1

open Classical in
/-- What holds of the state while a graph is printed. -/
structure Inv (name : V → Option Text) (fgraph : List V) (st : NameState V) : Prop where
  nodup : st.memo.keys.Nodup
  keys : ∀ v ∈ st.memo.keys, v ∈ fgraph
  own : ∀ p ∈ st.memo, ¬ Unnamed name p.1 → name p.1 = some p.2
  taken : (st.memo.filter fun p => Unnamed name p.1).map Prod.snd ++ st.availableNames name fgraph = free name fgraph

theorem inv_fresh (name : V → Option Text) (fgraph : List V) : Inv name fgraph (fresh : NameState V) where
  nodup := by simp [fresh, Dict.keys]
  keys := by simp [fresh, Dict.keys]
  own := by simp [fresh]
  taken := by simp [fresh, availableNames, init_free]

theorem named_iff {name : V → Option Text} {v : V} : ¬ Unnamed name v ↔ ∃ c cs, name v = some (c :: cs) := by
  unfold Unnamed
  rcases h : name v with _ | (_ | ⟨c, cs⟩) <;> simp

/-- One step, with the state after it. -/
theorem step {name : V → Option Text} {fgraph : List V} {st : NameState V} (hI : Inv name fgraph st) {v : V} (hv : v ∈ fgraph) :
    (∃ st' s, processVariableName name fgraph st v = .ok (st', s) ∧ Inv name fgraph st' ∧ st'.memo.get? v = some s ∧
      (∀ w t, st.memo.get? w = some t → st'.memo.get? w = some t) ∧ (∀ w, w ∈ st'.memo.keys ↔ w = v ∨ w ∈ st.memo.keys)) ∨
    (processVariableName name fgraph st v = .error .keyError ∧ Unnamed name v ∧ v ∉ st.memo.keys ∧
      st.availableNames name fgraph = []) := by
  cases hm : st.memo.get? v with
  | some s =>
    left
    refine ⟨st, s, by simp [processVariableName, hm], hI, hm, fun _ _ h => h, fun w => ⟨.inr, ?_⟩⟩
    rintro (rfl | h)
    · exact Dict.get?_isSome.1 ⟨s, hm⟩
    · exact h
  | none =>
    have hv' : v ∉ st.memo.keys := Dict.get?_eq_none.1 hm
    have mono : ∀ (x : Text) (w : V) (t : Text), st.memo.get? w = some t → (st.memo.set v x).get? w = some t := by
      intro x w t ht
      rw [Dict.get?_set, if_neg]
      · exact ht
      · rintro rfl; simp [hm] at ht
    by_cases hu : Unnamed name v
    · cases ha : st.availableNames name fgraph with
      | nil =>
        right
        refine ⟨?_, hu, hv', rfl⟩
        rcases hu with h | h <;> simp [processVariableName, hm, h, ha]
      | cons x rest =>
        left
        refine ⟨⟨st.memo.set v x, some rest⟩, x, ?_, ?_, by simp [Dict.get?_set], mono x, fun w => Dict.mem_keys_set _ _ _ _⟩
        · rcases hu with h | h <;> simp [processVariableName, hm, h, ha]
        · refine ⟨Dict.nodup_set hI.nodup _ _, ?_, ?_, ?_⟩
          · intro w hw
            rcases (Dict.mem_keys_set _ _ _ _).1 hw with rfl | h
            exacts [hv, hI.keys w h]
          · intro p hp hn
            rw [Dict.set_of_not_mem hv', List.mem_append, List.mem_singleton] at hp
            rcases hp with hp | rfl
            exacts [hI.own p hp hn, absurd hu hn]
          · rw [← hI.taken, ha]
            simp only [availableNames, Dict.set_of_not_mem hv', List.filter_append, List.map_append]
            simp [hu]
    · obtain ⟨c, cs, hn⟩ := named_iff.1 hu
      have hnot : c :: cs ∉ st.availableNames name fgraph := by
        intro h
        have : c :: cs ∈ free name fgraph := by rw [← hI.taken]; exact List.mem_append_right _ h
        simp only [free, List.mem_filter, decide_eq_true_eq] at this
        exact this.2 v hv hn
      left
      refine ⟨⟨st.memo.set v (c :: cs), some (st.availableNames name fgraph)⟩, c :: cs, ?_, ?_, by simp [Dict.get?_set],
        mono _, fun w => Dict.mem_keys_set _ _ _ _⟩
      · simp [processVariableName, hm, hn, List.erase_of_not_mem hnot]
      · refine ⟨Dict.nodup_set hI.nodup _ _, ?_, ?_, ?_⟩
        · intro w hw
          rcases (Dict.mem_keys_set _ _ _ _).1 hw with rfl | h
          exacts [hv, hI.keys w h]
        · intro p hp hn'
          rw [Dict.set_of_not_mem hv', List.mem_append, List.mem_singleton] at hp
          rcases hp with hp | rfl
          exacts [hI.own p hp hn', hn]
        · rw [← hI.taken]
          simp only [availableNames, Dict.set_of_not_mem hv', List.filter_append, List.map_append]
          simp [hu]

open Classical in
/-- The unnamed variables already printed. -/
noncomputable def unnamedKeys (name : V → Option Text) (st : NameState V) : List V := st.memo.keys.filter fun v => Unnamed name v

open Classical in
theorem unnamedKeys_length {name : V → Option Text} {fgraph : List V} {st : NameState V} (hI : Inv name fgraph st) :
    (unnamedKeys name st).length + (st.availableNames name fgraph).length = freeLetters name fgraph := by
  rw [← free_length, ← hI.taken, List.length_append, List.length_map, unnamedKeys, Dict.keys, List.filter_map, List.length_map]
  rfl

/-- A whole run. -/
theorem run {name : V → Option Text} {fgraph : List V} :
    ∀ {vs : List V} {st : NameState V}, Inv name fgraph st → (∀ v ∈ vs, v ∈ fgraph) →
    (∃ st' ss, processNames name fgraph st vs = .ok (st', ss) ∧ Inv name fgraph st' ∧
      (∀ w t, st.memo.get? w = some t → st'.memo.get? w = some t) ∧ (∀ w, w ∈ st'.memo.keys ↔ w ∈ vs ∨ w ∈ st.memo.keys) ∧
      ss = vs.map fun v => (st'.memo.get? v).getD []) ∨
    (processNames name fgraph st vs = .error .keyError ∧
      ∃ L : List V, L.Nodup ∧ freeLetters name fgraph < L.length ∧ ∀ v ∈ L, Unnamed name v ∧ (v ∈ vs ∨ v ∈ st.memo.keys))
  | [], st, hI, _ => .inl ⟨st, [], rfl, hI, fun _ _ h => h, by simp, rfl⟩
  | v :: vs, st, hI, hvs => by
    rcases step hI (hvs v (by simp)) with ⟨st1, s, e1, hI1, hs, mono1, keys1⟩ | ⟨e1, hu, hk, ha⟩
    · rcases run (vs := vs) hI1 (fun w hw => hvs w (by simp [hw])) with ⟨st2, ss, e2, hI2, mono2, keys2, hss⟩ | ⟨e2, L, hL, hlt, hmem⟩
      · left
        refine ⟨st2, s :: ss, ?_, hI2, fun w t h => mono2 w t (mono1 w t h), ?_, ?_⟩
        · simp only [processNames, e1, bind, Except.bind, e2]; rfl
        · intro w
          rw [keys2, keys1, List.mem_cons]; tauto
        · rw [List.map_cons, mono2 v s hs, hss]; rfl
      · right
        refine ⟨?_, L, hL, hlt, fun w hw => ⟨(hmem w hw).1, ?_⟩⟩
        · simp only [processNames, e1, bind, Except.bind, e2]
        · rcases (hmem w hw).2 with h | h
          · exact .inl (by simp [h])
          · rcases (keys1 w).1 h with rfl | h
            exacts [.inl (by simp), .inr h]
    · right
      refine ⟨by simp only [processNames, e1, bind, Except.bind], v :: unnamedKeys name st, ?_, ?_, ?_⟩
      · refine List.nodup_cons.2 ⟨fun h => hk (List.mem_of_mem_filter h), hI.nodup.filter _⟩
      · have := unnamedKeys_length hI
        rw [ha] at this
        simp only [List.length_cons, List.length_nil] at this ⊢
        omega
      · intro w hw
        rcases List.mem_cons.1 hw with rfl | hw
        · exact ⟨hu, .inl (by simp)⟩
        · simp only [unnamedKeys, List.mem_filter, decide_eq_true_eq] at hw
          exact ⟨hw.2, .inr hw.1⟩

theorem count_le {name : V → Option Text} {vs L : List V} (hL : L.Nodup) (h : ∀ v ∈ L, Unnamed name v ∧ v ∈ vs) :
    L.length ≤ unnamedCount name vs := by
  classical
  refine (List.Nodup.subperm hL ?_).length_le
  intro v hv
  simpa using ⟨(h v hv).2, (h v hv).1⟩

theorem le_count {name : V → Option Text} {vs L : List V} (h : ∀ v ∈ vs, Unnamed name v → v ∈ L) :
    unnamedCount name vs ≤ L.length := by
  classical
  refine (List.Nodup.subperm (@List.nodup_dedup V (fun a b => Classical.propDecidable _) _) ?_).length_le
  intro v hv
  simp only [List.mem_dedup, List.mem_filter, decide_eq_true_eq] at hv
  exact h v hv.1 hv.2

end NameState

section Names
variable {V : Type} [DecidableEq V]
open NameState

/-- C77: the names printed for the variables of a graph, in any order and with any repetitions, are proper: named variables keep
their names, and each unnamed one has one letter, used for no other unnamed variable and for no name in the graph. -/
theorem C77_fresh {name : V → Option Text} {fgraph vs : List V} (hvs : ∀ v ∈ vs, v ∈ fgraph) {st : NameState V}
    {names : List Text} (h : processNames name fgraph fresh vs = .ok (st, names)) : Proper name fgraph vs names := by
  rcases run (inv_fresh name fgraph) hvs with ⟨st', ss, e, hI, -, keys, hss⟩ | ⟨e, -⟩
  · rw [e] at h
    cases h
    have hget : ∀ v ∈ vs, (v, (st.memo.get? v).getD []) ∈ st.memo := by
      intro v hv
      obtain ⟨s, hs⟩ := Dict.get?_isSome.2 ((keys v).2 (.inl hv))
      rw [hs]
      exact Dict.mem_of_get? hs
    have hfree : ∀ p ∈ st.memo, Unnamed name p.1 → p.2 ∈ free name fgraph := by
      classical
      intro p hp hu
      rw [← hI.taken]
      refine List.mem_append_left _ (List.mem_map_of_mem (List.mem_filter.2 ⟨hp, by simpa using hu⟩))
    refine ⟨fun v => (st.memo.get? v).getD [], hss, ?_, ?_, ?_⟩
    · intro v hv hn
      exact hI.own _ (hget v hv) hn
    · intro v hv hu
      have := hfree _ (hget v hv) hu
      simp only [free, List.mem_filter, decide_eq_true_eq] at this
      exact ⟨asciiLetters_alpha _ this.1, this.2⟩
    · classical
      intro v hv w hw hu hu' he
      have hnd : (((st.memo.filter fun p => Unnamed name p.1).map Prod.snd)).Nodup := by
        have : (free name fgraph).Nodup := asciiLetters_nodup.filter _
        rw [← hI.taken] at this
        exact (List.nodup_append.1 this).1
      have h1 := List.inj_on_of_nodup_map hnd (x := (v, _)) (List.mem_filter.2 ⟨hget v hv, by simpa using hu⟩)
        (y := (w, _)) (List.mem_filter.2 ⟨hget w hw, by simpa using hu'⟩) he
      exact congrArg Prod.fst h1
  · rw [e] at h; simp at h

/-- C77: printing succeeds exactly if there are enough free letters, and otherwise raises `KeyError`. -/
theorem C77_enough {name : V → Option Text} {fgraph vs : List V} (hvs : ∀ v ∈ vs, v ∈ fgraph) :
    (unnamedCount name vs ≤ freeLetters name fgraph → ∃ r, processNames name fgraph fresh vs = .ok r) ∧
    (freeLetters name fgraph < unnamedCount name vs → processNames name fgraph fresh vs = .error .keyError) := by
  classical
  rcases run (inv_fresh name fgraph) hvs with ⟨st', ss, e, hI, -, keys, hss⟩ | ⟨e, L, hL, hlt, hmem⟩
  · refine ⟨fun _ => ⟨_, e⟩, fun h => absurd h (not_lt.2 ?_)⟩
    have := unnamedKeys_length hI
    refine le_trans (le_count (L := unnamedKeys name st') fun v hv hu => ?_) (by omega)
    simp only [unnamedKeys, List.mem_filter, decide_eq_true_eq]
    exact ⟨(keys v).2 (.inl hv), hu⟩
  · refine ⟨fun h => absurd h (not_le.2 (lt_of_lt_of_le hlt (count_le hL fun v hv => ⟨(hmem v hv).1, ?_⟩))), fun _ => e⟩
    rcases (hmem v hv).2 with h | h
    · exact h
    · simp [fresh, Dict.keys] at h

/-- A `PrinterState` passed to a second call keeps the names available after the first: if the next of them is the name of a
variable of the second graph, an unnamed variable printed before it gets the same name. -/
theorem C77_reused_state_wrong {name : V → Option Text} {fgraph : List V} {st : NameState V} {c : Char} {rest : List Text}
    (hst : st.available = some ([c] :: rest)) {v w : V} (hv : Unnamed name v) (hw : name w = some [c]) (hvm : v ∉ st.memo.keys)
    (hwm : w ∉ st.memo.keys) : ∃ st', processNames name fgraph st [v, w] = .ok (st', [[c], [c]]) := by
  have h1 : st.memo.get? v = none := Dict.get?_eq_none.2 hvm
  have h2 : st.memo.get? w = none := Dict.get?_eq_none.2 hwm
  have hne : v ≠ w := by
    rintro rfl
    rcases hv with h | h <;> simp [h] at hw
  have e1 : processVariableName name fgraph st v = .ok (⟨st.memo.set v [c], some rest⟩, [c]) := by
    rcases hv with h | h <;> simp [processVariableName, availableNames, h1, h, hst]
  have e2 : ∃ st', processVariableName name fgraph ⟨st.memo.set v [c], some rest⟩ w = .ok (st', [c]) := by
    refine ⟨⟨(st.memo.set v [c]).set w [c], some (rest.erase [c])⟩, ?_⟩
    simp [processVariableName, availableNames, Dict.get?_set, hne, h2, hw]
  obtain ⟨st', e2⟩ := e2
  refine ⟨st', ?_⟩
  simp only [processNames, e1, e2, bind, Except.bind]; rfl

end Names

namespace PrintDemo
open NameState

/-- Variables `0`, `1`, `2` are unnamed, `3` is called `a`. -/
def name (v : Fin 4) : Option Text := if v = 3 then some ['a'] else if v = 1 then some [] else none

example : (processNames name [0, 1, 2, 3] fresh [0, 3, 1, 0, 2]).map Prod.snd = .ok [['b'], ['a'], ['c'], ['b'], ['d']] := by
  decide +kernel

/-- The hypotheses of `C77_fresh` hold. -/
example : Proper name [0, 1, 2, 3] [0, 3, 1, 0, 2] [['b'], ['a'], ['c'], ['b'], ['d']] :=
  C77_fresh (by simp) (st := ⟨[(0, ['b']), (3, ['a']), (1, ['c']), (2, ['d'])], some (asciiLetters.drop 4)⟩) (by decide +kernel)

/-- The first hypothesis of `C77_enough` holds. -/
example : ∃ r, processNames (fun _ : ℕ => none) [0, 1] fresh [0, 1, 0] = .ok r :=
  (C77_enough (by simp)).1 (by simp [unnamedCount, freeLetters, Unnamed])

/-- Variables `2k` are unnamed, `2k+1` called `b`: the state left by printing `0` is used again for `2` and `3`. -/
example : ∃ st', processNames (fun v : ℕ => if v % 2 = 1 then some ['b'] else none) [2, 3]
    ⟨[(0, ['a'])], some (asciiLetters.drop 1)⟩ [2, 3] = .ok (st', [['b'], ['b']]) :=
  C77_reused_state_wrong (rest := asciiLetters.drop 2) (by decide +kernel) (.inl (by simp)) (by simp) (by simp [Dict.keys]) (by simp [Dict.keys])

end PrintDemo

/-! ## Preamble -/

/-- What holds of the loop: the lines before the current one are full, and `c_len` counts the current one. -/
structure WrapInv (width : ℕ) (v : List Text) (st : WrapState) : Prop where
  all : st.v_new.flatten = v
  nonempty : ∀ line ∈ st.v_new, line ≠ []
  under : ∀ line ∈ st.v_new, (line.dropLast.map List.length).sum < width
  cur : (st.v_new.length = st.l_idx ∧ ∀ line ∈ st.v_new, width ≤ (line.map List.length).sum) ∨
    ∃ pre line, st.v_new = pre ++ [line] ∧ pre.length = st.l_idx ∧ (∀ x ∈ pre, width ≤ (x.map List.length).sum) ∧
      st.c_len = width * st.l_idx + (line.map List.length).sum ∧ (line.map List.length).sum < width

theorem modify_last {α : Type} (f : α → α) (x : α) : ∀ pre : List α, (pre ++ [x]).modify pre.length f = pre ++ [f x]
  | [] => rfl
  | y :: pre => by simpa [List.modify_succ_cons] using modify_last f x pre

theorem wrapStep_inv {width : ℕ} (hw : 0 < width) {v : List Text} {st : WrapState} (h : WrapInv width v st) (l : Text) :
    WrapInv width (v ++ [l]) (wrapStep width st l) := by
  have hdiv : ∀ i n : ℕ, (width * i + n) / width = i + n / width := fun i n => by
    rw [Nat.mul_add_div hw]
  have hlt : ∀ n : ℕ, 0 < n / width ↔ width ≤ n := fun n => by
    rw [Nat.div_pos_iff]; exact ⟨fun h => h.2, fun h => ⟨hw, h⟩⟩
  rcases h.cur with ⟨hlen, hfull⟩ | ⟨pre, line, hv, hlen, hfull, hc, hcur⟩
  · have hle : st.v_new.length ≤ st.l_idx := hlen.le
    have hall : (st.v_new ++ [[l]]).flatten = v ++ [l] := by simp [h.all]
    have hne : ∀ x ∈ st.v_new ++ [[l]], x ≠ [] := by
      intro x hx
      rcases List.mem_append.1 hx with hx | hx
      · exact h.nonempty x hx
      · simp only [List.mem_singleton] at hx; simp [hx]
    have hun : ∀ x ∈ st.v_new ++ [[l]], (x.dropLast.map List.length).sum < width := by
      intro x hx
      rcases List.mem_append.1 hx with hx | hx
      · exact h.under x hx
      · simp only [List.mem_singleton] at hx; simpa [hx] using hw
    by_cases hl : width ≤ l.length
    · have e : wrapStep width st l = ⟨st.v_new ++ [[l]], width * st.l_idx + l.length, st.l_idx + 1⟩ := by
        have : 0 < l.length / width := (hlt _).2 hl
        simp only [wrapStep, if_pos hle, hdiv]
        rw [if_pos (by omega)]
      rw [e]
      refine ⟨hall, hne, hun, .inl ⟨by simp [hlen], ?_⟩⟩
      intro x hx
      rcases List.mem_append.1 hx with hx | hx
      · exact hfull x hx
      · simp only [List.mem_singleton] at hx; simpa [hx] using hl
    · have e : wrapStep width st l = ⟨st.v_new ++ [[l]], width * st.l_idx + l.length, st.l_idx⟩ := by
        have : ¬ 0 < l.length / width := fun h => hl ((hlt _).1 h)
        simp only [wrapStep, if_pos hle, hdiv]
        rw [if_neg (by omega)]; rfl
      rw [e]
      exact ⟨hall, hne, hun, .inr ⟨st.v_new, [l], rfl, hlen, hfull, by simp, by simpa using not_le.1 hl⟩⟩
  · have hle : ¬ st.v_new.length ≤ st.l_idx := by rw [hv]; simp [hlen]
    have hmod : st.v_new.modify st.l_idx (· ++ [l]) = pre ++ [line ++ [l]] := by
      rw [hv, ← hlen, modify_last]
    have hall : (pre ++ [line ++ [l]]).flatten = v ++ [l] := by rw [← h.all, hv]; simp
    have hne : ∀ x ∈ pre ++ [line ++ [l]], x ≠ [] := by
      intro x hx
      rcases List.mem_append.1 hx with hx | hx
      · exact h.nonempty x (by rw [hv]; simp [hx])
      · simp only [List.mem_singleton] at hx; simp [hx]
    have hun : ∀ x ∈ pre ++ [line ++ [l]], (x.dropLast.map List.length).sum < width := by
      intro x hx
      rcases List.mem_append.1 hx with hx | hx
      · exact h.under x (by rw [hv]; simp [hx])
      · simp only [List.mem_singleton] at hx
        rw [hx, List.dropLast_concat]; exact hcur
    have hsum : ((line ++ [l]).map List.length).sum = (line.map List.length).sum + l.length := by simp
    by_cases hl : width ≤ (line.map List.length).sum + l.length
    · have e : wrapStep width st l =
          ⟨pre ++ [line ++ [l]], width * st.l_idx + ((line.map List.length).sum + l.length), st.l_idx + 1⟩ := by
        have : 0 < ((line.map List.length).sum + l.length) / width := (hlt _).2 hl
        simp only [wrapStep, if_neg hle, hmod, hc, Nat.add_assoc, hdiv]
        rw [if_pos (by omega)]
      rw [e]
      refine ⟨hall, hne, hun, .inl ⟨by simp [hlen], ?_⟩⟩
      intro x hx
      rcases List.mem_append.1 hx with hx | hx
      · exact hfull x hx
      · simp only [List.mem_singleton] at hx; rw [hx, hsum]; exact hl
    · have e : wrapStep width st l =
          ⟨pre ++ [line ++ [l]], width * st.l_idx + ((line.map List.length).sum + l.length), st.l_idx⟩ := by
        have : ¬ 0 < ((line.map List.length).sum + l.length) / width := fun h => hl ((hlt _).1 h)
        simp only [wrapStep, if_neg hle, hmod, hc, Nat.add_assoc, hdiv]
        rw [if_neg (by omega)]; rfl
      rw [e]
      exact ⟨hall, hne, hun, .inr ⟨pre, line ++ [l], rfl, hlen, hfull, by rw [hsum], by rw [hsum]; exact not_le.1 hl⟩⟩

/-- C78: the lines of a category hold its declarations in order, and a line is continued exactly while it is under the width. -/
theorem C78_lines {width : ℕ} (hw : 0 < width) (v : List Text) : Wrapped width v (wrapLines width v) := by
  have key : ∀ (l done : List Text) (st : WrapState), WrapInv width done st →
      WrapInv width (done ++ l) (l.foldl (wrapStep width) st) := by
    intro l
    induction l with
    | nil => intro done st h; simpa using h
    | cons x l ih =>
      intro done st h
      have := ih _ _ (wrapStep_inv hw h x)
      simpa using this
  have h := key v [] ⟨[], 0, 0⟩ ⟨rfl, by simp, by simp, .inl ⟨rfl, by simp⟩⟩
  refine ⟨h.all, h.nonempty, h.under, ?_⟩
  rcases h.cur with ⟨-, hf⟩ | ⟨pre, line, hv, -, hf, -⟩
  · intro x hx; exact hf x (List.mem_of_mem_dropLast hx)
  · intro x hx
    rw [wrapLines, hv, List.dropLast_concat] at hx
    exact hf x hx

theorem joinText_eq (sep : Text) : ∀ l : List Text, joinText sep l = sepBy sep l
  | [] => rfl
  | [x] => by simp [joinText, sepBy]
  | x :: y :: l => by
    rw [joinText, joinText_eq sep (y :: l), sepBy, sepBy]
    simp [List.intersperse]

theorem joinText_append {sep : Text} : ∀ {l m : List Text}, l ≠ [] → m ≠ [] →
    joinText sep (l ++ m) = joinText sep l ++ sep ++ joinText sep m
  | [x], [], _, h => absurd rfl h
  | [x], y :: m, _, _ => rfl
  | x :: y :: l, m, _, h => by
    have := joinText_append (sep := sep) (l := y :: l) (by simp) h
    rw [List.cons_append, List.cons_append, joinText, ← List.cons_append, this, joinText]
    simp

theorem joinText_flatten {sep : Text} : ∀ {ls : List (List Text)} (m : List Text), (∀ l ∈ ls, l ≠ []) →
    joinText sep (ls.map (joinText sep) ++ m) = joinText sep (ls.flatten ++ m)
  | [], _, _ => rfl
  | l :: ls, m, h => by
    have hl := h l (by simp)
    have ih := joinText_flatten (sep := sep) (ls := ls) m fun x hx => h x (by simp [hx])
    by_cases hr : ls.map (joinText sep) ++ m = []
    · obtain ⟨h1, rfl⟩ := List.append_eq_nil_iff.1 hr
      obtain rfl := List.map_eq_nil_iff.1 h1
      simp [joinText]
    · have hr' : ls.flatten ++ m ≠ [] := by
        intro h0
        obtain ⟨h1, rfl⟩ := List.append_eq_nil_iff.1 h0
        cases ls with
        | nil => exact hr rfl
        | cons x ls => simp at h1; exact h x (by simp) h1.1
      rw [List.flatten_cons, List.append_assoc, joinText_append hl hr', ← ih, List.map_cons, List.cons_append]
      rw [show joinText sep l :: (ls.map (joinText sep) ++ m) = [joinText sep l] ++ (ls.map (joinText sep) ++ m) from rfl,
        joinText_append (by simp) hr]
      rfl

/-- C78: the printed text consists of the lines of all categories in order, followed by the expressions. -/
theorem C78_text {width : ℕ} (hw : 0 < width) (comma newline : Text) (categories : List (List Text)) (body : List Text) :
    ∃ lines : List (List (List Text)), List.Forall₂ (Wrapped width) categories lines ∧
      preambleText width comma newline categories body = sepBy newline (lines.flatten.map (sepBy comma) ++ body) := by
  refine ⟨categories.map (wrapLines width), ?_, ?_⟩
  · rw [List.forall₂_map_right_iff, List.forall₂_same]
    exact fun v _ => C78_lines hw v
  · have hj : joinText comma = sepBy comma := funext (joinText_eq comma)
    rw [preambleText, preambleLines, ← joinText_eq, ← hj,
      show (fun v => joinText newline ((wrapLines width v).map (joinText comma))) =
        joinText newline ∘ (fun v => (wrapLines width v).map (joinText comma)) from rfl, ← List.map_map, joinText_flatten]
    · congr 2
      induction categories with
      | nil => rfl
      | cons v cs ih =>
        cases v with
        | nil => simpa [wrapLines] using ih
        | cons x v => simp only [List.filter_cons, List.isEmpty_cons, Bool.not_false, if_true, List.map_cons, List.flatten_cons, List.map_append, ih]
    · intro l hl
      simp only [List.mem_map, List.mem_filter] at hl
      obtain ⟨v, ⟨-, hv⟩, rfl⟩ := hl
      intro h0
      have h1 := List.map_eq_nil_iff.1 h0
      have := (C78_lines hw v).all
      rw [h1] at this
      simp [← this] at hv

theorem splitLines_spec : ∀ t : Text, LinesOf t (splitLines t)
  | [] => by simp [LinesOf, splitLines, sepBy]
  | c :: cs => by
    obtain ⟨h1, h2, h3⟩ := splitLines_spec cs
    rw [splitLines]
    split
    · rename_i hc
      subst hc
      refine ⟨by simp, by simpa using h2, ?_⟩
      obtain ⟨l, ls, h⟩ := List.exists_cons_of_ne_nil h1
      rw [h] at h3 ⊢
      simp [sepBy, List.intersperse] at h3 ⊢
      exact h3
    · rename_i hc
      obtain ⟨l, ls, h⟩ := List.exists_cons_of_ne_nil h1
      rw [h] at h2 h3 ⊢
      refine ⟨by simp, ?_, ?_⟩
      · intro x hx
        rcases List.mem_cons.1 hx with rfl | hx
        · simp only [List.mem_cons, not_or]
          exact ⟨fun h => hc h.symm, h2 l (by simp)⟩
        · exact h2 x (by simp [hx])
      · rw [h3]
        cases ls <;> simp [sepBy]

theorem sepBy_cons {sep x : List Char} {l : List (List Char)} (h : l ≠ []) : sepBy sep (x :: l) = x ++ sep ++ sepBy sep l := by
  obtain ⟨y, l, rfl⟩ := List.exists_cons_of_ne_nil h
  simp [sepBy]

theorem linesOf_cons {t x : List Char} {ls : List (List Char)} (h : LinesOf t ls) (hx : '\n' ∉ x) : LinesOf (x ++ '\n' :: t) (x :: ls) := by
  refine ⟨by simp, by simpa using ⟨hx, h.2.1⟩, ?_⟩
  rw [sepBy_cons h.1, h.2.2]
  simp

theorem linesOf_append {t t' : List Char} {ls ls' : List (List Char)} (h : LinesOf t ls) (h' : LinesOf t' ls') : LinesOf (t ++ '\n' :: t') (ls ++ ls') := by
  obtain ⟨h1, h2, h3⟩ := h
  subst h3
  induction ls with
  | nil => exact absurd rfl h1
  | cons x ls ih =>
    rcases eq_or_ne ls [] with rfl | hne
    · simpa [sepBy] using linesOf_cons h' (h2 x (by simp))
    · have := linesOf_cons (ih hne fun l hl => h2 l (by simp [hl])) (h2 x (by simp))
      rw [sepBy_cons hne]
      simpa using this

theorem linesOf_one {x : List Char} (hx : '\n' ∉ x) : LinesOf x [x] := ⟨by simp, by simpa using hx, by simp [sepBy]⟩

theorem shifted_eq (l : Text) : (if hasText l then ' ' :: ' ' :: l else l) = shifted l := by
  unfold shifted
  by_cases h : ∀ c ∈ l, c.isWhitespace = true
  · rw [if_neg (by simpa [hasText] using h), if_pos h]
  · rw [if_pos (by simpa [hasText] using h), if_neg h]
    rfl

theorem indent_lines {t : Text} {ls : List Text} (h : LinesOf t ls) (hs : splitLines t = ls) : LinesOf (indentText t) (ls.map shifted) := by
  refine ⟨by simpa using h.1, fun l hl => ?_, ?_⟩
  · obtain ⟨x, hx, rfl⟩ := List.mem_map.1 hl
    have := h.2.1 x hx
    unfold shifted
    split
    · exact this
    · simpa using this
  · rw [indentText, hs, joinText_eq]
    simp only [shifted_eq]

theorem noLine {env : Text} (henv : '\n' ∉ env) {a b : Text} (ha : '\n' ∉ a) (hb : '\n' ∉ b) : '\n' ∉ a ++ env ++ b := by
  simp only [List.mem_append, not_or]
  exact ⟨⟨ha, henv⟩, hb⟩

theorem beginEnd_lines {env t : Text} (henv : '\n' ∉ env) {ls : List Text} (h : LinesOf t ls) :
    LinesOf (beginEnd env (t ++ ['\n'])) (["\\begin{".toList ++ env ++ "}".toList] ++ ls ++ ["\\end{".toList ++ env ++ "}".toList]) := by
  have h1 : LinesOf ("\\end{".toList ++ env ++ "}".toList) ["\\end{".toList ++ env ++ "}".toList] := linesOf_one (noLine henv (by decide) (by decide))
  have h2 := linesOf_cons (linesOf_append h h1) (noLine henv (a := "\\begin{".toList) (b := "}".toList) (by decide) (by decide))
  have e0 : ∀ a b c : Text, a ++ env ++ b ++ ['\n'] ++ (t ++ ['\n']) ++ c ++ env ++ b = (a ++ env ++ b) ++ '\n' :: (t ++ '\n' :: (c ++ env ++ b)) := fun a b c => by simp
  unfold beginEnd
  generalize "\\begin{".toList = a at *
  generalize "\\end{".toList = c at *
  generalize "}".toList = b at *
  rw [e0]
  exact h2

/-- C78 (LaTeX): the printed lines are those of the declarations and expressions, separated by `\\\\`, in a `gathered` environment if there are declarations, inside of the environment asked for, with the label as the
last line; the lines in an environment are moved to the right by two blanks. -/
theorem C78_latex {width : ℕ} (hw : 0 < width) (categories : List (List Text)) (body : List Text) {env label : Text} (henv : '\n' ∉ env) (hlabel : '\n' ∉ label) :
    ∃ lines : List (List (List Text)), List.Forall₂ (Wrapped width) categories lines ∧ ∃ ls : List Text, LinesOf (sepBy "\n\\\\\n".toList (lines.flatten.map (sepBy ", \\,".toList) ++ body)) ls ∧
      LinesOf (latexText width categories body env label)
        (let block := if ∀ c ∈ categories, c = [] then ls else boxed "gathered".toList ls []
         if env = [] then block else boxed env block (if label = [] then [] else ["\\label{".toList ++ label ++ "}".toList])) := by
  obtain ⟨lines, hl, ht⟩ := C78_text hw latexComma latexNewline categories body
  have hs := splitLines_spec (preambleText width latexComma latexNewline categories body)
  refine ⟨lines, hl, splitLines (preambleText width latexComma latexNewline categories body), ht ▸ hs, ?_⟩
  have huniq : ∀ {t : Text} {ls : List Text}, LinesOf t ls → splitLines t = ls := by
    intro t ls h
    obtain ⟨h1, h2, rfl⟩ := h
    induction ls with
    | nil => exact absurd rfl h1
    | cons x ls ih =>
      have hx : '\n' ∉ x := h2 x (by simp)
      have key : ∀ (y rest : Text), '\n' ∉ y → splitLines (y ++ '\n' :: rest) = y :: splitLines rest := by
        intro y rest hy
        induction y with
        | nil => simp [splitLines]
        | cons c y ihy =>
          simp only [List.mem_cons, not_or] at hy
          rw [List.cons_append, splitLines, if_neg fun h => hy.1 h.symm, ihy hy.2]
      have key0 : ∀ y : Text, '\n' ∉ y → splitLines y = [y] := by
        intro y hy
        induction y with
        | nil => rfl
        | cons c y ihy =>
          simp only [List.mem_cons, not_or] at hy
          rw [splitLines, if_neg fun h => hy.1 h.symm, ihy hy.2]
      rcases eq_or_ne ls [] with rfl | hne
      · simpa [sepBy] using key0 x hx
      · rw [sepBy_cons hne, List.append_assoc, List.singleton_append, key x _ hx, ih hne fun l hl => h2 l (by simp [hl])]
  have hblock : LinesOf (gatheredText width categories body) (if ∀ c ∈ categories, c = [] then splitLines (preambleText width latexComma latexNewline categories body)
      else boxed "gathered".toList (splitLines (preambleText width latexComma latexNewline categories body)) []) := by
    have hiff : preambleLines width latexComma latexNewline categories = [] ↔ ∀ c ∈ categories, c = [] := by
      simp [preambleLines, List.filter_eq_nil_iff]
    unfold gatheredText
    by_cases h : ∀ c ∈ categories, c = []
    · rw [if_pos (hiff.2 h), if_pos h]
      exact hs
    · rw [if_neg fun h' => h (hiff.1 h'), if_neg h, boxed, List.append_nil]
      exact beginEnd_lines (env := "gathered".toList) (by decide) (indent_lines hs rfl)
  unfold latexText
  by_cases he : env = []
  · simpa only [he, if_true] using hblock
  · simp only [if_neg he]
    have hi := indent_lines hblock (huniq hblock)
    by_cases hlab : label = []
    · rw [if_pos hlab, if_pos hlab, List.append_nil, boxed, List.append_nil]
      exact beginEnd_lines henv hi
    · rw [if_neg hlab, if_neg hlab, boxed]
      have h1 := linesOf_append hi (linesOf_one (noLine hlabel (a := "\\label{".toList) (b := "}".toList) (by decide) (by decide)))
      have h2 := beginEnd_lines henv h1
      have e0 : ∀ t a b : Text, t ++ ['\n'] ++ (a ++ label ++ b ++ ['\n']) = t ++ '\n' :: (a ++ label ++ b) ++ ['\n'] := fun t a b => by simp
      have e1 := e0 (indentText (gatheredText width categories body)) "\\label{".toList "}".toList
      have e2 : ∀ (a b c d : List Text), a ++ (b ++ c) ++ d = a ++ b ++ c ++ d := fun a b c d => by simp
      rw [e2, ← e1] at h2
      exact h2

namespace PrintDemo

/-- Two declarations reach the width of ten, the third goes to the next line. -/
example : wrapLines 10 ["a in R".toList, "b in R".toList, "c in R".toList] = [["a in R".toList, "b in R".toList], ["c in R".toList]] := by
  decide +kernel

example := C78_lines (width := 40) (by norm_num) ["X in R".toList, "Y in R".toList]
/-- `X in R`, `X ~ N(0, 1)` and `X` in an equation with a label. -/
example : latexText 40 [["X \\in \\mathbb{R}".toList]] ["X".toList] "equation".toList "eq:x".toList =
    "\\begin{equation}\n  \\begin{gathered}\n    X \\in \\mathbb{R}\n    \\\\\n    X\n  \\end{gathered}\n\\label{eq:x}\n\\end{equation}".toList := by decide +kernel

example := C78_latex (width := 40) (by norm_num) [["X \\in \\mathbb{R}".toList], []] ["X".toList] (env := "equation".toList) (label := "eq:x".toList) (by decide) (by decide)
example := C78_text (width := 40) (by norm_num) ", ".toList "\n".toList [["X in R".toList], [], ["X ~ N(0, 1)".toList]] ["X".toList]

end PrintDemo

/-! ## The categories across calls -/

/-- C81: a printer without preset categories prints for every expression what it prints for it alone. -/
theorem C81_repeatable_partial (calls : List (List (Text × Text))) :
    printCalls [] calls = calls.map fun decls => (printCall [] decls).1 := by
  induction calls with
  | nil => rfl
  | cons decls calls ih =>
    rw [printCalls, List.map_cons, ← ih]
    rfl

theorem get?_addDecl (d : Dict Text (List Text)) (k x k' : Text) :
    (addDecl d k x).get? k' = if k = k' then some ((d.get? k).getD [] ++ [x]) else d.get? k' := Dict.get?_set _ _ _ _

/-- With a preset category the declarations of one call are printed again by the next, whatever the latter declares. -/
theorem C81_preset_category_wrong {defaults : Dict Text (List Text)} {k : Text} (hk : k ∈ defaults.keys) (decl : Text)
    (decls : List (Text × Text)) :
    ∃ first second, printCalls defaults [[(k, decl)], decls] = [first, second] ∧ ∃ l, second.get? k = some l ∧ decl ∈ l := by
  refine ⟨_, _, rfl, ?_⟩
  have mono : ∀ (decls : List (Text × Text)) (d : Dict Text (List Text)), (∃ l, d.get? k = some l ∧ decl ∈ l) →
      ∃ l, (decls.foldl (fun d p => addDecl d p.1 p.2) d).get? k = some l ∧ decl ∈ l := by
    intro decls
    induction decls with
    | nil => intro d h; exact h
    | cons p decls ih =>
      rintro d ⟨l, hl, hmem⟩
      refine ih _ ?_
      rw [get?_addDecl]
      split_ifs with h
      · subst h
        refine ⟨_, rfl, ?_⟩
        simp [hl, hmem]
      · exact ⟨l, hl, hmem⟩
  refine mono decls _ ?_
  have hst : (addDecl defaults k decl).get? k = some ((defaults.get? k).getD [] ++ [decl]) := by simp [get?_addDecl]
  have key : ∀ (d : Dict Text (List Text)), k ∈ d.keys → Dict.get? (d.map fun p => (p.1, ((addDecl defaults k decl).get? p.1).getD p.2)) k
      = some ((defaults.get? k).getD [] ++ [decl]) := by
    intro d
    induction d with
    | nil => intro h; simp [Dict.keys] at h
    | cons p d ih =>
      intro h
      by_cases hp : p.1 = k
      · simp [Dict.get?, hp, hst]
      · simp only [List.map_cons, Dict.get?, hp, if_false]
        refine ih ?_
        simp only [Dict.keys, List.map_cons, List.mem_cons] at h
        rcases h with h | h
        exacts [absurd h.symm hp, h]
  exact ⟨_, key defaults hk, by simp⟩

namespace PrintDemo

/-- Preset category `r`: the second call prints the declaration of the first as well. -/
example : printCalls [(['r'], [])] [[(['r'], ['X'])], [(['r'], ['Y'])]] = [[(['r'], [['X']])], [(['r'], [['X'], ['Y']])]] := by
  decide +kernel
example : printCalls [] [[(['r'], ['X'])], [(['r'], ['Y'])]] = [[(['r'], [['X']])], [(['r'], [['Y']])]] := by decide +kernel
example := C81_preset_category_wrong (defaults := [(['r'], [])]) (k := ['r']) (by simp [Dict.keys]) ['X'] [(['r'], ['Y'])]

end PrintDemo

/-! ## Indices -/

section Indices
variable {ι : Type}

/-- How Aesara's `Subtensor` represents an index: the entries without the variables. -/
def IdxEntry.of : Ix ι → IdxEntry
  | .one _ => .index
  | .slice a b c => .slice a.isSome b.isSome c.isSome

theorem popLast_concat (l : List ι) (x : ι) : popLast (l ++ [x]) = .ok (x, l) := by
  simp [popLast]

theorem popPart_spec (p : ι → Text) (a : Option ι) (rest : List ι) :
    popPart p a.isSome (rest ++ a.toList) = .ok (a.map p, rest) := by
  cases a with
  | none => simp [popPart]; rfl
  | some a => simp only [popPart, Option.isSome_some, if_true, Option.toList_some, popLast_concat]; rfl

theorem printEntry_spec (p : ι → Text) (ix : Ix ι) (rest : List ι) :
    printEntry p (rest ++ ix.vars.reverse) (.of ix) = .ok (ix.render p, rest) := by
  cases ix with
  | one i => simp only [Ix.vars, List.reverse_singleton, IdxEntry.of, printEntry, popLast_concat]; rfl
  | slice a b c =>
    have e : rest ++ (Ix.slice a b c).vars.reverse = ((rest ++ c.toList) ++ b.toList) ++ a.toList := by
      cases a <;> cases b <;> cases c <;> simp [Ix.vars]
    rw [e]
    simp only [IdxEntry.of, printEntry, popPart_spec, bind, Except.bind]
    cases c with
    | none => simp [joinText, Ix.render]; rfl
    | some c => simp [joinText, Ix.render]; rfl

theorem printEntries_spec (p : ι → Text) : ∀ ixs : List (Ix ι),
    printEntries p (ixs.flatMap Ix.vars).reverse (ixs.map .of) = .ok (ixs.map (Ix.render p))
  | [] => rfl
  | ix :: ixs => by
    rw [List.flatMap_cons, List.reverse_append, List.map_cons]
    simp only [printEntries, printEntry_spec, printEntries_spec p ixs, bind, Except.bind]
    rfl

/-- C79: an index with at most one variable is printed as it is: `i`, `a:`, `:b`, `::c` among any number of `:`. -/
theorem C79_one_partial (p : ι → Text) (obj : ι) (ixs : List (Ix ι)) (h : (ixs.flatMap Ix.vars).length ≤ 1) :
    printSubtensor p (some (ixs.map .of)) obj (ixs.flatMap Ix.vars) = .ok (renderIndexing p obj ixs) := by
  have hrev : (ixs.flatMap Ix.vars).reverse = ixs.flatMap Ix.vars := by
    rcases e : ixs.flatMap Ix.vars with _ | ⟨x, _ | ⟨y, l⟩⟩
    · rfl
    · rfl
    · rw [e] at h; simp at h
  have := printEntries_spec p ixs
  rw [hrev] at this
  simp only [printSubtensor, this, bind, Except.bind, joinText_eq]
  rfl

/-- The same for indexing by one array. -/
theorem C79_array_partial (p : ι → Text) (obj i : ι) :
    printSubtensor p none obj [i] = .ok (renderIndexing p obj [.one i]) := by
  have : printInputs p [i] 0 = [p i] := by
    rw [printInputs, dif_pos (by simp), printInputs, dif_neg (by simp)]; rfl
  simp only [printSubtensor, this, joinText_eq]
  rfl

/-- In general the variables of the index are printed in reverse: `ixs'` is the index with the variables of `ixs` in reverse order. -/
theorem C79_prints_reversed (p : ι → Text) (obj : ι) {ixs ixs' : List (Ix ι)} (hshape : ixs'.map IdxEntry.of = ixs.map .of)
    (hvars : ixs'.flatMap Ix.vars = (ixs.flatMap Ix.vars).reverse) :
    printSubtensor p (some (ixs.map .of)) obj (ixs.flatMap Ix.vars) = .ok (renderIndexing p obj ixs') := by
  have := printEntries_spec p ixs'
  rw [hvars, List.reverse_reverse, hshape] at this
  simp only [printSubtensor, this, bind, Except.bind, joinText_eq]
  rfl

theorem joinText_inj {c : Char} {sep : Text} : ∀ {l m : List Text}, l.length = m.length → (∀ x ∈ l, c ∉ x) → (∀ x ∈ m, c ∉ x) →
    joinText (c :: sep) l = joinText (c :: sep) m → l = m
  | [], [], _, _, _, _ => rfl
  | [x], [y], _, _, _, h => by simpa [joinText] using h
  | x :: x' :: l, y :: y' :: m, hl, h1, h2, h => by
    have key : ∀ {x y r s : Text}, c ∉ x → c ∉ y → x ++ c :: r = y ++ c :: s → x = y ∧ r = s := by
      intro x
      induction x with
      | nil =>
        intro y r s _ hy h
        cases y with
        | nil => simpa using h
        | cons b y => simp at h; exact absurd (by simp [h.1]) hy
      | cons a x ih =>
        intro y r s hx hy h
        cases y with
        | nil => simp at h; exact absurd (by simp [h.1]) hx
        | cons b y =>
          simp only [List.cons_append, List.cons.injEq] at h
          have := ih (fun h => hx (by simp [h])) (fun h => hy (by simp [h])) h.2
          exact ⟨by rw [h.1, this.1], this.2⟩
    simp only [joinText, List.append_assoc, List.cons_append] at h
    obtain ⟨h3, h4⟩ := key (h1 x (by simp)) (h2 y (by simp)) h
    have h5 := List.append_cancel_left h4
    rw [h3, joinText_inj (l := x' :: l) (m := y' :: m) (by simpa using hl) (fun z hz => h1 z (by simp [hz]))
      (fun z hz => h2 z (by simp [hz])) h5]

/-- C79 is false of several integers: unless the printed indices read the same in both directions, the text is wrong.
(Commas inside the indices are excluded, with them the text could be right by accident.) -/
theorem C79_several_wrong (p : ι → Text) (obj : ι) (is : List ι) (hc : ∀ i ∈ is, ',' ∉ p i)
    (hpal : (is.map p).reverse ≠ is.map p) :
    printSubtensor p (some (is.map fun _ => .index)) obj is ≠ .ok (renderIndexing p obj (is.map .one)) := by
  have h := C79_prints_reversed p obj (ixs := is.map .one) (ixs' := is.reverse.map .one)
    (by simp [Function.comp_def, IdxEntry.of, List.map_const'])
    (by rw [List.flatMap_map, List.flatMap_map]; simp [Ix.vars, List.flatMap_singleton'])
  have e1 : (is.map Ix.one).map IdxEntry.of = is.map fun _ => .index := by simp [Function.comp_def, IdxEntry.of]
  have e2 : (is.map Ix.one).flatMap Ix.vars = is := by simp [List.flatMap_map, Ix.vars, List.flatMap_singleton']
  rw [e1, e2] at h
  rw [h]
  intro h'
  have h'' : renderIndexing p obj (is.reverse.map .one) = renderIndexing p obj (is.map .one) := by injection h'
  simp only [renderIndexing, List.append_assoc] at h''
  have h3 := List.append_cancel_left (List.append_cancel_left h'')
  have h4 := List.append_cancel_right h3
  simp only [List.map_map] at h4
  have h5 : joinText [',', ' '] (is.reverse.map p) = joinText [',', ' '] (is.map p) := by
    rw [joinText_eq, joinText_eq]; exact h4
  refine hpal ?_
  rw [← List.map_reverse]
  exact joinText_inj (by simp) (by simpa using hc) (by simpa using hc) h5

theorem printInputs_length (p : ι → Text) (inputs : List ι) (i : ℕ) :
    (printInputs p inputs i).length = (inputs.length + 1 - i) / 2 := by
  fun_induction printInputs p inputs i with
  | case1 inputs i h ih =>
    rw [List.length_cons, ih, List.length_dropLast]; omega
  | case2 inputs i h => simp only [List.length_nil]; omega

theorem printInputs_mem (p : ι → Text) (inputs : List ι) (i : ℕ) : ∀ s ∈ printInputs p inputs i, ∃ x ∈ inputs, s = p x := by
  fun_induction printInputs p inputs i with
  | case1 inputs i h ih =>
    intro s hs
    rcases List.mem_cons.1 hs with rfl | hs
    · exact ⟨_, List.getLast_mem _, rfl⟩
    · obtain ⟨x, hx, rfl⟩ := ih s hs
      exact ⟨x, List.mem_of_mem_dropLast hx, rfl⟩
  | case2 inputs i h => simp

theorem count_joinText {c : Char} {sep : Text} (hs : c ∉ sep) : ∀ {l : List Text}, (∀ x ∈ l, c ∉ x) →
    (joinText (c :: sep) l).count c = l.length - 1
  | [], _ => rfl
  | [x], h => List.count_eq_zero_of_not_mem (h x (by simp))
  | x :: y :: l, h => by
    have := count_joinText hs (l := y :: l) fun z hz => h z (by simp [hz])
    rw [joinText, List.count_append, List.count_append, this, List.count_eq_zero_of_not_mem (h x (by simp)), List.count_cons_self,
      List.count_eq_zero_of_not_mem hs]
    simp; omega

/-- C79 is false of every indexing by several arrays: the list of the indices is shortened while it is read, so that only
every other index is printed. -/
theorem C79_arrays_wrong (p : ι → Text) (obj : ι) (is : List ι) (h2 : 2 ≤ is.length) (hc : ∀ i ∈ is, ',' ∉ p i) :
    printSubtensor p none obj is ≠ .ok (renderIndexing p obj (is.map .one)) := by
  intro h
  have h' : p obj ++ ['['] ++ joinText [',', ' '] (printInputs p is 0) ++ [']'] = renderIndexing p obj (is.map .one) := by
    simp only [printSubtensor] at h
    injection h
  rw [renderIndexing, ← joinText_eq] at h'
  have h3 := congrArg (List.count ',') h'
  have e : (", ".toList : List Char) = [',', ' '] := rfl
  rw [e] at h3
  simp only [List.count_append, List.map_map] at h3
  rw [count_joinText (by decide) (l := printInputs p is 0), count_joinText (by decide) (l := is.map _), printInputs_length] at h3
  · simp only [List.length_map] at h3
    have e1 : List.count ',' ['['] = 0 := by decide
    have e2 : List.count ',' "[".toList = 0 := by decide +kernel
    have e3 : List.count ',' [']'] = 0 := by decide
    have e4 : List.count ',' "]".toList = 0 := by decide +kernel
    omega
  · simpa [Function.comp_def, Ix.render] using hc
  · intro s hs
    obtain ⟨x, hx, rfl⟩ := printInputs_mem p is 0 s hs
    exact hc x hx

end Indices

namespace PrintDemo

/-- `x[i, j]` is printed as `x[j, i]`. -/
example : printSubtensor (fun c : Char => [c]) (some [.index, .index]) 'x' ['i', 'j'] = .ok "x[j, i]".toList := by decide +kernel
/-- `x[i:j]` is printed as `x[j:i]`. -/
example : printSubtensor (fun c : Char => [c]) (some [.slice true true false]) 'x' ['i', 'j'] = .ok "x[j:i]".toList := by
  decide +kernel
/-- `x[:, i]` is printed properly. -/
example : printSubtensor (fun c : Char => [c]) (some [.slice false false false, .index]) 'x' ['i'] = .ok "x[:, i]".toList := by
  decide +kernel
/-- With arrays, `x[i, j]` is printed as `x[j]`. -/
example : printSubtensor (fun c : Char => [c]) none 'x' ['i', 'j'] = .ok "x[j]".toList := by
  simp [printSubtensor, printInputs, joinText]

example := C79_one_partial (fun c : Char => [c]) 'x' [.slice none none none, .one 'i'] (by simp [Ix.vars])
example := C79_prints_reversed (fun c : Char => [c]) 'x' (ixs := [.slice (some 'a') (some 'b') none, .one 'i'])
  (ixs' := [.slice (some 'i') (some 'b') none, .one 'a']) rfl rfl
example := C79_several_wrong (fun c : Char => [c]) 'x' ['i', 'j'] (by decide) (by decide)
example := C79_arrays_wrong (fun c : Char => [c]) 'x' ['i', 'j'] (by decide) (by decide)

end PrintDemo

end Verif
