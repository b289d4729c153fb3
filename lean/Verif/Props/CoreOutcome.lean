import Verif.Spec.CoreOutcome
import Verif.Props.Core

/-! # C06: the error of every request -/

set_option linter.unusedSectionVars false

namespace Verif.Cond
open Verif

variable {V N D T : Type} [DecidableEq V] [DecidableEq N] [DecidableEq D] {B : Backend V N D T}

theorem run_keys (realized : Dict V V) (es : List (Entry V N)) : Dict.keys (run realized es).nodesToVals = firstOcc (es.map Entry.node) := by
  induction es using List.reverseRecOn with
  | nil => rfl
  | append_singleton es e ih =>
    rw [run_append, List.map_append]
    simp only [List.map_cons, List.map_nil, firstOcc_append, step, appendVal]
    by_cases h : e.node ∈ es.map Entry.node
    · rw [if_pos h, Dict.keys_set_of_mem, ih]
      rw [ih, mem_firstOcc]; exact h
    · have hk : e.node ∉ Dict.keys (run realized es).nodesToVals := by rw [ih, mem_firstOcc]; exact h
      rw [if_neg h, Dict.set_of_not_mem hk, ← ih]
      simp [Dict.keys]

theorem run_nodes (realized : Dict V V) (es : List (Entry V N)) :
    (run realized es).nodesToVals = (firstOcc (es.map Entry.node)).map fun n => (n, (es.filter (·.node = n)).map fun e => (e.val, e.base)) := by
  rw [← run_keys realized es, Dict.keys, List.map_map]
  conv_lhs => rw [← List.map_id (run realized es).nodesToVals]
  refine List.map_congr_left fun p hp => ?_
  obtain ⟨n, l⟩ := p
  exact Prod.ext rfl ((run_mem realized es).1 hp).2

theorem termLoop_total {st : St V N} {ts : List (T × V × V)} (h : ∀ t ∈ ts, ∃ old, Dict.get? st.newToOld t.2.1 = some old) (acc : Dict V T × List V) : ∃ acc', termLoop st ts acc = .ok acc' := by
  induction ts generalizing acc with
  | nil => exact ⟨acc, rfl⟩
  | cons t ts ih =>
    obtain ⟨lp, o, b⟩ := t
    obtain ⟨d, vv⟩ := acc
    obtain ⟨old, ho⟩ := h _ List.mem_cons_self
    have ho : Dict.get? st.newToOld o = some old := ho
    simp only [termLoop, ho]
    exact ih (fun t ht => h t (List.mem_cons_of_mem _ ht)) _

theorem nodeLoop_skip {st : St V N} {pre post : List (N × List (V × V))} (h : ∀ p ∈ pre, B.measurableOutputs p.1 ≠ [] ∧ (B.measurableOutputs p.1).length = p.2.length ∧
    (∃ lps, B.logprob p.1 (p.2.map Prod.fst) = .ok lps) ∧ ∀ o ∈ B.measurableOutputs p.1, ∃ old, Dict.get? st.newToOld o = some old) (acc : Dict V T × List V) :
    ∃ acc', nodeLoop B st (pre ++ post) acc = nodeLoop B st post acc' := by
  induction pre generalizing acc with
  | nil => exact ⟨acc, rfl⟩
  | cons p pre ih =>
    obtain ⟨n, pairs⟩ := p
    obtain ⟨h1, h2, ⟨lps, h3⟩, h4⟩ := h _ List.mem_cons_self
    simp only at h1 h2 h3 h4
    obtain ⟨acc', ha⟩ := termLoop_total (st := st) (ts := List.zip lps (List.zip (B.measurableOutputs n) (pairs.map Prod.snd))) (fun t ht => by
      obtain ⟨lp, o, b⟩ := t
      exact h4 o (List.of_mem_zip (List.of_mem_zip ht).2).1) acc
    have : nodeLoop B st ((n, pairs) :: pre ++ post) acc = nodeLoop B st (pre ++ post) acc' := by
      simp only [List.cons_append, nodeLoop, if_neg h1, h2, lt_self_iff_false, if_false, ne_eq, not_true_eq_false, h3, ha]
    rw [this]
    exact ih (fun q hq => h q (List.mem_cons_of_mem _ hq)) acc'

/-- The entries of the first loop when every output has a node. -/
theorem bindLoop_entries {realized : Dict V V} {os : List (ValuedOut V)} (hown : ∀ o ∈ os, ∃ n, B.owner o.rv = some n) {kv : List (V × V)} (hl : kv.length = os.length) :
    ∃ es : List (Entry V N), (∀ e ∈ es, B.owner e.rv = some e.node) ∧ es.map (fun e => (⟨e.rv, e.val⟩ : ValuedOut V)) = os ∧ bindLoop B realized (List.zip (os.map some) kv) ⟨[], [], []⟩ = .ok (run realized es) := by
  have gen : ∀ (os : List (ValuedOut V)) (kv : List (V × V)) (st : St V N), (∀ o ∈ os, ∃ n, B.owner o.rv = some n) → kv.length = os.length →
      ∃ es : List (Entry V N), (∀ e ∈ es, B.owner e.rv = some e.node) ∧ es.map (fun e => (⟨e.rv, e.val⟩ : ValuedOut V)) = os ∧ bindLoop B realized (List.zip (os.map some) kv) st = .ok (es.foldl (step realized) st) := by
    intro os
    induction os with
    | nil => intro kv st _ _; exact ⟨[], by simp, rfl, rfl⟩
    | cons o os ih =>
      intro kv st hown hl
      obtain ⟨n, hn⟩ := hown o List.mem_cons_self
      rcases kv with _ | ⟨⟨old, val⟩, kv⟩
      · simp at hl
      · obtain ⟨es, h1, h2, h3⟩ := ih kv (step realized st ⟨o.rv, o.val, old, val, n⟩) (fun o' ho' => hown o' (List.mem_cons_of_mem _ ho')) (by simpa using hl)
        refine ⟨⟨o.rv, o.val, old, val, n⟩ :: es, ?_, by rw [List.map_cons, h2], ?_⟩
        · intro e he
          rcases List.mem_cons.1 he with rfl | he
          exacts [hn, h1 e he]
        · simp only [List.map_cons, List.zip_cons_cons, bindLoop, hn]
          exact h3
  exact gen os kv _ hown hl

/-- What the calls come down to, once graph conversion gave valued outputs that all have a node. -/
theorem conditional_eq (hB : Contract B) {rvs clones : List V} {realized : Dict V V} {os : List (ValuedOut V)} {vals : List V} (hchk : checkValued B (rvValues rvs clones realized) = .ok ())
    (hr : B.rewrite (rvValues rvs clones realized) = .ok (os.map some, vals)) (hown : ∀ o ∈ os, ∃ n, B.owner o.rv = some n) :
    ∃ es : List (Entry V N), (∀ e ∈ es, B.owner e.rv = some e.node) ∧ es.map (fun e => (⟨e.rv, e.val⟩ : ValuedOut V)) = os ∧
      conditionalLogprob B rvs clones realized = nodeLoop B (run realized es) ((nodesOf B os).map fun n => (n, (es.filter (·.node = n)).map fun e => (e.val, e.base))) ([], []) := by
  have hd := rvValues_nodup rvs clones realized
  obtain ⟨l1, l2⟩ := hB.rewrite _ _ _ hr
  have hfst : (List.zip (Dict.keys (rvValues rvs clones realized)) vals).map Prod.fst = Dict.keys (rvValues rvs clones realized) :=
    List.map_fst_zip (by simp [Dict.keys, l2])
  obtain ⟨es, h1, h2, h3⟩ := bindLoop_entries (B := B) (realized := realized) hown (kv := List.zip (Dict.keys (rvValues rvs clones realized)) vals) (by
    rw [List.length_zip]
    simp only [List.length_map] at l1
    simp [Dict.keys, l1, l2])
  refine ⟨es, h1, h2, ?_⟩
  have hn : nodesOf B os = firstOcc (es.map Entry.node) := by
    rw [nodesOf, ← h2, List.filterMap_map]
    congr 1
    rw [← List.filterMap_eq_map]
    exact List.filterMap_congr fun e he => h1 e he
  rw [conditionalLogprob, constructIr, hchk, hr]
  simp only
  rw [Dict.ofList_of_nodup (by rw [hfst]; exact hd), h3, hn, ← run_nodes realized es]

theorem entries_bound {es : List (Entry V N)} {os : List (ValuedOut V)} (h1 : ∀ e ∈ es, B.owner e.rv = some e.node) (h2 : es.map (fun e => (⟨e.rv, e.val⟩ : ValuedOut V)) = os) (n : N) :
    boundTo B os n = (es.filter (·.node = n)).map fun e => ⟨e.rv, e.val⟩ := by
  rw [boundTo, ← h2, List.filter_map]
  congr 1
  refine List.filter_congr fun e he => ?_
  simp [h1 e he]

theorem complete_ready {es : List (Entry V N)} {os : List (ValuedOut V)} {realized : Dict V V} (h1 : ∀ e ∈ es, B.owner e.rv = some e.node) (h2 : es.map (fun e => (⟨e.rv, e.val⟩ : ValuedOut V)) = os) {n : N}
    (hn : n ∈ nodesOf B os) (hc : Complete B os n) : B.measurableOutputs n ≠ [] ∧ (B.measurableOutputs n).length = ((es.filter (·.node = n)).map fun e => (e.val, e.base)).length ∧
    (∃ lps, B.logprob n (((es.filter (·.node = n)).map fun e => (e.val, e.base)).map Prod.fst) = .ok lps) ∧ ∀ o ∈ B.measurableOutputs n, ∃ old, Dict.get? (run realized es).newToOld o = some old := by
  obtain ⟨hp, lps, hl⟩ := hc
  have hb := entries_bound h1 h2 n
  rw [hb] at hp hl
  simp only [List.map_map, Function.comp_def] at hp hl
  refine ⟨fun h0 => ?_, by simpa using hp.length_eq, ⟨lps, by simpa [List.map_map, Function.comp_def] using hl⟩, fun o ho => ?_⟩
  · rw [nodesOf, mem_firstOcc, List.mem_filterMap] at hn
    obtain ⟨o, ho, hon⟩ := hn
    have : o ∈ boundTo B os n := List.mem_filter.2 ⟨ho, by simpa using hon⟩
    rw [hb] at this
    obtain ⟨e, he, -⟩ := List.mem_map.1 this
    have := hp.length_eq
    rw [h0, List.length_map] at this
    exact absurd (List.length_pos_of_mem he) (by simp at this ⊢; simpa using this.symm)
  · obtain ⟨e, he, rfl⟩ := List.mem_map.1 (hp.subset ho)
    exact run_newToOld_of_mem realized es (List.mem_of_mem_filter he)

/-- **C06** (the error of every request) Graph conversion gave valued outputs that all have a node.  Take the nodes in the order of their first output in the request: if the first nodes are complete, the next one decides.  Without
measurable outputs it raises `DensityNotFound`, with more values than measurable outputs `ValueError`, with fewer `AssertionError`, and when its log-probability raises, `conditional_logprob` raises the same. -/
theorem C06_first_fault (hB : Contract B) {rvs clones : List V} {realized : Dict V V} {os : List (ValuedOut V)} {vals : List V} (hchk : ∀ p ∈ rvValues rvs clones realized, WellValued B p)
    (hr : B.rewrite (rvValues rvs clones realized) = .ok (os.map some, vals)) (hown : ∀ o ∈ os, ∃ n, B.owner o.rv = some n) {pre post : List N} {n : N} (hsplit : nodesOf B os = pre ++ n :: post)
    (hpre : ∀ m ∈ pre, Complete B os m) :
    (B.measurableOutputs n = [] → conditionalLogprob B rvs clones realized = .error .densityNotFound) ∧
    (B.measurableOutputs n ≠ [] → (B.measurableOutputs n).length < (boundTo B os n).length → conditionalLogprob B rvs clones realized = .error .valueError) ∧
    (B.measurableOutputs n ≠ [] → (boundTo B os n).length < (B.measurableOutputs n).length → conditionalLogprob B rvs clones realized = .error .assertion) ∧
    ((boundTo B os n).length = (B.measurableOutputs n).length → ∀ e, B.logprob n ((boundTo B os n).map ValuedOut.val) = .error e → conditionalLogprob B rvs clones realized = .error e) := by
  obtain ⟨es, h1, h2, h3⟩ := conditional_eq hB ((checkValued_ok_iff B _).2 hchk) hr hown
  have hb := entries_bound h1 h2 n
  rw [h3, hsplit, List.map_append]
  obtain ⟨acc, ha⟩ := nodeLoop_skip (B := B) (st := run realized es) (pre := pre.map fun n => (n, (es.filter (·.node = n)).map fun e => (e.val, e.base)))
    (post := (n :: post).map fun n => (n, (es.filter (·.node = n)).map fun e => (e.val, e.base))) (fun p hp => by
      obtain ⟨m, hm, rfl⟩ := List.mem_map.1 hp
      exact complete_ready h1 h2 (by rw [hsplit]; simp [hm]) (hpre m hm)) ([], [])
  rw [ha, List.map_cons]
  have hlen : (boundTo B os n).length = ((es.filter (·.node = n)).map fun e => (e.val, e.base)).length := by rw [hb]; simp
  have hval : (boundTo B os n).map ValuedOut.val = ((es.filter (·.node = n)).map fun e => (e.val, e.base)).map Prod.fst := by rw [hb]; simp [List.map_map, Function.comp_def]
  have hpos : 0 < (boundTo B os n).length := by
    have hn : n ∈ nodesOf B os := by rw [hsplit]; simp
    rw [nodesOf, mem_firstOcc, List.mem_filterMap] at hn
    obtain ⟨o, ho, hon⟩ := hn
    exact List.length_pos_of_mem (List.mem_filter.2 ⟨ho, by simpa using hon⟩)
  rw [hval, hlen] at *
  refine ⟨fun h => ?_, fun h hlt => ?_, fun h hlt => ?_, fun he e hl => ?_⟩
  · simp only [nodeLoop, if_pos h]
  · simp only [nodeLoop, if_neg h, if_pos hlt]
  · simp only [nodeLoop, if_neg h, if_neg hlt.not_gt, if_pos hlt.ne']
  · have h : B.measurableOutputs n ≠ [] := by
      intro h
      rw [h] at he
      rw [he] at hpos
      exact absurd hpos (lt_irrefl 0)
    simp only [nodeLoop, if_neg h, he, lt_self_iff_false, if_false, ne_eq, not_true_eq_false, hl]

/-- **C06** (when it returns) `conditional_logprob` returns exactly if the values have the right types, graph conversion succeeds and gives valued outputs that all have a node, and each of these nodes is complete: all its measurable
outputs are valued, each once, and it has log-probabilities for the values. -/
theorem C06_returns_iff (hB : Contract B) {rvs clones : List V} {realized : Dict V V} :
    (∃ res, conditionalLogprob B rvs clones realized = .ok res) ↔ (∀ p ∈ rvValues rvs clones realized, WellValued B p) ∧ ∃ os vals, B.rewrite (rvValues rvs clones realized) = .ok (os.map some, vals) ∧
      (∀ o ∈ os, ∃ n, B.owner o.rv = some n) ∧ ∀ n ∈ nodesOf B os, Complete B os n := by
  constructor
  · rintro ⟨res, h⟩
    have hchk : checkValued B (rvValues rvs clones realized) = .ok () := by
      rw [conditionalLogprob, constructIr] at h
      cases hc : checkValued B (rvValues rvs clones realized) with
      | error e => simp [hc] at h
      | ok u => rfl
    obtain ⟨es, S⟩ := success_of_ok h
    have hd := rvValues_nodup rvs clones realized
    obtain ⟨vals, hr, -, -⟩ := S.outs hB hd
    refine ⟨(checkValued_ok_iff B _).1 hchk, es.map fun e => ⟨e.rv, e.val⟩, vals, by rw [hr, List.map_map]; rfl, ?_, fun n hn => ?_⟩
    · intro o ho
      obtain ⟨e, he, rfl⟩ := List.mem_map.1 ho
      exact ⟨_, S.owner e he⟩
    · rw [nodesOf, mem_firstOcc, List.filterMap_map, List.mem_filterMap] at hn
      obtain ⟨e, he, hen⟩ := hn
      have : e.node = n := by
        have h' : B.owner e.rv = some n := hen
        rw [S.owner e he] at h'
        exact Option.some.inj h'
      subst this
      rw [Complete, entries_bound S.owner rfl]
      refine ⟨by simpa [List.map_map, Function.comp_def] using S.perm hB he, ?_⟩
      obtain ⟨-, lps, hl⟩ := S.nodes e he
      exact ⟨lps, by simpa [List.map_map, Function.comp_def] using hl⟩
  · rintro ⟨hchk, os, vals, hr, hown, hc⟩
    obtain ⟨es, h1, h2, h3⟩ := conditional_eq hB ((checkValued_ok_iff B _).2 hchk) hr hown
    obtain ⟨acc, ha⟩ := nodeLoop_skip (B := B) (st := run realized es) (pre := (nodesOf B os).map fun n => (n, (es.filter (·.node = n)).map fun e => (e.val, e.base))) (post := []) (fun p hp => by
      obtain ⟨m, hm, rfl⟩ := List.mem_map.1 hp
      exact complete_ready h1 h2 hm (hc m hm)) ([], [])
    rw [List.append_nil] at ha
    exact ⟨acc, by rw [h3, ha]; rfl⟩

/-- A random variable and one of the two outputs of a scan: the random variable is complete, the scan is not. -/
example : conditionalLogprob scanDemo [3, 0] [23, 20] [] = .error .assertion :=
  (C06_first_fault scanDemo_contract.1 (os := [⟨13, 23⟩, ⟨10, 20⟩]) (vals := [23, 20]) (pre := [13]) (n := 100) (post := []) ((checkValued_ok_iff _ _).1 rfl) rfl (fun o _ => ⟨_, rfl⟩) rfl (by
    intro m hm
    rw [List.mem_singleton.1 hm]
    exact ⟨by decide, _, rfl⟩)).2.2.1 (by decide) (by decide)

/-- With both outputs it returns. -/
example : ∃ res, conditionalLogprob scanDemo [3, 0, 1] [23, 20, 21] [] = .ok res :=
  (C06_returns_iff scanDemo_contract.1).2 ⟨(checkValued_ok_iff _ _).1 rfl, [⟨13, 23⟩, ⟨10, 20⟩, ⟨11, 21⟩], [23, 20, 21], rfl, fun o _ => ⟨_, rfl⟩, by
    intro n hn
    have : n ∈ [13, 100] := hn
    simp only [List.mem_cons, List.not_mem_nil, or_false] at this
    rcases this with rfl | rfl <;> exact ⟨by decide, _, rfl⟩⟩

end Verif.Cond
