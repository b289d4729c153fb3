import Verif.Lemmas.Cond

/-! # `conditional_logprob` when every requested variable has a node, a value and a term of its own -/

namespace Verif.Cond
open Verif

variable {V D T : Type} [DecidableEq V] [DecidableEq D]

theorem checkValued_simple {B : Backend V V D T} {d : Dict V V} (howner : ∀ v ∈ Dict.keys d, B.owner v = some v) (hdt : ∀ p ∈ d, B.dtype p.2 = B.dtype p.1) :
    checkValued B d = .ok () := by
  induction d with
  | nil => rfl
  | cons p d ih =>
    obtain ⟨v, x⟩ := p
    simp only [checkValued, howner v (by simp [Dict.keys]), hdt (v, x) (by simp), ne_eq, not_true_eq_false, if_false]
    exact ih (fun w hw => howner w (by simp only [Dict.keys, List.map_cons, List.mem_cons] at hw ⊢; exact .inr hw)) fun p hp => hdt p (by simp [hp])

theorem bindLoop_simple {B : Backend V V D T} {realized : Dict V V} {es : List (Entry V V)} {st : St V V} (h : ∀ e ∈ es, B.owner e.rv = some e.node) :
    bindLoop B realized (es.map Entry.src) st = .ok (es.foldl (step realized) st) := by
  induction es generalizing st with
  | nil => rfl
  | cons e es ih =>
    simp only [List.map_cons, Entry.src, bindLoop, h e (by simp), List.foldl_cons]
    exact ih fun e' he' => h e' (by simp [he'])

/-- The loops, before the second one. -/
theorem conditional_start {B : Backend V V D T} {rvs clones : List V} {realized d : Dict V V} (hd : d = rvValues rvs clones realized) (howner : ∀ v ∈ Dict.keys d, B.owner v = some v)
    (hdt : ∀ p ∈ d, B.dtype p.2 = B.dtype p.1) {val base : V → V} (hrw : B.rewrite d = .ok (d.map fun p => some ⟨p.1, val p.1⟩, d.map fun p => base p.1)) :
    conditionalLogprob B rvs clones realized =
      nodeLoop B (run realized (d.map fun p => ⟨p.1, val p.1, p.1, base p.1, p.1⟩)) (d.map fun p => (p.1, [(val p.1, base p.1)])) ([], []) := by
  have hnd : (Dict.keys d).Nodup := hd ▸ rvValues_nodup rvs clones realized
  let es : List (Entry V V) := d.map fun p => ⟨p.1, val p.1, p.1, base p.1, p.1⟩
  have hzip : List.zip (Dict.keys d) (d.map fun p => base p.1) = d.map fun p => (p.1, base p.1) := by
    rw [Dict.keys, List.zip_map']
  have hsrc : List.zip (d.map fun p => some (⟨p.1, val p.1⟩ : ValuedOut V)) (d.map fun p => (p.1, base p.1)) = es.map Entry.src := by
    rw [List.zip_map', List.map_map]
    rfl
  have hnd' : ((d.map fun p => (p.1, base p.1)).map Prod.fst).Nodup := by
    rw [List.map_map]; exact hnd
  have hnodes : (es.map Entry.node).Nodup := by
    have : es.map Entry.node = Dict.keys d := by simp only [es, List.map_map]; rfl
    rw [this]; exact hnd
  rw [conditionalLogprob, constructIr, ← hd, checkValued_simple howner hdt, hrw]
  simp only
  rw [hzip, Dict.ofList_of_nodup hnd', hsrc, bindLoop_simple (es := es) fun e he => by
    obtain ⟨p, hp, rfl⟩ := List.mem_map.1 he
    exact howner p.1 (List.mem_map.2 ⟨p, hp, rfl⟩)]
  show nodeLoop B (run realized es) (run realized es).nodesToVals ([], []) = _
  rw [run_of_nodup realized es hnodes, List.map_map]
  rfl

/-- All of it. -/
theorem conditional_simple {B : Backend V V D T} {rvs clones : List V} {realized d : Dict V V} (hd : d = rvValues rvs clones realized) (howner : ∀ v ∈ Dict.keys d, B.owner v = some v)
    (hdt : ∀ p ∈ d, B.dtype p.2 = B.dtype p.1) {val base : V → V} (hrw : B.rewrite d = .ok (d.map fun p => some ⟨p.1, val p.1⟩, d.map fun p => base p.1))
    (hmo : ∀ v ∈ Dict.keys d, B.measurableOutputs v = [v]) {t : V → T} (hlp : ∀ v ∈ Dict.keys d, B.logprob v [val v] = .ok [t v]) :
    conditionalLogprob B rvs clones realized = .ok (d.map fun p => (p.1, t p.1), ((Dict.keys d).filter (· ∉ Dict.keys realized)).map base) := by
  rw [conditional_start hd howner hdt hrw]
  have hnd : (Dict.keys d).Nodup := hd ▸ rvValues_nodup rvs clones realized
  set es : List (Entry V V) := d.map fun p => ⟨p.1, val p.1, p.1, base p.1, p.1⟩ with hes
  have hold : ∀ v ∈ Dict.keys d, Dict.get? (run realized es).newToOld v = some v := by
    intro v hv
    obtain ⟨p, hp, rfl⟩ := List.mem_map.1 hv
    obtain ⟨old, h⟩ := run_newToOld_of_mem realized es (e := ⟨p.1, val p.1, p.1, base p.1, p.1⟩) (List.mem_map.2 ⟨p, hp, rfl⟩)
    obtain ⟨e, he, h1, h2⟩ := run_newToOld realized es h
    obtain ⟨q, hq, rfl⟩ := List.mem_map.1 he
    simp only at h1 h2
    rw [h, ← h2, h1]
  have hreal : ∀ v ∈ Dict.keys d, v ∈ (run realized es).realizedVars ↔ v ∈ Dict.keys realized := by
    intro v hv
    rw [run_realized]
    constructor
    · rintro ⟨e, he, h1, h2⟩
      obtain ⟨q, hq, rfl⟩ := List.mem_map.1 he
      rw [← h1]; exact h2
    · intro h
      obtain ⟨p, hp, rfl⟩ := List.mem_map.1 hv
      exact ⟨_, List.mem_map.2 ⟨p, hp, rfl⟩, rfl, h⟩
  have key : ∀ (l p : Dict V V) (vs : List V), d = p ++ l →
      nodeLoop B (run realized es) (l.map fun p => (p.1, [(val p.1, base p.1)])) (p.map (fun p => (p.1, t p.1)), vs) =
        .ok (d.map fun p => (p.1, t p.1), vs ++ ((Dict.keys l).filter (· ∉ Dict.keys realized)).map base) := by
    intro l
    induction l with
    | nil =>
      intro p vs hp
      rw [List.append_nil] at hp
      simp [nodeLoop, hp, Dict.keys]
    | cons a l ih =>
      intro p vs hp
      have ha : a.1 ∈ Dict.keys d := by rw [hp]; simp [Dict.keys]
      have hnew : a.1 ∉ Dict.keys (p.map fun p => (p.1, t p.1)) := by
        intro hm
        rw [Dict.keys, List.map_map] at hm
        rw [hp, Dict.keys, List.map_append, List.map_cons] at hnd
        exact (List.nodup_append.1 hnd).2.2 _ hm _ (by simp) rfl
      simp only [List.map_cons, nodeLoop, hmo _ ha, List.map_nil, hlp _ ha, List.cons_ne_nil, if_false, List.length_singleton, lt_irrefl, ne_eq, not_true_eq_false, List.zip_cons_cons,
        List.zip_nil_right, termLoop, hold _ ha]
      rw [Dict.set_of_not_mem hnew]
      have e : (p.map fun p => (p.1, t p.1)) ++ [(a.1, t a.1)] = (p ++ [a]).map fun p => (p.1, t p.1) := by simp
      rw [e, ih (p ++ [a]) _ (by simp [hp])]
      congr 2
      by_cases hr : a.1 ∈ Dict.keys realized
      · rw [if_pos ((hreal _ ha).2 hr)]
        simp only [Dict.keys] at hr
        simp [Dict.keys, hr]
      · rw [if_neg fun h => hr ((hreal _ ha).1 h)]
        simp only [Dict.keys] at hr
        simp [Dict.keys, hr]
  have := key d [] [] rfl
  simpa using this

/-- The first variable for which there is no term decides. -/
theorem conditional_fail {B : Backend V V D T} {rvs clones : List V} {realized d : Dict V V} (hd : d = rvValues rvs clones realized) (howner : ∀ v ∈ Dict.keys d, B.owner v = some v)
    (hdt : ∀ p ∈ d, B.dtype p.2 = B.dtype p.1) {val base : V → V} (hrw : B.rewrite d = .ok (d.map fun p => some ⟨p.1, val p.1⟩, d.map fun p => base p.1))
    {p q : Dict V V} {a : V × V} (hsplit : d = p ++ a :: q) (hmo : ∀ v ∈ Dict.keys p, B.measurableOutputs v = [v]) (hlp : ∀ v ∈ Dict.keys p, ∃ t, B.logprob v [val v] = .ok [t]) {err : Err}
    (ha : B.measurableOutputs a.1 = [] ∧ err = .densityNotFound ∨ B.measurableOutputs a.1 = [a.1] ∧ B.logprob a.1 [val a.1] = .error err) :
    conditionalLogprob B rvs clones realized = .error err := by
  rw [conditional_start hd howner hdt hrw]
  set es : List (Entry V V) := d.map fun p => ⟨p.1, val p.1, p.1, base p.1, p.1⟩ with hes
  have hold : ∀ v ∈ Dict.keys d, Dict.get? (run realized es).newToOld v = some v := by
    intro v hv
    obtain ⟨p, hp, rfl⟩ := List.mem_map.1 hv
    obtain ⟨old, h⟩ := run_newToOld_of_mem realized es (e := ⟨p.1, val p.1, p.1, base p.1, p.1⟩) (List.mem_map.2 ⟨p, hp, rfl⟩)
    obtain ⟨e, he, h1, h2⟩ := run_newToOld realized es h
    obtain ⟨q, hq, rfl⟩ := List.mem_map.1 he
    simp only at h1 h2
    rw [h, ← h2, h1]
  have hsub : ∀ v ∈ Dict.keys p, v ∈ Dict.keys d := by
    intro v hv
    rw [hsplit, Dict.keys, List.map_append]
    exact List.mem_append_left _ hv
  generalize run realized es = st at hold ⊢
  rw [hsplit]
  clear hsplit hrw hes
  clear_value es
  generalize (([], []) : Dict V T × List V) = acc
  induction p generalizing acc with
  | nil =>
    rcases ha with ⟨h, rfl⟩ | ⟨h, h'⟩
    · simp only [List.nil_append, List.map_cons, nodeLoop, h, if_true]
    · simp only [List.nil_append, List.map_cons, nodeLoop, h, List.cons_ne_nil, if_false, List.length_singleton, lt_irrefl, ne_eq, not_true_eq_false, List.map_nil, h']
  | cons b p ih =>
    have hb : b.1 ∈ Dict.keys (b :: p) := by simp [Dict.keys]
    obtain ⟨t, ht⟩ := hlp _ hb
    obtain ⟨a1, a2⟩ := acc
    simp only [List.cons_append, List.map_cons, nodeLoop, hmo _ hb, List.cons_ne_nil, if_false, List.length_singleton, lt_irrefl, ne_eq, not_true_eq_false, List.map_nil, ht,
      List.zip_cons_cons, List.zip_nil_right, termLoop, hold _ (hsub _ hb)]
    exact ih (fun v hv => hmo v (List.mem_cons_of_mem _ hv)) (fun v hv => hlp v (List.mem_cons_of_mem _ hv)) (fun v hv => hsub v (List.mem_cons_of_mem _ hv)) _

end Verif.Cond
