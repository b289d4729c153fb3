import Verif.Lemmas.Cond
import Verif.Lemmas.FVal
import Verif.Lemmas.Vec

/-! # C01-C06: the core API -/

set_option linter.unusedSectionVars false

namespace Verif.Cond
open Verif FVal

variable {V N D T : Type} [DecidableEq V] [DecidableEq N] [DecidableEq D]

/-! ## C01 -/

theorem FVal_add_assoc (a b c : FVal) : a + b + c = a + (b + c) := by
  cases a <;> cases b <;> cases c <;> first | rfl | simp [add_assoc]

theorem FVal_zero_add (a : FVal) : (0 : FVal) + a = a := by cases a <;> simp

theorem fsum_append (a b : List FVal) : fsum (a ++ b) = fsum a + fsum b := by
  induction a with
  | nil => exact (FVal_zero_add _).symm
  | cons x a ih =>
    show x + fsum (a ++ b) = x + fsum a + fsum b
    rw [ih, FVal_add_assoc]

theorem fsum_flatMap (ts : List T) (elems : T → List FVal) : fsum (ts.map fun t => fsum (elems t)) = fsum (ts.flatMap elems) := by
  induction ts with
  | nil => rfl
  | cons t ts ih =>
    rw [List.flatMap_cons, fsum_append, ← ih]
    rfl

/-- **C01** `joint_logprob` raises exactly when `conditional_logprob` does and with the same error, returns the bare `None` exactly when
there is no term, and otherwise returns the same value variables and a graph whose value is the sum of all elements of all terms. -/
theorem C01_joint_is_sum (B : Backend V N D T) (rvs clones : List V) (realized : Dict V V) (elems : T → List FVal) :
    (∀ e, jointLogprob B rvs clones realized = .error e ↔ conditionalLogprob B rvs clones realized = .error e) ∧
    (jointLogprob B rvs clones realized = .ok none ↔ ∃ vvs, conditionalLogprob B rvs clones realized = .ok ([], vvs)) ∧
    (∀ terms vvs, terms ≠ [] → conditionalLogprob B rvs clones realized = .ok (terms, vvs) →
      ∃ j, jointLogprob B rvs clones realized = .ok (some (j, vvs)) ∧ j.eval elems = fsum ((terms.map Prod.snd).flatMap elems)) := by
  unfold jointLogprob
  cases h : conditionalLogprob B rvs clones realized with
  | error e => simp
  | ok p =>
    obtain ⟨terms, vvs⟩ := p
    match terms with
    | [] => simp
    | [(v, t)] =>
      refine ⟨by simp, by simp, ?_⟩
      intro terms vvs' _ he
      simp only [Except.ok.injEq, Prod.mk.injEq] at he
      obtain ⟨rfl, rfl⟩ := he
      exact ⟨_, rfl, by simp [JointExpr.eval]⟩
    | a :: b :: l =>
      refine ⟨by simp, by simp, ?_⟩
      intro terms vvs' _ he
      simp only [Except.ok.injEq, Prod.mk.injEq] at he
      obtain ⟨rfl, rfl⟩ := he
      exact ⟨_, rfl, by rw [JointExpr.eval, Dict.values, fsum_flatMap]⟩

/-! ## C02 -/

/-- **C02** When `conditional_logprob` returns, its terms are those of the requested and the realized variables, each exactly once. -/
theorem C02_one_term_each {B : Backend V N D T} (hB : Contract B) {rvs clones : List V} (hc : clones.length = rvs.length)
    {realized : Dict V V} {terms : Dict V T} {vvs : List V} (h : conditionalLogprob B rvs clones realized = .ok (terms, vvs)) :
    (Dict.keys terms).Nodup ∧ ∀ v, v ∈ Dict.keys terms ↔ v ∈ rvs ∨ v ∈ Dict.keys realized := by
  obtain ⟨es, S⟩ := success_of_ok h
  have hd := rvValues_nodup rvs clones realized
  obtain ⟨olds, h1, h2, -⟩ := termLoop_ok S.terms
  have h2 : terms = _ := h2
  refine ⟨?_, fun v => ?_⟩
  · rw [h2]; exact Dict.nodup_update (by simp [Dict.keys]) _
  · have hk : v ∈ Dict.keys (rvValues rvs clones realized) ↔ v ∈ rvs ∨ v ∈ Dict.keys realized := by
      rw [rvValues, Dict.mem_keys_update, Dict.mem_keys_ofList, List.map_fst_zip hc.ge]
    rw [← hk, ← S.keys_eq hB hd]
    constructor
    · intro hv
      rw [h2, Dict.mem_keys_update] at hv
      rcases hv with hv | hv
      · simp [Dict.keys] at hv
      · rw [Dict.keys, List.map_fst_zip (by have := congrArg List.length h1; simp only [List.length_map] at this ⊢; omega)] at hv
        have : some v ∈ olds.map some := List.mem_map.2 ⟨v, hv, rfl⟩
        rw [← h1] at this
        obtain ⟨t, -, ht⟩ := List.mem_map.1 this
        obtain ⟨e, he, -, hold⟩ := run_newToOld realized es ht
        exact List.mem_map.2 ⟨e, he, hold⟩
    · intro hv
      obtain ⟨e, he, rfl⟩ := List.mem_map.1 hv
      obtain ⟨lps, -, i, -, hi, hlt⟩ := S.term hB hd he
      rw [← Dict.get?_isSome]
      exact ⟨lps[i], by rw [← hi]; exact List.getElem?_eq_getElem hlt⟩

/-! ## Entries and conversions -/

variable {B : Backend V N D T} {d realized : Dict V V} {es : List (Entry V N)} {res : Dict V T × List V}

theorem Success.outs (S : Success B d realized es res) (hB : Contract B) (hd : (Dict.keys d).Nodup) :
    ∃ vals, B.rewrite d = .ok (es.map (fun e => some ⟨e.rv, e.val⟩), vals) ∧ es.map Entry.base = vals ∧ es.map Entry.old = d.map Prod.fst := by
  obtain ⟨outs, vals, hr, hz⟩ := S.rewrite
  obtain ⟨l1, l2⟩ := hB.rewrite _ _ _ hr
  have hk : (Dict.keys d).length = vals.length := by simp [Dict.keys, l2]
  have hfst : (List.zip (Dict.keys d) vals).map Prod.fst = Dict.keys d := List.map_fst_zip hk.le
  rw [Dict.ofList_of_nodup (by rw [hfst]; exact hd)] at hz
  refine ⟨vals, ?_, ?_, S.keys_eq hB hd⟩
  · have := congrArg (List.map Prod.fst) hz
    rw [List.map_fst_zip (by simp [l1, l2, Dict.keys]), List.map_map] at this
    rw [hr, this]; rfl
  · have := congrArg (List.map fun x : Option (ValuedOut V) × (V × V) => x.2.2) hz
    rw [show (fun x : Option (ValuedOut V) × (V × V) => x.2.2) = Prod.snd ∘ Prod.snd from rfl, ← List.map_map, List.map_snd_zip (by simp [l1, l2, Dict.keys]),
      List.map_snd_zip hk.ge, List.map_map] at this
    exact this.symm

theorem Success.converts (S : Success B d realized es res) (hB : Contract B) (hd : (Dict.keys d).Nodup) {v o x : V} :
    Converts B d v o x ↔ ∃ e ∈ es, e.old = v ∧ e.rv = o ∧ e.val = x := by
  obtain ⟨vals, hr, hb, ho⟩ := S.outs hB hd
  constructor
  · rintro ⟨outs, vals', hr', i, h1, h2⟩
    rw [hr] at hr'
    simp only [Except.ok.injEq, Prod.mk.injEq] at hr'
    rw [← hr'.1, List.getElem?_map] at h2
    rw [← ho, List.getElem?_map] at h1
    cases he : es[i]? with
    | none => simp [he] at h1
    | some e =>
      rw [he] at h1 h2
      simp only [Option.map_some, Option.some.injEq, ValuedOut.mk.injEq] at h1 h2
      exact ⟨e, List.mem_of_getElem? he, h1, h2.1, h2.2⟩
  · rintro ⟨e, he, rfl, rfl, rfl⟩
    obtain ⟨i, hi⟩ := List.mem_iff_getElem?.1 he
    refine ⟨_, vals, hr, i, ?_, ?_⟩
    · rw [← ho, List.getElem?_map, hi]; rfl
    · rw [List.getElem?_map, hi]; rfl

theorem Success.inOrder (S : Success B d realized es res) (hB : Contract B) (hd : (Dict.keys d).Nodup) (hi : InOrder B d) {e : Entry V N}
    (he : e ∈ es) : (es.filter (·.node = e.node)).map Entry.rv = B.measurableOutputs e.node := by
  obtain ⟨vals, hr, -, -⟩ := S.outs hB hd
  have h := hi _ _ hr e.node
  have e1 : ((es.map (fun e => some (⟨e.rv, e.val⟩ : ValuedOut V))).filterMap fun o => o.map ValuedOut.rv) = es.map Entry.rv := by
    rw [List.filterMap_map]
    induction es with
    | nil => rfl
    | cons a l ih => simp
  have e2 : (es.map Entry.rv).filter (fun o => B.owner o = some e.node) = (es.filter (·.node = e.node)).map Entry.rv := by
    rw [List.filter_map]
    congr 1
    refine List.filter_congr fun a ha => ?_
    simp [S.owner a ha]
  simp only [e1, e2] at h
  rcases h with h | h
  · exfalso
    have : e ∈ es.filter (·.node = e.node) := by simp [he]
    rw [List.map_eq_nil_iff.1 h] at this
    simp at this
  · exact h

theorem inOrder_of_single (hB : Contract B) (hs : SingleOutput B) (S : Success B d realized es res) {e : Entry V N} (he : e ∈ es) :
    B.measurableOutputs e.node = [e.rv] ∧ es.filter (·.node = e.node) = [e] := by
  have hp := S.perm hB he
  have hl := (S.nodes e he).1
  have hm : e ∈ es.filter (·.node = e.node) := by simp [he]
  have h1 : (es.filter (·.node = e.node)).length = 1 := by
    have := hs e.node
    have := List.length_pos_of_mem hm
    omega
  obtain ⟨a, ha⟩ := List.length_eq_one_iff.1 h1
  rw [ha] at hm
  have : e = a := by simpa using hm
  subst this
  rw [ha] at hp
  exact ⟨by simpa using hp, ha⟩

/-! ## C05 -/

theorem ownValue_of_inOrder (hB : Contract B) (hd : (Dict.keys d).Nodup) (S : Success B d realized es res)
    (hi : ∀ e ∈ es, (es.filter (·.node = e.node)).map Entry.rv = B.measurableOutputs e.node) : OwnValue B d res.1 := by
  intro v o x n hconv hn ys hlen hys
  obtain ⟨e, he, rfl, rfl, rfl⟩ := (S.converts hB hd).1 hconv
  have hne : e.node = n := by
    have := S.owner e he
    rw [hn] at this
    exact (Option.some.inj this).symm
  subst hne
  obtain ⟨lps, hl, i, h1, h2, -⟩ := S.term hB hd he
  have hy : ys = (es.filter (·.node = e.node)).map Entry.val := by
    refine List.ext_getElem? fun j => ?_
    by_cases hj : j < ys.length
    · have hj' : j < (B.measurableOutputs e.node).length := hlen ▸ hj
      obtain ⟨v', hv'⟩ := hys j _ _ (List.getElem?_eq_getElem hj') (List.getElem?_eq_getElem hj)
      obtain ⟨e', he', -, hrv, hval⟩ := (S.converts hB hd).1 hv'
      have hj2 : j < (es.filter (·.node = e.node)).length := by
        rw [← hi e he] at hj'; simpa using hj'
      have hm : (es.filter (·.node = e.node))[j] ∈ es := List.mem_of_mem_filter (List.getElem_mem hj2)
      have hrv2 : ((es.filter (·.node = e.node))[j]).rv = (B.measurableOutputs e.node)[j] := by
        simp only [← hi e he, List.getElem_map]
      have := S.entry_eq hB he' hm (hrv.trans hrv2.symm)
      rw [List.getElem?_map, List.getElem?_eq_getElem hj2, List.getElem?_eq_getElem hj, ← hval, this]
      rfl
    · have h3 : ¬ j < (es.filter (·.node = e.node)).length := by
        have := congrArg List.length (hi e he)
        simp only [List.length_map] at this
        omega
      rw [List.getElem?_eq_none (by omega), List.getElem?_eq_none (by simp only [List.length_map]; omega)]
  exact ⟨lps, by rw [hy]; exact hl, i, h1, h2⟩

/-- **C05** (partial) If the requested outputs of each node come in the node's own order, every term is its own output's component of the
node's log-probability, every output being evaluated at its own value. -/
theorem C05_own_value_partial (hB : Contract B) {rvs clones : List V} {realized : Dict V V} {terms : Dict V T} {vvs : List V}
    (hi : InOrder B (rvValues rvs clones realized)) (h : conditionalLogprob B rvs clones realized = .ok (terms, vvs)) :
    OwnValue B (rvValues rvs clones realized) terms := by
  obtain ⟨es, S⟩ := success_of_ok h
  have hd := rvValues_nodup rvs clones realized
  exact ownValue_of_inOrder hB hd S fun e he => S.inOrder hB hd hi he

/-- **C05** (partial) In models whose nodes have at most one measurable output (all but scans), every term is evaluated at its own
variable's value, for every order of the arguments. -/
theorem C05_own_value_single_partial (hB : Contract B) (hs : SingleOutput B) {rvs clones : List V} {realized : Dict V V}
    {terms : Dict V T} {vvs : List V} (h : conditionalLogprob B rvs clones realized = .ok (terms, vvs)) :
    OwnValue B (rvValues rvs clones realized) terms := by
  obtain ⟨es, S⟩ := success_of_ok h
  refine ownValue_of_inOrder hB (rvValues_nodup _ _ _) S fun e he => ?_
  obtain ⟨h1, h2⟩ := inOrder_of_single hB hs S he
  rw [h1, h2]; rfl

/-! ## C03 -/

theorem keys_filter_set (d : Dict V V) (k x : V) (p : V → Bool) (hk : p k = false) :
    (Dict.keys (Dict.set d k x)).filter p = (Dict.keys d).filter p := by
  by_cases h : k ∈ Dict.keys d
  · rw [Dict.keys_set_of_mem h]
  · rw [Dict.set_of_not_mem h]
    simp [Dict.keys, hk]

theorem keys_filter_update (d e : Dict V V) (p : V → Bool) (hp : ∀ k ∈ Dict.keys e, p k = false) :
    (Dict.keys (Dict.update d e)).filter p = (Dict.keys d).filter p := by
  induction e generalizing d with
  | nil => rfl
  | cons q e ih =>
    show (Dict.keys (Dict.update (Dict.set d q.1 q.2) e)).filter p = _
    rw [ih _ fun k hk => hp k (List.mem_cons_of_mem _ hk), keys_filter_set _ _ _ _ (hp _ (by simp [Dict.keys]))]

theorem mem_firstOcc (l : List V) (a : V) : a ∈ firstOcc l ↔ a ∈ l := by
  induction l with
  | nil => simp [firstOcc]
  | cons b l ih =>
    simp only [firstOcc, List.mem_cons, List.mem_filter, ih, decide_eq_true_eq]
    tauto

theorem firstOcc_append (l : List V) (a : V) : firstOcc (l ++ [a]) = if a ∈ l then firstOcc l else firstOcc l ++ [a] := by
  induction l with
  | nil => simp [firstOcc]
  | cons b l ih =>
    simp only [List.cons_append, firstOcc, ih, List.mem_cons]
    by_cases h1 : a = b
    · subst h1
      by_cases h2 : a ∈ l <;> simp [h2]
    · by_cases h2 : a ∈ l <;> simp [h1, h2]

theorem keys_ofList (l : List (V × V)) : Dict.keys (Dict.ofList l) = firstOcc (l.map Prod.fst) := by
  induction l using List.reverseRecOn with
  | nil => rfl
  | append_singleton l p ih =>
    rw [List.map_append, List.map_singleton, firstOcc_append, ← ih]
    have : Dict.ofList (l ++ [p]) = Dict.set (Dict.ofList l) p.1 p.2 := by simp [Dict.ofList, List.foldl_append]
    rw [this]
    have hm : p.1 ∈ Dict.keys (Dict.ofList l) ↔ p.1 ∈ l.map Prod.fst := Dict.mem_keys_ofList l p.1
    split_ifs with h
    · exact Dict.keys_set_of_mem (hm.2 h) _
    · rw [Dict.set_of_not_mem fun h' => h (hm.1 h')]; simp [Dict.keys]

/-- **C03** (partial) In models whose nodes have at most one measurable output, and when no rewrite replaces values, the value variables
are returned in the order in which the (distinct, not realized) variables were passed. -/
theorem C03_value_order_partial (hB : Contract B) (hs : SingleOutput B) (hk : KeepsValues B) {rvs clones : List V}
    (hc : clones.length = rvs.length) {realized : Dict V V} {terms : Dict V T} {vvs : List V}
    (h : conditionalLogprob B rvs clones realized = .ok (terms, vvs)) : ArgOrder rvs clones realized vvs := by
  obtain ⟨es, S⟩ := success_of_ok h
  set d := rvValues rvs clones realized with hdd
  have hd : (Dict.keys d).Nodup := rvValues_nodup rvs clones realized
  obtain ⟨vals, hr, hb, ho⟩ := S.outs hB hd
  obtain ⟨hv, -⟩ := hk _ _ _ hr
  have hnd : es.Nodup := List.Nodup.of_map Entry.old (by rw [ho]; exact hd)
  have hnodes : (es.map Entry.node).Nodup := by
    rw [List.nodup_map_iff_inj_on hnd]
    intro a ha b hb' hab
    have h1 := (inOrder_of_single hB hs S ha).2
    have : b ∈ es.filter (·.node = a.node) := by simp [hb', hab]
    rw [h1] at this
    exact (by simpa using this : b = a).symm
  have hvv : vvs = (es.filter fun e => e.old ∉ Dict.keys realized).map Entry.base := by
    obtain ⟨-, -, -, h3⟩ := termLoop_ok S.terms
    have h3 : vvs = _ := h3
    rw [h3, run_of_nodup realized es hnodes, List.nil_append]
    have gen : ∀ l : List (Entry V N), (∀ e ∈ l, e ∈ es) →
        (((l.map fun e => (e.node, [(e.val, e.base)])).flatMap (triples B)).filter fun t => t.2.1 ∉ (run realized es).realizedVars).map
          (fun t => t.2.2) = (l.filter fun e => e.old ∉ Dict.keys realized).map Entry.base := by
      intro l
      induction l with
      | nil => intro _; rfl
      | cons e l ih =>
        intro hl
        have he := hl e (by simp)
        obtain ⟨h1, h2⟩ := inOrder_of_single hB hs S he
        obtain ⟨lps, hlp⟩ := (S.nodes e he).2
        have hlen := hB.arity _ _ _ hlp (by rw [h1, h2]; rfl)
        rw [h1] at hlen
        obtain ⟨t, rfl⟩ := List.length_eq_one_iff.1 hlen
        rw [h2] at hlp
        have ht : triples B (e.node, [(e.val, e.base)]) = [(t, e.rv, e.base)] := by
          have : B.logprob e.node [e.val] = .ok [t] := hlp
          simp [triples, lpsOf, this, h1]
        rw [List.map_cons, List.flatMap_cons, ht, List.singleton_append, List.filter_cons, List.filter_cons]
        have hr' := S.realizedVars hB he
        have ih' := ih fun e he => hl e (List.mem_cons_of_mem _ he)
        by_cases hre : e.old ∈ Dict.keys realized
        · rw [if_neg (by simpa using hr'.2 hre), if_neg (by simpa using hre)]
          exact ih'
        · rw [if_pos (by simpa using fun h => hre (hr'.1 h)), if_pos (by simpa using hre), List.map_cons, List.map_cons, ih']
    exact gen es fun e he => he
  have hbase : ∀ e ∈ es, Dict.get? d e.old = some e.base := by
    intro e he
    refine Dict.get?_of_mem hd ?_
    obtain ⟨i, hi⟩ := List.mem_iff_getElem?.1 he
    have h1 : (d.map Prod.fst)[i]? = some e.old := by rw [← ho, List.getElem?_map, hi]; rfl
    have h2 : (d.map Prod.snd)[i]? = some e.base := by rw [← hv, ← hb, List.getElem?_map, hi]; rfl
    rw [List.getElem?_map] at h1 h2
    cases hdi : d[i]? with
    | none => simp [hdi] at h1
    | some p =>
      obtain ⟨a, b⟩ := p
      simp only [hdi, Option.map_some, Option.some.injEq] at h1 h2
      subst h1 h2
      exact List.mem_of_getElem? hdi
  rw [ArgOrder, ← hdd]
  have hkeys : (firstOcc rvs).filter (· ∉ Dict.keys realized) = (es.map Entry.old).filter (· ∉ Dict.keys realized) := by
    rw [ho, show d.map Prod.fst = Dict.keys d from rfl, hdd, rvValues,
      keys_filter_update _ _ _ (by intro k hk; simpa using hk), keys_ofList, List.map_fst_zip hc.ge]
  rw [hkeys, hvv, List.filter_map, List.map_map]
  refine List.map_congr_left fun e he => ?_
  have he' := (List.mem_filter.1 he).1
  simp [hbase e he']

/-! ## C04 -/

/-- **C04** (partial) Outside the mis-ordered multi-output case: a realized variable is converted with its supplied value (also when it is
passed positionally), it has a term, and it contributes no value variable; conversely every variable that is not realized
contributes its value variable. -/
theorem C04_realized_partial (hB : Contract B) (hk : KeepsValues B) {rvs clones : List V} (hc : clones.length = rvs.length)
    {realized : Dict V V} (hreal : (Dict.keys realized).Nodup) {terms : Dict V T} {vvs : List V}
    (hi : InOrder B (rvValues rvs clones realized)) (h : conditionalLogprob B rvs clones realized = .ok (terms, vvs)) :
    (∀ v r, (v, r) ∈ realized → v ∈ Dict.keys terms ∧ (∃ o, Converts B (rvValues rvs clones realized) v o r) ∧
      ∀ o x, Converts B (rvValues rvs clones realized) v o x → x = r) ∧
    (∀ y, y ∈ vvs ↔ ∃ v ∈ rvs, v ∉ Dict.keys realized ∧ Dict.get? (rvValues rvs clones realized) v = some y) := by
  have hterm := (C02_one_term_each hB hc h).2
  obtain ⟨es, S⟩ := success_of_ok h
  set d := rvValues rvs clones realized with hdd
  have hd : (Dict.keys d).Nodup := rvValues_nodup rvs clones realized
  obtain ⟨vals, hr, hb, ho⟩ := S.outs hB hd
  obtain ⟨hv, hval⟩ := hk _ _ _ hr
  have hbase : ∀ e ∈ es, Dict.get? d e.old = some e.base ∧ e.val = e.base := by
    intro e he
    obtain ⟨i, hi⟩ := List.mem_iff_getElem?.1 he
    have h1 : (d.map Prod.fst)[i]? = some e.old := by rw [← ho, List.getElem?_map, hi]; rfl
    have h2 : (d.map Prod.snd)[i]? = some e.base := by rw [← hv, ← hb, List.getElem?_map, hi]; rfl
    have h3 := hval i ⟨e.rv, e.val⟩ (by rw [List.getElem?_map, hi]; rfl)
    refine ⟨Dict.get?_of_mem hd ?_, by rw [h2] at h3; exact (Option.some.inj h3).symm⟩
    rw [List.getElem?_map] at h1 h2
    cases hdi : d[i]? with
    | none => simp [hdi] at h1
    | some p =>
      obtain ⟨a, b⟩ := p
      simp only [hdi, Option.map_some, Option.some.injEq] at h1 h2
      subst h1 h2
      exact List.mem_of_getElem? hdi
  refine ⟨fun v r hvr => ?_, fun y => ?_⟩
  · have hvk : v ∈ Dict.keys realized := List.mem_map.2 ⟨_, hvr, rfl⟩
    have hget : Dict.get? d v = some r := Dict.get?_update_of_mem hreal hvr
    have hvd : v ∈ es.map Entry.old := by
      rw [ho]; exact Dict.get?_isSome.1 ⟨r, hget⟩
    obtain ⟨e, he, rfl⟩ := List.mem_map.1 hvd
    refine ⟨(hterm _).2 (Or.inr hvk), ⟨e.rv, (S.converts hB hd).2 ⟨e, he, rfl, rfl, ?_⟩⟩, ?_⟩
    · rw [(hbase e he).2]
      rw [(hbase e he).1] at hget
      exact Option.some.inj hget
    · intro o x hx
      obtain ⟨e', he', h1, -, rfl⟩ := (S.converts hB hd).1 hx
      rw [(hbase e' he').2]
      rw [← h1, (hbase e' he').1] at hget
      exact Option.some.inj hget
  · obtain ⟨-, -, -, h3⟩ := termLoop_ok S.terms
    have h3 : vvs = _ := h3
    rw [List.nil_append] at h3
    have hrv : ∀ v, v ∉ Dict.keys realized → (v ∈ rvs ↔ v ∈ es.map Entry.old) := by
      intro v hnr
      rw [ho, show d.map Prod.fst = Dict.keys d from rfl, hdd, rvValues, Dict.mem_keys_update, Dict.mem_keys_ofList,
        List.map_fst_zip hc.ge]
      tauto
    constructor
    · intro hy
      rw [h3] at hy
      obtain ⟨⟨lp, o, b⟩, ht, rfl⟩ := List.mem_map.1 hy
      obtain ⟨ht, hnr⟩ := List.mem_filter.1 ht
      obtain ⟨e, he, hrv', lps, hl, i, h4, h5, h6⟩ := S.mem_triples hB ht
      rw [← S.inOrder hB hd hi he, List.getElem?_map] at h5
      rw [List.getElem?_map] at h6
      cases hg : (es.filter (·.node = e.node))[i]? with
      | none => simp [hg] at h5
      | some e' =>
        simp only [hg, Option.map_some, Option.some.injEq] at h5 h6
        have he' : e' ∈ es := List.mem_of_mem_filter (List.mem_of_getElem? hg)
        have hnr' : e'.old ∉ Dict.keys realized := by
          intro hc'
          have := (S.realizedVars hB he').2 hc'
          rw [h5] at this
          simp [this] at hnr
        refine ⟨e'.old, (hrv _ hnr').2 (List.mem_map.2 ⟨e', he', rfl⟩), hnr', ?_⟩
        rw [(hbase e' he').1, h6]
    · rintro ⟨v, hv1, hv2, hv3⟩
      obtain ⟨e, he, rfl⟩ := List.mem_map.1 ((hrv v hv2).1 hv1)
      rw [(hbase e he).1] at hv3
      have hby : e.base = y := Option.some.inj hv3
      obtain ⟨lps, hl, i, h4, h5, h6⟩ := S.term hB hd he
      have h7 := h4
      rw [← S.inOrder hB hd hi he, List.getElem?_map] at h7
      cases hg : (es.filter (·.node = e.node))[i]? with
      | none => simp [hg] at h7
      | some e' =>
        simp only [hg, Option.map_some, Option.some.injEq] at h7
        have he' : e' ∈ es := List.mem_of_mem_filter (List.mem_of_getElem? hg)
        have hee := S.entry_eq hB he' he h7
        subst hee
        rw [h3]
        refine List.mem_map.2 ⟨(lps[i], e'.rv, e'.base), List.mem_filter.2 ⟨?_, ?_⟩, hby⟩
        · refine List.mem_flatMap.2 ⟨_, (run_mem realized es (n := e'.node)).2 ⟨⟨e', he', rfl⟩, rfl⟩, ?_⟩
          rw [triples]
          refine zip3_mem (i := i) ?_ h4 ?_
          · simp only [lpsOf, List.map_map, Function.comp_def, hl]
            exact List.getElem?_eq_getElem _
          · simp only [List.map_map, Function.comp_def, List.getElem?_map, hg]
            rfl
        · simpa using fun h => hv2 ((S.realizedVars hB he').1 h)

/-! ## C06 -/

theorem bindLoop_no_owner {B : Backend V N D T} {realized : Dict V V} {l : List (Option (ValuedOut V) × (V × V))} {st : St V N}
    (hsome : ∀ x ∈ l, ∃ o, x.1 = some o) (hnone : ∃ x ∈ l, ∃ o, x.1 = some o ∧ B.owner o.rv = none) :
    bindLoop B realized l st = .error .densityNotFound := by
  induction l generalizing st with
  | nil => simp at hnone
  | cons a l ih =>
    obtain ⟨o, old, val⟩ := a
    obtain ⟨o', ho'⟩ := hsome _ (List.mem_cons_self)
    have ho' : o = some o' := ho'
    subst ho'
    cases ho : B.owner o'.rv with
    | none => simp [bindLoop, ho]
    | some n =>
      simp only [bindLoop, ho]
      refine ih (fun x hx => hsome x (List.mem_cons_of_mem _ hx)) ?_
      obtain ⟨x, hx, o2, h1, h2⟩ := hnone
      rcases List.mem_cons.1 hx with rfl | hx
      · exfalso
        have h1 : some o' = some o2 := h1
        cases h1
        rw [ho] at h2; cases h2
      · exact ⟨x, hx, o2, h1, h2⟩

/-- **C06** A requested variable that graph conversion turns into something that is not produced by any node raises `DensityNotFound`. -/
theorem C06_no_owner (hB : Contract B) {rvs clones : List V} {realized : Dict V V} {outs : List (Option (ValuedOut V))} {vals : List V}
    (hchk : ∀ p ∈ rvValues rvs clones realized, WellValued B p) (hr : B.rewrite (rvValues rvs clones realized) = .ok (outs, vals))
    (hsome : ∀ x ∈ outs, ∃ o, x = some o) {o : ValuedOut V} (ho : some o ∈ outs) (hown : B.owner o.rv = none) :
    conditionalLogprob B rvs clones realized = .error .densityNotFound := by
  have hd := rvValues_nodup rvs clones realized
  obtain ⟨l1, l2⟩ := hB.rewrite _ _ _ hr
  have hfst : (List.zip (Dict.keys (rvValues rvs clones realized)) vals).map Prod.fst = Dict.keys (rvValues rvs clones realized) :=
    List.map_fst_zip (by simp [Dict.keys, l2])
  rw [conditionalLogprob, constructIr, (checkValued_ok_iff B _).2 hchk, hr]
  simp only
  rw [Dict.ofList_of_nodup (by rw [hfst]; exact hd), bindLoop_no_owner]
  · intro x hx
    exact hsome _ (List.of_mem_zip (show (x.1, x.2) ∈ _ from hx)).1
  · have hm : some o ∈ (List.zip outs (List.zip (Dict.keys (rvValues rvs clones realized)) vals)).map Prod.fst := by
      rw [List.map_fst_zip (by simp [Dict.keys, l1, l2])]; exact ho
    obtain ⟨x, hx, hxo⟩ := List.mem_map.1 hm
    exact ⟨x, hx, o, hxo, hown⟩

/-- **C06** If a requested variable is converted to an output of a node without measurable outputs, `conditional_logprob` never returns;
nor does it when two requested variables are converted to outputs of the same single-output node. -/
theorem C06_never_omits (hB : Contract B) {rvs clones : List V} {realized : Dict V V} {v o x : V} {n : N}
    (hv : Converts B (rvValues rvs clones realized) v o x) (hn : B.owner o = some n)
    (hbad : B.measurableOutputs n = [] ∨ ((B.measurableOutputs n).length = 1 ∧
      ∃ v' o' x', v' ≠ v ∧ Converts B (rvValues rvs clones realized) v' o' x' ∧ B.owner o' = some n)) :
    ∃ e, conditionalLogprob B rvs clones realized = .error e := by
  cases h : conditionalLogprob B rvs clones realized with
  | error e => exact ⟨e, rfl⟩
  | ok res =>
    exfalso
    obtain ⟨es, S⟩ := success_of_ok h
    have hd := rvValues_nodup rvs clones realized
    obtain ⟨e, he, hold, rfl, rfl⟩ := (S.converts hB hd).1 hv
    have hne : e.node = n := by
      have := S.owner e he
      rw [hn] at this
      exact (Option.some.inj this).symm
    subst hne
    have hl := (S.nodes e he).1
    have hm : e ∈ es.filter (·.node = e.node) := by simp [he]
    rcases hbad with hb | ⟨hb, v', o', x', hvv, hc', hn'⟩
    · rw [hb] at hl
      have := List.length_pos_of_mem hm
      simp at hl; omega
    · obtain ⟨e', he', hold', rfl, rfl⟩ := (S.converts hB hd).1 hc'
      have hne' : e'.node = e.node := by
        have := S.owner e' he'
        rw [hn'] at this
        exact (Option.some.inj this).symm
      have hm' : e' ∈ es.filter (·.node = e.node) := by simp [he', hne']
      rw [hb] at hl
      obtain ⟨a, ha⟩ := List.length_eq_one_iff.1 hl.symm
      rw [ha] at hm hm'
      simp only [List.mem_singleton] at hm hm'
      subst hm hm'
      exact hvv (hold'.symm.trans hold)

/-- **C06** The error of the first offending node: asking for one variable whose node has no measurable outputs raises
`DensityNotFound`; asking for two variables converted to the same single-output node raises `ValueError`. -/
theorem C06_errors {v w cv cw o x o' x' y y' : V} {n : N} (hvw : v ≠ w)
    (ho : B.owner o = some n) (ho' : B.owner o' = some n) :
    (WellValued B (v, cv) → B.rewrite [(v, cv)] = .ok ([some ⟨o, x⟩], [y]) → B.measurableOutputs n = [] →
      conditionalLogprob B [v] [cv] [] = .error .densityNotFound) ∧
    (WellValued B (v, cv) → WellValued B (w, cw) → B.rewrite [(v, cv), (w, cw)] = .ok ([some ⟨o, x⟩, some ⟨o', x'⟩], [y, y']) →
      (B.measurableOutputs n).length = 1 → conditionalLogprob B [v, w] [cv, cw] [] = .error .valueError) := by
  constructor
  · intro h1 h2 h3
    replace h1 : checkValued B [(v, cv)] = .ok () := (checkValued_ok_iff B _).2 (by simpa using h1)
    have e1 : rvValues [v] [cv] [] = [(v, cv)] := rfl
    simp [conditionalLogprob, constructIr, e1, h1, h2, Dict.ofList, Dict.keys, Dict.set, bindLoop, ho, appendVal, Dict.get?, nodeLoop, h3]
  · intro h0 h1 h2 h3
    replace h1 : checkValued B [(v, cv), (w, cw)] = .ok () := (checkValued_ok_iff B _).2 (by simpa using ⟨h0, h1⟩)
    have e1 : rvValues [v, w] [cv, cw] [] = [(v, cv), (w, cw)] := by simp [rvValues, Dict.ofList, Dict.update, Dict.set, hvw]
    have h4 : B.measurableOutputs n ≠ [] := by intro h; simp [h] at h3
    simp [conditionalLogprob, constructIr, e1, h1, h2, Dict.ofList, Dict.keys, Dict.set, hvw, bindLoop, ho, ho', appendVal, Dict.get?, nodeLoop, h3, h4]

/-! ## Concrete backends -/

/-- A backend over `ℕ`: variable `k < 10` is converted to output `k + 10`; `node k` is the owner of output `k`; the term of the `i`-th
output of a node evaluated at the variable `x` is `(i, x)`. -/
def demo (outs : ℕ → List ℕ) (own : ℕ → ℕ) : Backend ℕ ℕ Unit (ℕ × ℕ) where
  owner v := some (own v)
  dtype _ := ()
  rewrite d := .ok (d.map fun p => some ⟨p.1 + 10, p.2⟩, d.map Prod.snd)
  measurableOutputs := outs
  logprob n vs := .ok (List.zip (List.range (outs n).length) vs)

/-- Node `100` (a scan) has the outputs `10` and `11`; every other node has one output. -/
def scanDemo : Backend ℕ ℕ Unit (ℕ × ℕ) :=
  demo (fun n => if n = 100 then [10, 11] else if n = 10 ∨ n = 11 then [] else [n]) (fun v => if v = 10 ∨ v = 11 then 100 else v)

/-- Every node has one output. -/
def plainDemo : Backend ℕ ℕ Unit (ℕ × ℕ) := demo (fun n => [n]) id

theorem demo_contract {outs : ℕ → List ℕ} {own : ℕ → ℕ} (h1 : ∀ n, (outs n).Nodup) (h2 : ∀ n, ∀ o ∈ outs n, own o = n) :
    Contract (demo outs own) ∧ KeepsValues (demo outs own) := by
  refine ⟨⟨h1, fun n o ho => by simp [demo, h2 n o ho], ?_, ?_⟩, ?_⟩
  · intro n vs lps h hl
    simp only [demo, Except.ok.injEq] at h hl ⊢
    rw [← h]; simp [hl]
  · intro d outs' vals h
    simp only [demo, Except.ok.injEq, Prod.mk.injEq] at h
    rw [← h.1, ← h.2]; simp
  · intro d outs' vals h
    simp only [demo, Except.ok.injEq, Prod.mk.injEq] at h
    refine ⟨h.2.symm, ?_⟩
    intro i o ho
    rw [← h.1, List.getElem?_map] at ho
    rw [List.getElem?_map]
    cases hd : d[i]? with
    | none => simp [hd] at ho
    | some p =>
      simp only [hd, Option.map_some, Option.some.injEq] at ho ⊢
      rw [← ho]

theorem scanDemo_contract : Contract scanDemo ∧ KeepsValues scanDemo := by
  refine demo_contract (fun n => ?_) (fun n o ho => ?_)
  · split_ifs <;> simp
  · split_ifs at ho with h h'
    · simp only [List.mem_cons, List.not_mem_nil, or_false] at ho
      simp [ho, h]
    · simp at ho
    · simp only [List.mem_singleton] at ho
      subst ho
      simp [h']

theorem plainDemo_contract : Contract plainDemo ∧ KeepsValues plainDemo :=
  demo_contract (fun n => by simp) (fun n o ho => by simpa using ho)

theorem plainDemo_single : SingleOutput plainDemo := fun n => by simp [plainDemo, demo]

/-- **C05** The full claim is false: two outputs of one node (a scan) passed in the opposite order swap their values. -/
theorem C05_scan_order_wrong : Contract scanDemo ∧ KeepsValues scanDemo ∧ ∃ terms vvs,
    conditionalLogprob scanDemo [1, 0] [21, 20] [] = .ok (terms, vvs) ∧ ¬ OwnValue scanDemo (rvValues [1, 0] [21, 20] []) terms := by
  refine ⟨scanDemo_contract.1, scanDemo_contract.2, [(0, (0, 21)), (1, (1, 20))], [21, 20], rfl, fun h => ?_⟩
  have hc0 : Converts scanDemo (rvValues [1, 0] [21, 20] []) 0 10 20 := ⟨_, _, rfl, 1, rfl, rfl⟩
  have hc1 : Converts scanDemo (rvValues [1, 0] [21, 20] []) 1 11 21 := ⟨_, _, rfl, 0, rfl, rfl⟩
  obtain ⟨lps, h1, j, h2, h3⟩ := h 0 10 20 100 hc0 rfl [20, 21] rfl (by
    intro j o' y h1 h2
    match j with
    | 0 =>
      have e1 : o' = 10 := (Option.some.inj h1).symm
      have e2 : y = 20 := (Option.some.inj h2).symm
      subst e1 e2
      exact ⟨0, hc0⟩
    | 1 =>
      have e1 : o' = 11 := (Option.some.inj h1).symm
      have e2 : y = 21 := (Option.some.inj h2).symm
      subst e1 e2
      exact ⟨1, hc1⟩
    | j + 2 => simp at h2)
  have e1 : lps = [(0, 20), (1, 21)] := (Except.ok.inj h1).symm
  subst e1
  match j with
  | 0 => exact absurd h3 (by decide)
  | 1 => exact absurd h2 (by decide)
  | j + 2 => simp at h3; exact absurd h3 (by decide)

/-- **C03** The full claim is false: with two outputs of one node (a scan) and another variable between them, the value variables come
back grouped by node. -/
theorem C03_scan_order_wrong : Contract scanDemo ∧ KeepsValues scanDemo ∧ ∃ terms vvs,
    conditionalLogprob scanDemo [0, 2, 1] [20, 22, 21] [] = .ok (terms, vvs) ∧ ¬ ArgOrder [0, 2, 1] [20, 22, 21] [] vvs := by
  refine ⟨scanDemo_contract.1, scanDemo_contract.2, [(0, (0, 20)), (1, (1, 21)), (2, (0, 22))], [20, 21, 22], rfl, ?_⟩
  unfold ArgOrder
  decide

/-- **C04** The full claim is false: realize the first output of a node (a scan) and pass the second one positionally; the realized value
is returned as value variable and the created value variable is not. -/
theorem C04_scan_order_wrong : Contract scanDemo ∧ KeepsValues scanDemo ∧ ∃ terms,
    conditionalLogprob scanDemo [1] [21] [(0, 30)] = .ok (terms, [30]) :=
  ⟨scanDemo_contract.1, scanDemo_contract.2, [(0, (0, 21)), (1, (1, 30))], rfl⟩

/-! Non-vacuity: a request with a repeated and a realized variable, for which every hypothesis holds. -/

theorem plain_run : conditionalLogprob plainDemo [3, 1, 3, 2] [20, 21, 22, 23] [(2, 30), (5, 31)] =
    .ok ([(3, (0, 22)), (1, (0, 21)), (2, (0, 30)), (5, (0, 31))], [22, 21]) := rfl

theorem scan_run : conditionalLogprob scanDemo [0, 1] [20, 21] [(5, 31)] =
    .ok ([(0, (0, 20)), (1, (1, 21)), (5, (0, 31))], [20, 21]) := rfl

theorem scan_inOrder : InOrder scanDemo (rvValues [0, 1] [20, 21] [(5, 31)]) := by
  intro outs vals h n
  have h1 : outs = [some ⟨10, 20⟩, some ⟨11, 21⟩, some ⟨15, 31⟩] := (congrArg Prod.fst (Except.ok.inj h)).symm
  subst h1
  have e : ∀ o, (scanDemo.owner o = some n) ↔ (if o = 10 ∨ o = 11 then 100 else o) = n := by
    intro o; simp [scanDemo, demo]
  simp only [e]
  by_cases hn : n = 100
  · subst hn; right; rfl
  · by_cases hn' : n = 15
    · subst hn'; right; rfl
    · left
      have h100 : ¬ (100 = n) := fun h => hn h.symm
      have h15 : ¬ (15 = n) := fun h => hn' h.symm
      simp [h100, h15]

example := C02_one_term_each (rvs := [3, 1, 3, 2]) (clones := [20, 21, 22, 23]) plainDemo_contract.1 rfl plain_run
example := C03_value_order_partial (rvs := [3, 1, 3, 2]) (clones := [20, 21, 22, 23]) plainDemo_contract.1 plainDemo_single plainDemo_contract.2 rfl plain_run
example := C04_realized_partial (rvs := [0, 1]) (clones := [20, 21]) (realized := [(5, 31)]) scanDemo_contract.1 scanDemo_contract.2 rfl (by decide)
  scan_inOrder scan_run
example := C05_own_value_partial scanDemo_contract.1 scan_inOrder scan_run
example := C05_own_value_single_partial plainDemo_contract.1 plainDemo_single plain_run

/-- Variables `0` and `1` are converted to the same node, which has a single output. -/
def sharedDemo : Backend ℕ ℕ Unit (ℕ × ℕ) where
  owner _ := some 0
  dtype _ := ()
  rewrite d := .ok (d.map fun p => some ⟨10, p.2⟩, d.map Prod.snd)
  measurableOutputs n := if n = 0 then [10] else []
  logprob n vs := .ok (List.zip (List.range (if n = 0 then 1 else 0)) vs)

theorem sharedDemo_contract : Contract sharedDemo := by
  refine ⟨fun n => ?_, fun n o ho => ?_, fun n vs lps h hl => ?_, fun d outs vals h => ?_⟩
  · simp only [sharedDemo]; split_ifs <;> simp
  · simp only [sharedDemo] at ho ⊢
    split_ifs at ho with h
    · rw [h]
    · simp at ho
  · simp only [sharedDemo, Except.ok.injEq] at h hl ⊢
    rw [← h]
    split_ifs at hl ⊢ <;> simp [hl]
  · simp only [sharedDemo, Except.ok.injEq, Prod.mk.injEq] at h
    rw [← h.1, ← h.2]; simp

example : ∃ e, conditionalLogprob sharedDemo [0, 1] [20, 21] [] = .error e :=
  C06_never_omits sharedDemo_contract (v := 0) (o := 10) (x := 20) (n := 0) ⟨_, _, rfl, 0, rfl, rfl⟩ rfl
    (Or.inr ⟨rfl, 1, 10, 21, by decide, ⟨_, _, rfl, 1, rfl, rfl⟩, rfl⟩)

/-- Conversion gives variables that no node produces. -/
def orphanDemo : Backend ℕ ℕ Unit (ℕ × ℕ) where
  owner v := if v < 10 then some v else none
  dtype _ := ()
  rewrite d := .ok (d.map fun p => some ⟨p.1 + 10, p.2⟩, d.map Prod.snd)
  measurableOutputs _ := []
  logprob _ _ := .ok []

example : conditionalLogprob orphanDemo [3, 4] [20, 21] [] = .error .densityNotFound := by
  refine C06_no_owner ⟨fun n => by simp [orphanDemo], fun n o ho => by simp [orphanDemo] at ho, fun n vs lps h hl => ?_, fun d outs vals h => ?_⟩
    (outs := [some ⟨13, 20⟩, some ⟨14, 21⟩]) (vals := [20, 21]) (o := ⟨14, 21⟩) ((checkValued_ok_iff _ _).1 rfl) rfl (by simp) (by simp) rfl
  · simp only [orphanDemo, Except.ok.injEq] at h ⊢
    simp [← h]
  · simp only [orphanDemo, Except.ok.injEq, Prod.mk.injEq] at h
    rw [← h.1, ← h.2]; simp

example : conditionalLogprob (demo (fun _ => []) fun _ => 0) [0] [20] [] = .error .densityNotFound :=
  (C06_errors (o := 10) (o' := 10) (x := 20) (n := 0) (w := 1) (cw := 0) (x' := 0) (y := 20) (y' := 0) (by decide) rfl rfl).1 ⟨⟨_, rfl⟩, rfl⟩ rfl rfl
example : conditionalLogprob (demo (fun _ => [10]) fun _ => 0) [0, 1] [20, 21] [] = .error .valueError :=
  (C06_errors (o := 10) (o' := 11) (x := 20) (n := 0) (w := 1) (x' := 21) (y := 20) (y' := 21) (by decide) rfl rfl).2 ⟨⟨_, rfl⟩, rfl⟩ ⟨⟨_, rfl⟩, rfl⟩ rfl rfl
example : jointLogprob plainDemo [3, 1] [20, 21] [] = .ok (some (.sumOfSums [(0, 20), (0, 21)], [20, 21])) := rfl

end Verif.Cond
