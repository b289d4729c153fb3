import Verif.Spec.ScanFind
import Verif.Props.ScanOutputs

/-! # C101: scans with hidden draws -/

namespace Verif.ScanFind
variable {D V : Type}

theorem visit_mono : ∀ (ns : List (Node D V)) (vs : List ℕ), ∀ v ∈ vs, v ∈ visit ns vs
  | [], _, _, h => h
  | n :: ns, vs, v, h => by
    rw [visit]
    refine visit_mono ns _ v ?_
    split
    · exact List.mem_append_right _ h
    · exact h

/-- What is visited satisfies every predicate that holds for the start and is inherited by inputs. -/
theorem visit_sound {P : ℕ → Prop} : ∀ (ns : List (Node D V)) (vs : List ℕ), (∀ v ∈ vs, P v) → (∀ n ∈ ns, ∀ o ∈ n.outputs, P o → ∀ i ∈ n.inputs, P i) →
    ∀ v ∈ visit ns vs, P v
  | [], _, h, _, v, hv => h v hv
  | n :: ns, vs, h, hs, v, hv => by
    rw [visit] at hv
    refine visit_sound ns _ ?_ (fun m hm => hs m (List.mem_cons_of_mem _ hm)) v hv
    split
    · rename_i hvis
      simp only [Node.visited, List.any_eq_true, decide_eq_true_eq] at hvis
      obtain ⟨o, ho, hov⟩ := hvis
      intro w hw
      rcases List.mem_append.1 hw with hw | hw
      · exact hs n (by simp) o ho (h o hov) w hw
      · exact h w hw
    · exact h

/-- Outputs of a node that come from none of the nodes still to be visited are visited only if they have been. -/
theorem visit_new {ns : List (Node D V)} {vs : List ℕ} {o : ℕ} (h : ∀ n ∈ ns, o ∉ n.inputs) (ho : o ∈ visit ns vs) : o ∈ vs := by
  induction ns generalizing vs with
  | nil => exact ho
  | cons n ns ih =>
    rw [visit] at ho
    have := ih (fun m hm => h m (List.mem_cons_of_mem _ hm)) ho
    split at this
    · exact (List.mem_append.1 this).resolve_left (h n (by simp))
    · exact this

/-- The inputs of a visited node are visited.  The nodes come latest first: the outputs of a node are not inputs of the nodes after it in the list, nor of itself. -/
theorem visit_closed {ns : List (Node D V)} {vs : List ℕ} (hord : ns.Pairwise fun m n => ∀ i ∈ n.inputs, i ∉ m.outputs) (hirr : ∀ n ∈ ns, ∀ i ∈ n.inputs, i ∉ n.outputs)
    {n : Node D V} (hn : n ∈ ns) {o : ℕ} (ho : o ∈ n.outputs) (hov : o ∈ visit ns vs) {i : ℕ} (hi : i ∈ n.inputs) : i ∈ visit ns vs := by
  induction ns generalizing vs with
  | nil => simp at hn
  | cons m ns ih =>
    rw [List.pairwise_cons] at hord
    rw [visit] at hov ⊢
    rcases List.mem_cons.1 hn with rfl | hn
    · have := visit_new (fun k hk hok => hord.1 k hk o hok ho) hov
      have hvis : n.visited vs = true := by
        simp only [Node.visited, List.any_eq_true, decide_eq_true_eq]
        refine ⟨o, ho, ?_⟩
        split at this
        · exact (List.mem_append.1 this).resolve_left fun h => hirr n (by simp) o h ho
        · exact this
      rw [if_pos hvis]
      exact visit_mono _ _ _ (List.mem_append_left _ hi)
    · exact ih hord.2 (fun k hk => hirr k (List.mem_cons_of_mem _ hk)) hn hov

theorem Body.mem_visitedVars {b : Body D V} (hb : b.WellFormed) (v : ℕ) : v ∈ b.visitedVars ↔ b.Needed v := by
  constructor
  · refine visit_sound (P := b.Needed) _ _ (fun o ho => ?_) (fun n hn o ho hno i hi => ?_) v
    · simp only [Body.targets, List.mem_filter, Bool.not_eq_true'] at ho
      exact .output ho.1 ho.2
    · exact .input (List.mem_reverse.1 hn) ho hno hi
  · intro h
    induction h with
    | output ho hr => exact visit_mono _ _ _ (by simp [Body.targets, ho, hr])
    | input hn ho _ hi ih =>
      refine visit_closed ?_ (fun n hn => hb.irrefl n (List.mem_reverse.1 hn)) (List.mem_reverse.2 hn) ho ih hi
      rw [List.pairwise_reverse]
      exact hb.order

/-- **C101** (decision) A scan is converted exactly if every variable that is drawn in its body, and that its outputs depend on, is itself an output.  (States of generators
count: a body that draws twice from one generator has a state in between that is not an output.) -/
theorem C101_converted_iff {b : Body D V} (hb : b.WellFormed) : b.converted = true ↔ ∀ v, b.Needed v → b.Drawn v → v ∈ b.outputs := by
  simp only [Body.converted, Bool.not_eq_true', List.any_eq_false, Body.blocks, Node.visited, Bool.and_eq_true, List.any_eq_true, decide_eq_true_eq, Bool.not_eq_true',
    decide_eq_false_iff_not, b.mem_visitedVars hb, Body.Drawn, not_and, not_exists, not_not]
  constructor
  · rintro h v hv ⟨n, hn, hm, hvn⟩
    exact h n hn ⟨⟨v, hvn, hv⟩, hm⟩ v hvn hv
  · rintro h n hn ⟨-, hm⟩ v hvn hv
    exact h v hv ⟨n, hn, hm, hvn⟩

theorem Node.run_of_notMem (n : Node D V) (d : D) (e : ℕ → V) {v : ℕ} (h : v ∉ n.outputs) : n.run d e v = e v := by
  have : (n.outputs.zip (n.compute (n.inputs.map e) d)).lookup v = none := by
    rw [List.lookup_eq_none_iff]
    intro p hp
    simp only [bne_iff_ne, ne_eq, beq_iff_eq]
    rintro rfl
    exact h (List.of_mem_zip hp).1
  rw [Node.run, this, Option.getD_none]

theorem runAll_of_notMem : ∀ (ns : List (Node D V)) (ds : List D) (e : ℕ → V) {v : ℕ}, (∀ n ∈ ns, v ∉ n.outputs) → runAll ns ds e v = e v
  | [], _, _, _, _ => by rw [runAll]; simp
  | _ :: _, [], _, _, _ => by rw [runAll]; simp
  | n :: ns, d :: ds, e, v, h => by
    rw [runAll, runAll_of_notMem ns ds _ fun m hm => h m (List.mem_cons_of_mem _ hm), n.run_of_notMem d e (h n (by simp))]

/-- The inductive step of `C101_no_hidden_draws`: `P` are the variables the outputs depend on. -/
theorem runAll_agree (P : ℕ → Prop) (ns : List (Node D V)) (ds ds' : List D) (hds : ds.length = ns.length) (hds' : ds'.length = ns.length) (e e' : ℕ → V)
    (hord : ns.Pairwise fun n m => ∀ i ∈ n.inputs, i ∉ m.outputs) (huniq : ns.Pairwise fun n m => ∀ o ∈ n.outputs, o ∉ m.outputs)
    (hpure : ∀ n ∈ ns, n.measurable = false → ∀ x d d', n.compute x d = n.compute x d')
    (hP : ∀ n ∈ ns, ∀ o ∈ n.outputs, P o → ∀ i ∈ n.inputs, P i)
    (he : ∀ v, P v → e v = e' v)
    (hdrawn : ∀ n ∈ ns, n.measurable = true → ∀ v ∈ n.outputs, P v → runAll ns ds e v = runAll ns ds' e' v) :
    ∀ v, P v → runAll ns ds e v = runAll ns ds' e' v := by
  induction ns generalizing ds ds' e e' with
  | nil =>
    intro v hv
    rw [runAll, runAll]
    · exact he v hv
    all_goals simp
  | cons n ns ih =>
    rcases ds with _ | ⟨d, ds⟩
    · simp at hds
    rcases ds' with _ | ⟨d', ds'⟩
    · simp at hds'
    rw [List.pairwise_cons] at hord huniq
    simp only [runAll]
    simp only [runAll] at hdrawn
    refine ih ds ds' (by simpa using hds) (by simpa using hds') _ _ hord.2 huniq.2 (fun m hm => hpure m (List.mem_cons_of_mem _ hm)) (fun m hm => hP m (List.mem_cons_of_mem _ hm))
      ?_ (fun m hm => hdrawn m (List.mem_cons_of_mem _ hm))
    intro v hv
    by_cases hvn : v ∈ n.outputs
    · rcases hm : n.measurable with _ | _
      · have hin : n.inputs.map e = n.inputs.map e' := List.map_congr_left fun i hi => he i (hP n (by simp) v hvn hv i hi)
        simp only [Node.run, hin, hpure n (by simp) hm _ d d', he v hv]
      · have := hdrawn n (by simp) hm v hvn hv
        rwa [runAll_of_notMem ns ds _ fun m hm => huniq.1 m hm v hvn, runAll_of_notMem ns ds' _ fun m hm => huniq.1 m hm v hvn] at this
    · rw [n.run_of_notMem d e hvn, n.run_of_notMem d' e' hvn]
      exact he v hv

/-- **C101** (meaning) The outputs of a converted scan have no hidden randomness: in every step, whatever is drawn, the values of all outputs are determined by the values the step
reads and the values of those outputs that are drawn themselves. -/
theorem C101_no_hidden_draws {b : Body D V} (hb : b.WellFormed) (hconv : b.converted = true) (e : ℕ → V) (ds ds' : List D) (hds : ds.length = b.nodes.length)
    (hds' : ds'.length = b.nodes.length) (hsame : ∀ o ∈ b.outputs, b.Drawn o → runAll b.nodes ds e o = runAll b.nodes ds' e o) :
    ∀ o ∈ b.outputs, b.isRandomType o = false → runAll b.nodes ds e o = runAll b.nodes ds' e o := by
  intro o ho hr
  refine runAll_agree b.Needed b.nodes ds ds' hds hds' e e hb.order hb.unique hb.pure (fun n hn o ho hno i hi => .input hn ho hno hi) (fun _ _ => rfl) ?_ o (.output ho hr)
  intro n hn hm v hv hneed
  exact hsame v ((C101_converted_iff hb).1 hconv v hneed ⟨n, hn, hm, hv⟩) ⟨n, hn, hm, hv⟩

/-- **C101** (no randomness) A scan whose outputs depend on nothing drawn is converted as well; its log-probability raises (`zip(*rv_outer_outs)` of an empty list), whatever
the values are. -/
theorem C101_deterministic_raises {b : Body D V} (hb : b.WellFormed) (hdet : ∀ v, b.Needed v → ¬ b.Drawn v) {W T : Type} (series logp : ℕ → List (ℕ × W) → T) (values : List W) :
    b.converted = true ∧ (ScanOut.Node.mk b.measurableOutputs series logp).logprob values = .error .valueError := by
  refine ⟨(C101_converted_iff hb).2 fun v hv hd => absurd hd (hdet v hv), ?_⟩
  have hall : ∀ m ∈ b.measurableOutputs, m = false := by
    intro m hm
    simp only [Body.measurableOutputs, Body.targets, List.mem_map, List.mem_filter, Bool.not_eq_true'] at hm
    obtain ⟨o, ⟨ho, hr⟩, rfl⟩ := hm
    rw [List.any_eq_false]
    intro n hn h
    simp only [Bool.and_eq_true, decide_eq_true_eq] at h
    exact hdet o (.output ho hr) ⟨n, hn, h.1, h.2⟩
  rw [ScanOut.Node.logprob, if_pos]
  rw [ScanOut.Node.randomOutputs, List.filter_eq_nil_iff]
  intro k hk
  simp only [List.mem_range] at hk
  simp [List.getD_eq_getElem?_getD, List.getElem?_eq_getElem hk, hall _ (List.getElem_mem hk)]

/-! ## Examples -/

namespace Demo

/-- `def step(x_tm1): s = normal(0, 1); y = normal(x_tm1, exp(s)); return y[, s]`; `0` is `x_tm1`, `1` and `2` are generators. -/
def body (outputs : List ℕ) : Body ℝ ℝ where
  nodes := [⟨true, [1], [3, 4], fun _ d => [d, d]⟩, ⟨false, [4], [5], fun x _ => x.map fun a => a * a⟩, ⟨true, [2, 0, 5], [6, 7], fun x d => [d, x.sum + d]⟩]
  outputs := outputs
  isRandomType v := decide (v ∈ [1, 2, 3, 6])

theorem wf (outputs : List ℕ) : (body outputs).WellFormed where
  order := by simp [body]
  irrefl := by simp [body]
  unique := by simp [body]
  pure := by simp [body]

/-- With both variables returned the scan is converted. -/
example : (body [7, 4, 3, 6]).converted = true := by decide +kernel
example := C101_no_hidden_draws (wf [7, 4, 3, 6]) (by decide +kernel) (fun _ => 0) [1, 2, 3] [1, 5, 3] rfl rfl

/-- With the scale kept hidden it is not: variable `4` is drawn, needed, and no output. -/
example : (body [7, 3, 6]).converted = false := by
  rw [← Bool.not_eq_true, C101_converted_iff (wf _)]
  intro h
  have := h 4 (.input (n := (body [7, 3, 6]).nodes[1]) (o := 5) (by simp [body]) (by simp [body])
    (.input (n := (body [7, 3, 6]).nodes[2]) (o := 7) (by simp [body]) (by simp [body]) (.output (by simp [body]) (by simp [body])) (by simp [body])) (by simp [body]))
    ⟨(body [7, 3, 6]).nodes[0], by simp [body], by simp [body], by simp [body]⟩
  simp [body] at this

/-- A body that only squares its input. -/
def square : Body ℝ ℝ := ⟨[⟨false, [0], [1], fun x _ => x.map fun a => a * a⟩], [1], fun _ => false⟩

example := C101_deterministic_raises (b := square) ⟨by simp [square], by simp [square], by simp [square], by simp [square]⟩ (by rintro v - ⟨n, hn, hm, -⟩; simp [square] at hn; simp [hn] at hm)
  (fun _ _ => (0 : ℝ)) (fun _ _ => 0) [(1 : ℝ)]

end Demo
end Verif.ScanFind
