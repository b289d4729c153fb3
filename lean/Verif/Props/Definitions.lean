import Verif.Spec.Definitions
import Verif.Lemmas.Dict

/-! # C103, C104: definitions of random variables in the preamble -/

namespace Verif.Defs
open Verif

/-- `memo` as a function. -/
abbrev PState.get (st : PState) (v : ℕ) : Option Text := st.names.memo.get? v

/-- The variables defined so far. -/
abbrev PState.ids (st : PState) : List ℕ := st.rvs.map Prod.fst

theorem name_spec (G : PGraph) (st : NameState ℕ) (v : ℕ) (hv : st.memo.get? v = none) :
    (∃ st' s, NameState.processVariableName G.name G.fgraph st v = .ok (st', s) ∧ (∀ u, st'.memo.get? u = if v = u then some s else st.memo.get? u) ∧ ∀ c cs, G.name v = some (c :: cs) → s = c :: cs) ∨
    NameState.processVariableName G.name G.fgraph st v = .error .keyError ∧ G.Unnamed v := by
  simp only [NameState.processVariableName, hv]
  rcases hn : G.name v with _ | _ | ⟨c, cs⟩
  · rcases hA : NameState.availableNames G.name G.fgraph st with _ | ⟨a, rest⟩
    · exact .inr ⟨rfl, .inl hn⟩
    · exact .inl ⟨_, _, rfl, fun u => Dict.get?_set _ _ _ _, fun c cs h => by cases h⟩
  · rcases hA : NameState.availableNames G.name G.fgraph st with _ | ⟨a, rest⟩
    · exact .inr ⟨rfl, .inr hn⟩
    · exact .inl ⟨_, _, rfl, fun u => Dict.get?_set _ _ _ _, fun c cs h => by cases h⟩
  · exact .inl ⟨_, _, rfl, fun u => Dict.get?_set _ _ _ _, fun c' cs' h => by cases h; rfl⟩

/-- What holds of the printer state when the definitions of the variables in `P` are being printed. -/
structure Inv (G : PGraph) (P : ℕ → Prop) (st : PState) : Prop where
  nodup : st.ids.Nodup
  memo : ∀ u, G.IsRV u → (st.get u ≠ none ↔ u ∈ st.ids ∨ P u)
  rv : ∀ u ∈ st.ids, G.IsRV u
  pending : ∀ u, P u → u ∉ st.ids
  done : ∀ u, st.get u ≠ none → ¬ P u → ∀ w, G.Reaches u w → G.IsRV w → w ∈ st.ids
  before : ∀ l u t l', st.rvs = l ++ (u, t) :: l' → ∀ w, G.Reaches u w → w ≠ u → G.IsRV w → w ∈ l.map Prod.fst
  closed : ∀ u, st.get u ≠ none → ¬ P u → ∀ w, G.Reaches u w → st.get w ≠ none
  text : ∀ p ∈ st.rvs, ∃ op params format name, ∃ ss : List Text, G.kind p.1 = .rv op params format ∧ st.get p.1 = some name ∧ params.map st.get = ss.map some ∧
    defText G p.1 op name (ss.mapIdx format) = .ok p.2
  shape : ∀ u, G.kind u = .var → st.shapes.get? u = (st.get u).map (shapeInfo G u)
  noShape : ∀ u, G.kind u ≠ .var → st.shapes.get? u = none
  named : ∀ u c cs, G.IsRV u ∨ G.kind u = .var → G.name u = some (c :: cs) → ∀ s, st.get u = some s → s = c :: cs

/-- What printing `v` changes. -/
structure After (st st' : PState) (R : ℕ → Prop) : Prop where
  keep : ∀ u s, st.get u = some s → st'.get u = some s
  new : ∀ u, st'.get u ≠ none → st.get u ≠ none ∨ R u

theorem After.refl (st : PState) (R : ℕ → Prop) : After st st R := ⟨fun _ _ h => h, fun _ h => .inl h⟩

theorem After.trans {s1 s2 s3 : PState} {R : ℕ → Prop} (h : After s1 s2 R) (h' : After s2 s3 R) : After s1 s3 R :=
  ⟨fun u s hs => h'.keep u s (h.keep u s hs), fun u hu => (h'.new u hu).elim (fun h1 => h.new u h1) .inr⟩

theorem After.mono {s1 s2 : PState} {R R' : ℕ → Prop} (h : After s1 s2 R) (hR : ∀ u, R u → R' u) : After s1 s2 R' := ⟨h.keep, fun u hu => (h.new u hu).imp id (hR u)⟩

/-- Why printing `v` raises `e`. -/
def Fails (G : PGraph) (v : ℕ) (e : Err) : Prop := ∃ u, G.Reaches v u ∧ (e = .keyError ∧ G.Unnamed u ∨ e = .typeError ∧ G.IsRV u ∧ ∃ name, '%' ∈ G.space u name)

theorem Fails.step {G : PGraph} {v w : ℕ} {e : Err} (hw : w ∈ G.deps v) : Fails G w e → Fails G v e := fun ⟨u, hu, h⟩ => ⟨u, .step hw hu, h⟩

theorem percent_plain : ∀ {cs : Text}, '%' ∉ cs → percent cs [] = .ok cs
  | [], _ => by rw [percent]
  | c :: cs, h => by
    simp only [List.mem_cons, not_or] at h
    have hc : c ≠ '%' := fun h' => h.1 h'.symm
    rw [percent, if_neg hc, percent_plain h.2]
    · rfl
    all_goals simp_all

theorem percent_lit : ∀ {p : Text} {cs : Text} {args : List Text}, '%' ∉ p → percent (p ++ cs) args = (percent cs args).map (p ++ ·)
  | [], cs, args, _ => by cases h : percent cs args <;> simp [h, Except.map]
  | c :: p, cs, args, h => by
    simp only [List.mem_cons, not_or] at h
    have hc : c ≠ '%' := fun h' => h.1 h'.symm
    rw [List.cons_append, percent, if_neg hc, percent_lit h.2]
    · cases percent cs args <;> rfl
    all_goals simp_all

theorem percent_error : ∀ {cs : Text} {args : List Text} {e : Err}, percent cs args = .error e → e = .typeError := by
  intro cs args
  induction cs, args using percent.induct with
  | case1 => intro e h; rw [percent] at h; cases h
  | case2 => intro e h; rw [percent] at h; cases h; rfl
  | case3 cs args ih =>
    intro e h
    rw [percent] at h
    cases hp : percent cs args with
    | ok x => rw [hp] at h; cases h
    | error e' => rw [hp] at h; cases h; exact ih hp
  | case4 cs a args ih =>
    intro e h
    rw [percent] at h
    cases hp : percent cs args with
    | ok x => rw [hp] at h; cases h
    | error e' => rw [hp] at h; cases h; exact ih hp
  | case5 cs args h1 h2 =>
    intro e h
    rw [percent, if_pos rfl] at h
    · cases h; rfl
    · intro cs' hc; cases hc; exact h1 _ rfl
    · intro cs' a as h4 h5 h6; first | exact h2 _ _ _ h6 (by simpa using h5) | (cases h4; exact h2 _ _ _ rfl (by simpa using h6)) | simp_all
  | case6 c cs args h1 h2 hc ih =>
    intro e h
    rw [percent, if_neg hc] at h
    · cases hp : percent cs args with
      | ok x => rw [hp] at h; cases h
      | error e' => rw [hp] at h; cases h; exact ih hp
    all_goals simp_all

/-- The definition, up to what becomes of the shape information. -/
theorem defText_general (G : PGraph) (v : ℕ) (op name : Text) (params : List Text) : defText G v op name params = (percent (lstrip (shapeInfo G v name) name) []).map fun t =>
    if G.latex then name ++ " \\sim ".toList ++ op ++ "\\left(".toList ++ joinText [',', ' '] params ++ "\\right)\\, ".toList ++ t
    else name ++ " ~ ".toList ++ op ++ "(".toList ++ joinText [',', ' '] params ++ ")".toList ++ t := by
  have h1 : ∀ (p cs : Text) (a : Text) (args : List Text), '%' ∉ p → percent (p ++ '%' :: 's' :: cs) (a :: args) = (percent cs args).map (fun t => p ++ (a ++ t)) := fun p cs a args hp => by
    rw [percent_lit hp, percent]
    cases percent cs args <;> rfl
  cases hl : G.latex
  · rw [defText, distFormat, hl, show distPattern false = [] ++ '%' :: 's' :: (" ~ ".toList ++ '%' :: 's' :: ("(".toList ++ '%' :: 's' :: ")".toList)) from rfl]
    simp only [List.append_assoc, List.cons_append, List.nil_append, if_neg (show ¬ (false = true) by decide)]
    rw [percent, h1 _ _ _ _ (by decide), h1 _ _ _ _ (by decide), percent_lit (by decide)]
    cases percent (lstrip (shapeInfo G v name) name) [] <;> rfl
  · rw [defText, distFormat, hl, show distPattern true = [] ++ '%' :: 's' :: (" \\sim ".toList ++ '%' :: 's' :: ("\\left(".toList ++ '%' :: 's' :: "\\right)".toList)) from rfl]
    simp only [List.append_assoc, List.cons_append, List.nil_append, if_pos]
    rw [percent, h1 _ _ _ _ (by decide), h1 _ _ _ _ (by decide), percent_lit (by decide), percent_lit (by decide)]
    cases percent (lstrip (shapeInfo G v name) name) [] <;> rfl

/-- Without percent signs in the shape information. -/
theorem defText_plain {G : PGraph} {v : ℕ} {op name : Text} {params : List Text} (h : '%' ∉ lstrip (shapeInfo G v name) name) : defText G v op name params = .ok (
    if G.latex then name ++ " \\sim ".toList ++ op ++ "\\left(".toList ++ joinText [',', ' '] params ++ "\\right)\\, ".toList ++ lstrip (shapeInfo G v name) name
    else name ++ " ~ ".toList ++ op ++ "(".toList ++ joinText [',', ' '] params ++ ")".toList ++ lstrip (shapeInfo G v name) name) := by
  rw [defText_general, percent_plain h]
  rfl

theorem mem_lstrip {c : Char} {name rest : Text} (h : c ∈ lstrip (name ++ rest) name) : c ∈ rest := by
  have key : ∀ l : Text, (∀ c ∈ l, c ∈ name) → c ∈ lstrip (l ++ rest) name → c ∈ rest := fun l => by
    induction l with
    | nil => exact fun _ h => (List.dropWhile_suffix _).subset h
    | cons a l ih =>
      intro hl h
      refine ih (fun c hc => hl c (by simp [hc])) ?_
      rwa [lstrip, List.cons_append, List.dropWhile_cons_of_pos (by simpa using hl a (by simp))] at h
  exact key name (fun _ h => h) h

theorem defText_error {G : PGraph} {v : ℕ} {op name : Text} {params : List Text} {e : Err} (h : defText G v op name params = .error e) : e = .typeError ∧ '%' ∈ G.space v name := by
  refine ⟨percent_error h, ?_⟩
  by_contra hp
  rw [defText_plain] at h
  · cases h
  · intro hm
    rw [shapeInfo, List.append_assoc] at hm
    have := mem_lstrip hm
    simp at this
    exact hp this

/-- The outcome of printing a list of variables. -/
def ListOutcome (G : PGraph) (P : ℕ → Prop) (st : PState) (vs : List ℕ) (r : Except Err (PState × List Text)) : Prop :=
  (∃ st' ss, r = .ok (st', ss) ∧ Inv G P st' ∧ After st st' (fun u => ∃ v ∈ vs, G.Reaches v u) ∧ vs.map st'.get = ss.map some) ∨
  ∃ e, r = .error e ∧ ∃ v ∈ vs, Fails G v e

/-- The outcome of printing a variable. -/
def Outcome (G : PGraph) (P : ℕ → Prop) (st : PState) (v : ℕ) (r : Except Err (PState × Text)) : Prop :=
  (∃ st' s, r = .ok (st', s) ∧ Inv G P st' ∧ After st st' (G.Reaches v) ∧ st'.get v = some s) ∨ ∃ e, r = .error e ∧ Fails G v e

theorem processList_outcome {G : PGraph} {P : ℕ → Prop} {f : PState → ℕ → Except Err (PState × Text)} : ∀ (vs : List ℕ) (st : PState), Inv G P st →
    (∀ st v, v ∈ vs → Inv G P st → Outcome G P st v (f st v)) → ListOutcome G P st vs (processList f st vs)
  | [], st, hI, _ => .inl ⟨st, [], rfl, hI, After.refl _ _, rfl⟩
  | v :: vs, st, hI, hf => by
    rcases hf st v (by simp) hI with ⟨st1, s, h1, hI1, ha1, hv1⟩ | ⟨e, h1, hun⟩
    · rcases processList_outcome vs st1 hI1 fun st w hw => hf st w (by simp [hw]) with ⟨st2, ss, h2, hI2, ha2, hv2⟩ | ⟨e, h2, w, hw, hun⟩
      · refine .inl ⟨st2, s :: ss, ?_, hI2, (ha1.mono fun u hu => ⟨v, by simp, hu⟩).trans (ha2.mono fun u ⟨w, hw, h⟩ => ⟨w, by simp [hw], h⟩), ?_⟩
        · simp only [processList, h1, bind, Except.bind, h2]; rfl
        · rw [List.map_cons, List.map_cons, hv2, ha2.keep v s hv1]
      · refine .inr ⟨e, ?_, w, by simp [hw], hun⟩
        simp only [processList, h1, bind, Except.bind, h2]
    · refine .inr ⟨e, ?_, v, by simp, hun⟩
      simp only [processList, h1, bind, Except.bind]

theorem Inv.notMem {G : PGraph} {P : ℕ → Prop} {st : PState} (hI : Inv G P st) {v : ℕ} (hv : st.get v = none) : v ∉ st.ids := fun h =>
  ((hI.memo v (hI.rv v h)).2 (.inl h)) hv

/-- A variable that is not random is put into `memo` after everything it mentions. -/
theorem Inv.add {G : PGraph} {P : ℕ → Prop} {st st' : PState} (hI : Inv G P st) {v : ℕ} (hv : st.get v = none) (hrv : ¬ G.IsRV v) (hP : ∀ u, P u → v < u) (hac : G.Acyclic)
    (hdeps : ∀ u ∈ G.deps v, st.get u ≠ none) {s : Text} (hget : ∀ u, st'.get u = if v = u then some s else st.get u) (hrvs : st'.rvs = st.rvs)
    (hshape : ∀ u, (v = u → G.kind u = .var → st'.shapes.get? u = some (shapeInfo G u s)) ∧ (¬ (v = u ∧ G.kind u = .var) → st'.shapes.get? u = st.shapes.get? u)) (hnamed : ∀ c cs, G.kind v = .var → G.name v = some (c :: cs) → s = c :: cs) :
    Inv G P st' := by
  have hids : st'.ids = st.ids := by rw [PState.ids, hrvs]
  refine ⟨hids ▸ hI.nodup, fun u hu => ?_, hids ▸ hI.rv, hids ▸ hI.pending, fun u hu hPu w hw hrw => ?_, fun l u t l' h => hI.before l u t l' (hrvs ▸ h), fun u hu hPu w hw => ?_, fun p hp => ?_, fun u hu => ?_, fun u hu => ?_,
    fun u c cs hu hn x hx => ?_⟩
  · have : v ≠ u := fun h => hrv (h ▸ hu)
    rw [hget, if_neg this, hids]
    exact hI.memo u hu
  · rw [hids]
    by_cases huv : v = u
    · subst huv
      cases hw with
      | refl => exact absurd hrw hrv
      | step hd hw => exact hI.done _ (hdeps _ hd) (fun h => absurd (hP _ h) (by have := hac _ _ hd; omega)) w hw hrw
    · rw [hget, if_neg huv] at hu
      exact hI.done u hu hPu w hw hrw
  · rw [hget]
    split
    · simp
    · by_cases huv : v = u
      · subst huv
        cases hw with
        | refl => simp at *
        | step hd hw => exact hI.closed _ (hdeps _ hd) (fun h => absurd (hP _ h) (by have := hac _ _ hd; omega)) w hw
      · rw [hget, if_neg huv] at hu
        exact hI.closed u hu hPu w hw
  · obtain ⟨op, params, format, name, ss, h1, h2, h3, h4⟩ := hI.text p (hrvs ▸ hp)
    have hkeep : ∀ u x, st.get u = some x → st'.get u = some x := fun u x hx => by
      rw [hget, if_neg (fun h => by rw [← h, hv] at hx; cases hx)]
      exact hx
    refine ⟨op, params, format, name, ss, h1, hkeep _ _ h2, ?_, h4⟩
    rw [← h3]
    refine List.map_congr_left fun u hu => ?_
    have : st.get u ∈ ss.map some := h3 ▸ List.mem_map_of_mem hu
    obtain ⟨x, -, hx⟩ := List.mem_map.1 this
    rw [← hx, hkeep u x hx.symm]
  · rw [hget]
    by_cases huv : v = u
    · rw [(hshape u).1 huv hu, if_pos huv]; rfl
    · rw [(hshape u).2 (by simp [huv]), if_neg huv]
      exact hI.shape u hu
  · rw [(hshape u).2 (by simp [hu])]
    exact hI.noShape u hu
  · rw [hget] at hx
    by_cases huv : v = u
    · subst huv
      rw [if_pos rfl] at hx
      cases hx
      exact hnamed c cs (hu.resolve_left hrv) hn
    · rw [if_neg huv] at hx
      exact hI.named u c cs hu hn x hx

theorem keep_of_get {st st' : PState} {v : ℕ} {s : Text} (hv : st.get v = none) (hget : ∀ u, st'.get u = if v = u then some s else st.get u) {R : ℕ → Prop} (hR : R v) : After st st' R :=
  ⟨fun u x hx => by
    rw [hget, if_neg (fun h => by rw [← h, hv] at hx; cases hx)]
    exact hx, fun u hu => by
    by_cases h : v = u
    · exact .inr (h ▸ hR)
    · rw [hget, if_neg h] at hu
      exact .inl hu⟩

theorem process_outcome {G : PGraph} (hac : G.Acyclic) : ∀ (fuel v : ℕ), v < fuel → ∀ (P : ℕ → Prop) (st : PState), (∀ u, P u → v < u) → Inv G P st →
    Outcome G P st v (process G fuel st v)
  | 0, _, h, _, _, _, _ => by omega
  | fuel + 1, v, hfuel, P, st, hP, hI => by
    rw [process]
    rcases hv : st.names.memo.get? v with _ | s
    swap
    · exact .inl ⟨st, s, rfl, hI, After.refl _ _, hv⟩
    have hv' : st.get v = none := hv
    have ih : ∀ (Q : ℕ → Prop), (∀ u, Q u → v ≤ u) → ∀ st u, u ∈ G.deps v → Inv G Q st → Outcome G Q st u (process G fuel st u) := fun Q hQ st u hu hI =>
      process_outcome hac fuel u (by have := hac v u hu; omega) Q st (fun w hw => lt_of_lt_of_le (hac v u hu) (hQ w hw)) hI
    rcases hk : G.kind v with _ | ⟨op, params, format⟩ | ⟨inputs, render⟩ | _
    · -- ordinary variables
      have hdeps : G.deps v = [] := by simp [PGraph.deps, hk]
      have hrv : ¬ G.IsRV v := by rintro ⟨_, _, _, h⟩; rw [hk] at h; cases h
      rcases name_spec G st.names v hv with ⟨names, s, h1, h2, hnm⟩ | ⟨h1, h2⟩
      · have hget : ∀ u, PState.get ({ st with names := names, shapes := st.shapes.set v (shapeInfo G v s) }.remember v s) u = if v = u then some s else st.get u := fun u => by
          simp only [PState.get, PState.remember, Dict.get?_set, h2]
          split <;> rfl
        refine .inl ⟨_, s, by simp only [processVar, h1, bind, Except.bind]; rfl, hI.add hv' hrv hP hac (by simp [hdeps]) hget rfl
          (fun u => ⟨fun huv _ => by simp [PState.remember, Dict.get?_set, huv], fun hne => ?_⟩) (fun c cs _ hn => hnm c cs hn), keep_of_get hv' hget (.refl v), ?_⟩
        · simp only [PState.remember, Dict.get?_set]
          exact if_neg fun huv => hne ⟨huv, huv ▸ hk⟩
        · rw [hget, if_pos rfl]
      · exact .inr ⟨_, by simp only [processVar, h1, bind, Except.bind], v, .refl v, .inl ⟨rfl, h2⟩⟩
    · -- random variables
      have hdeps : G.deps v = params := by simp [PGraph.deps, hk]
      have hrv : G.IsRV v := ⟨op, params, format, hk⟩
      rcases name_spec G st.names v hv with ⟨names, s, h1, h2, hnm⟩ | ⟨h1, h2⟩
      swap
      · exact .inr ⟨_, by simp only [processRV, h1, bind, Except.bind], v, .refl v, .inl ⟨rfl, h2⟩⟩
      have hget : ∀ u, PState.get { st with names := names } u = if v = u then some s else st.get u := h2
      have ha0 := keep_of_get (R := G.Reaches v) hv' hget (.refl v)
      let P' : ℕ → Prop := fun u => P u ∨ u = v
      have hP' : ∀ u, P' u → v ≤ u := fun u hu => hu.elim (fun h => (hP u h).le) fun h => h.ge
      have hI0 : Inv G P' { st with names := names } := by
        refine ⟨hI.nodup, fun u hu => ?_, hI.rv, fun u hu => hu.elim (hI.pending u) fun h => h ▸ hI.notMem hv', fun u hu hPu w hw hrw => ?_, hI.before, fun u hu hPu w hw => ?_, fun p hp => ?_, fun u hu => ?_, hI.noShape, fun u c cs hu hn x hx => ?_⟩
        · rw [hget]
          by_cases h : v = u
          · simp [h, P']
          · rw [if_neg h]
            have := hI.memo u hu
            simp only [P', show u ≠ v from fun h' => h h'.symm, or_false]
            exact this
        · have huv : v ≠ u := fun h => hPu (.inr h.symm)
          rw [hget, if_neg huv] at hu
          exact hI.done u hu (fun h => hPu (.inl h)) w hw hrw
        · have huv : v ≠ u := fun h => hPu (.inr h.symm)
          rw [hget, if_neg huv] at hu
          rw [hget]
          split
          · simp
          · exact hI.closed u hu (fun h => hPu (.inl h)) w hw
        · obtain ⟨op, params, format, name, ss, h1, h2, h3, h4⟩ := hI.text p hp
          refine ⟨op, params, format, name, ss, h1, ha0.keep _ _ h2, ?_, h4⟩
          rw [← h3]
          refine List.map_congr_left fun u hu => ?_
          have : st.get u ∈ ss.map some := h3 ▸ List.mem_map_of_mem hu
          obtain ⟨x, -, hx⟩ := List.mem_map.1 this
          rw [← hx, ha0.keep u x hx.symm]
        · have huv : v ≠ u := fun h => by rw [← h, hk] at hu; cases hu
          rw [hget, if_neg huv]
          exact hI.shape u hu
        · rw [hget] at hx
          by_cases huv : v = u
          · subst huv
            rw [if_pos rfl] at hx
            cases hx
            exact hnm c cs hn
          · rw [if_neg huv] at hx
            exact hI.named u c cs hu hn x hx
      have hreach : ∀ u, (∃ w ∈ params, G.Reaches w u) → G.Reaches v u := fun u ⟨w, hw, h⟩ => .step (hdeps ▸ hw) h
      have ihP : ∀ st u, u ∈ params → Inv G P' st → Outcome G P' st u (process G fuel st u) := fun st u hu => ih P' hP' st u (hdeps ▸ hu)
      rcases processList_outcome params _ hI0 ihP with ⟨st1, ss1, h3, hI1, ha1, hm1⟩ | ⟨e, h3, w, hw, hun⟩
      swap
      · exact .inr ⟨e, by simp only [processRV, h1, bind, Except.bind, h3], hun.step (hdeps ▸ hw)⟩
      rcases processList_outcome params st1 hI1 ihP with ⟨st2, ss, h4, hI2, ha2, hm2⟩ | ⟨e, h4, w, hw, hun⟩
      swap
      · exact .inr ⟨e, by simp only [processRV, h1, bind, Except.bind, h3, h4], hun.step (hdeps ▸ hw)⟩
      cases hdef : defText G v op s (formatParams format ss) with
      | error e =>
        obtain ⟨he, hs⟩ := defText_error hdef
        exact .inr ⟨e, by simp only [processRV, h1, bind, Except.bind, h3, h4, hdef], v, .refl v, .inr ⟨he, hrv, s, hs⟩⟩
      | ok line =>
        have ha : After { st with names := names } st2 (G.Reaches v) := (ha1.mono hreach).trans (ha2.mono hreach)
        have hv2 : st2.get v = some s := ha.keep v s (by rw [hget, if_pos rfl])
        have hgetf : ∀ u, (st2.remember v s).get u = st2.get u := fun u => by
          simp only [PState.get, PState.remember, Dict.get?_set]
          split
          · rename_i h; rw [← h]; exact hv2.symm
          · rfl
        have hnot : v ∉ st2.ids := hI2.pending v (.inr rfl)
        have hsub : ∀ w, G.Reaches v w → w ≠ v → G.IsRV w → w ∈ st2.ids := fun w hw hne hrw => by
          cases hw with
          | refl => exact absurd rfl hne
          | @step _ x _ hd hw =>
            rw [hdeps] at hd
            have hx : st2.get x ≠ none := by
              have : st2.get x ∈ ss.map some := hm2 ▸ List.mem_map_of_mem hd
              obtain ⟨y, -, hy⟩ := List.mem_map.1 this
              rw [← hy]; simp
            have hxv : x < v := hac v x (hdeps ▸ hd)
            exact hI2.done x hx (fun h => absurd (hP' x h) (by omega)) w hw hrw
        refine .inl ⟨_, s, by simp only [processRV, h1, bind, Except.bind, h3, h4, hdef]; rfl, ?_, ha0.trans ⟨fun u x hx => ?_, fun u hu => ?_⟩, ?_⟩
        · refine ⟨?_, fun u hu => ?_, fun u hu => ?_, fun u hu => ?_, fun u hu hPu w hw hrw => ?_, fun l u t l' h w hw hne hrw => ?_, fun u hu hPu w hw => ?_, fun p hp => ?_,
            fun u hu => ?_, hI2.noShape, fun u c cs hu hn x hx => ?_⟩
          · simp only [PState.ids, PState.remember, List.map_append, List.map_cons, List.map_nil]
            rw [List.nodup_append]
            exact ⟨hI2.nodup, by simp, fun a ha b hb => by rw [List.mem_singleton.1 hb]; exact fun h => hnot (h ▸ ha)⟩
          · have := hI2.memo u hu
            show (st2.remember v s).get u ≠ none ↔ _
            rw [hgetf, this]
            simp only [PState.ids, PState.remember, List.map_append, List.map_cons, List.map_nil, List.mem_append, List.mem_singleton, P']
            tauto
          · simp only [PState.ids, PState.remember, List.map_append, List.map_cons, List.map_nil, List.mem_append, List.mem_singleton] at hu
            exact hu.elim (hI2.rv u) fun h => h ▸ hrv
          · simp only [PState.ids, PState.remember, List.map_append, List.map_cons, List.map_nil, List.mem_append, List.mem_singleton, not_or]
            exact ⟨hI2.pending u (.inl hu), fun h => absurd (hP u hu) (by omega)⟩
          · simp only [PState.ids, PState.remember, List.map_append, List.map_cons, List.map_nil, List.mem_append, List.mem_singleton]
            have hu : (st2.remember v s).get u ≠ none := hu
            rw [hgetf] at hu
            by_cases huv : u = v
            · subst huv
              by_cases hwv : w = u
              · exact .inr hwv
              · exact .inl (hsub w hw hwv hrw)
            · exact .inl (hI2.done u hu (fun h => h.elim hPu huv) w hw hrw)
          · have h : st2.rvs ++ [(v, line)] = l ++ (u, t) :: l' := h
            rcases List.eq_nil_or_concat l' with rfl | ⟨l'', q, rfl⟩
            · have h' := List.append_inj' h rfl
              obtain ⟨rfl, h''⟩ := h'
              cases h''
              exact hsub w hw hne hrw
            · have h' : st2.rvs ++ [(v, line)] = (l ++ (u, t) :: l'') ++ [q] := by rw [h]; simp
              obtain ⟨h'', -⟩ := List.append_inj' h' rfl
              exact hI2.before l u t l'' h'' w hw hne hrw
          · have hu : (st2.remember v s).get u ≠ none := hu
            show (st2.remember v s).get w ≠ none
            rw [hgetf] at hu ⊢
            by_cases huv : u = v
            · subst huv
              cases hw with
              | refl => rw [hv2]; simp
              | @step _ x _ hd hw =>
                rw [hdeps] at hd
                have hx : st2.get x ≠ none := by
                  have : st2.get x ∈ ss.map some := hm2 ▸ List.mem_map_of_mem hd
                  obtain ⟨y, -, hy⟩ := List.mem_map.1 this
                  rw [← hy]; simp
                have hxv : x < u := hac u x (hdeps ▸ hd)
                exact hI2.closed x hx (fun h => absurd (hP' x h) (by omega)) w hw
            · exact hI2.closed u hu (fun h => h.elim hPu huv) w hw
          · have hp : p ∈ st2.rvs ++ [(v, line)] := hp
            have hmap : ∀ (ps : List ℕ), ps.map (st2.remember v s).get = ps.map st2.get := fun ps => List.map_congr_left fun u _ => hgetf u
            rcases List.mem_append.1 hp with hp | hp
            · obtain ⟨op, params, format, name, ss, h1, h2, h3, h4⟩ := hI2.text p hp
              exact ⟨op, params, format, name, ss, h1, (hgetf _).trans h2, (hmap _).trans h3, h4⟩
            · rw [List.mem_singleton.1 hp]
              exact ⟨op, params, format, s, ss, hk, (hgetf v).trans hv2, (hmap _).trans hm2, hdef⟩
          · show st2.shapes.get? u = ((st2.remember v s).get u).map _
            rw [hgetf]
            exact hI2.shape u hu
          · have hx : (st2.remember v s).get u = some x := hx
            rw [hgetf] at hx
            exact hI2.named u c cs hu hn x hx
        · show (st2.remember v s).get u = some x
          rw [hgetf]
          exact ha.keep u x hx
        · have hu : (st2.remember v s).get u ≠ none := hu
          rw [hgetf] at hu
          exact ha.new u hu
        · show (st2.remember v s).get v = some s
          rw [hgetf]
          exact hv2
    · -- operators
      have hdeps : G.deps v = inputs := by simp [PGraph.deps, hk]
      have hrv : ¬ G.IsRV v := by rintro ⟨_, _, _, h⟩; rw [hk] at h; cases h
      rcases processList_outcome inputs st hI (fun st u hu => ih P (fun w hw => (hP w hw).le) st u (hdeps ▸ hu)) with ⟨st1, ss, h1, hI1, ha1, hm1⟩ | ⟨e, h1, w, hw, hun⟩
      · have hv1 : st1.get v = none := by
          by_contra h
          rcases ha1.new v h with h | ⟨w, hw, h⟩
          · exact h hv'
          · have : ∀ a b, G.Reaches a b → b ≤ a := fun a b hab => by
              induction hab with
              | refl => exact le_rfl
              | step hd _ ih => exact ih.trans (hac _ _ hd).le
            have h1 := this w v h
            have h2 := hac v w (hdeps ▸ hw)
            omega
        have hget : ∀ u, (st1.remember v (render ss)).get u = if v = u then some (render ss) else st1.get u := fun u => by
          simp only [PState.get, PState.remember, Dict.get?_set]
        refine .inl ⟨_, render ss, by simp only [processOp, h1, bind, Except.bind]; rfl, hI1.add hv1 hrv hP hac (fun u hu => ?_) hget rfl (fun u => ⟨fun huv h => (by rw [← huv, hk] at h; cases h), fun _ => rfl⟩) (fun _ _ h => by rw [hk] at h; cases h),
          (ha1.mono fun u ⟨w, hw, h⟩ => .step (hdeps ▸ hw) h).trans (keep_of_get hv1 hget (.refl v)), by rw [hget, if_pos rfl]⟩
        have : st1.get u ∈ ss.map some := hm1 ▸ List.mem_map_of_mem (hdeps ▸ hu)
        obtain ⟨y, -, hy⟩ := List.mem_map.1 this
        rw [← hy]; simp
      · exact .inr ⟨e, by simp only [processOp, h1, bind, Except.bind], hun.step (hdeps ▸ hw)⟩
    · -- ignored
      have hdeps : G.deps v = [] := by simp [PGraph.deps, hk]
      have hrv : ¬ G.IsRV v := by rintro ⟨_, _, _, h⟩; rw [hk] at h; cases h
      have hget : ∀ u, (st.remember v []).get u = if v = u then some [] else st.get u := fun u => by
        simp only [PState.get, PState.remember, Dict.get?_set]
      exact .inl ⟨_, [], rfl, hI.add hv' hrv hP hac (by simp [hdeps]) hget rfl (fun u => ⟨fun huv h => (by rw [← huv, hk] at h; cases h), fun _ => rfl⟩) (fun _ _ h => by rw [hk] at h; cases h), keep_of_get hv' hget (.refl v), by rw [hget, if_pos rfl]⟩

theorem inv_fresh (G : PGraph) : Inv G (fun _ => False) ⟨NameState.fresh, [], []⟩ where
  nodup := by simp [PState.ids]
  memo u _ := by simp [PState.get, PState.ids, NameState.fresh, Dict.get?]
  rv := by simp [PState.ids]
  pending := by simp
  done u h := absurd rfl h
  before l u t l' h := by simp at h
  closed u h := absurd rfl h
  text := by simp
  shape u _ := by simp [PState.get, NameState.fresh, Dict.get?]
  noShape u _ := by simp [Dict.get?]
  named u c cs _ _ s h := by simp [PState.get, NameState.fresh, Dict.get?] at h

theorem print_outcome {G : PGraph} (hac : G.Acyclic) {fuel : ℕ} {outs : List ℕ} (hfuel : ∀ o ∈ outs, o < fuel) :
    ListOutcome G (fun _ => False) ⟨NameState.fresh, [], []⟩ outs (printOutputs G fuel outs) :=
  processList_outcome outs _ (inv_fresh G) fun st v hv hI => process_outcome hac fuel v (hfuel v hv) _ st (by simp) hI

/-- **C103** The preamble defines every random variable that an output is or depends on (through parameters and operators) exactly once, defines nothing else, and defines it after all
random variables that it depends on itself. -/
theorem C103_defined_once {G : PGraph} (hac : G.Acyclic) {fuel : ℕ} {outs : List ℕ} (hfuel : ∀ o ∈ outs, o < fuel) {st : PState} {body : List Text}
    (h : printOutputs G fuel outs = .ok (st, body)) :
    (st.rvs.map Prod.fst).Nodup ∧ (∀ u, u ∈ st.rvs.map Prod.fst ↔ G.IsRV u ∧ ∃ o ∈ outs, G.Reaches o u) ∧
    ∀ l u t l', st.rvs = l ++ (u, t) :: l' → ∀ w, G.Reaches u w → w ≠ u → G.IsRV w → w ∈ l.map Prod.fst := by
  rcases print_outcome hac hfuel with ⟨st', ss, h1, hI, ha, hm⟩ | ⟨_, h1, -⟩
  · rw [h1] at h
    cases h
    refine ⟨hI.nodup, fun u => ⟨fun hu => ⟨hI.rv u hu, ?_⟩, fun ⟨hrv, o, ho, hr⟩ => ?_⟩, hI.before⟩
    · rcases ha.new u ((hI.memo u (hI.rv u hu)).2 (.inl hu)) with h | h
      · exact absurd rfl h
      · exact h
    · refine hI.done o ?_ (by simp) u hr hrv
      have : st.get o ∈ body.map some := hm ▸ List.mem_map_of_mem ho
      obtain ⟨y, -, hy⟩ := List.mem_map.1 this
      rw [← hy]; simp
  · rw [h1] at h; cases h

/-- **C103** (errors) Printing fails only with `KeyError`, and only if some variable it needs has no name (the letters have run out, `C77_enough`), or with `TypeError`, and only if the shape information of a random
variable contains a percent sign (`C104_percent_wrong`). -/
theorem C103_errors {G : PGraph} (hac : G.Acyclic) {fuel : ℕ} {outs : List ℕ} (hfuel : ∀ o ∈ outs, o < fuel) {e : Err} (h : printOutputs G fuel outs = .error e) :
    e = .keyError ∧ (∃ o ∈ outs, ∃ u, G.Reaches o u ∧ G.Unnamed u) ∨ e = .typeError ∧ ∃ o ∈ outs, ∃ u, G.Reaches o u ∧ G.IsRV u ∧ ∃ name, '%' ∈ G.space u name := by
  rcases print_outcome hac hfuel with ⟨st', ss, h1, hI, ha, hm⟩ | ⟨e', h1, o, ho, u, hu, h2⟩
  · rw [h1] at h; cases h
  · rw [h1] at h
    cases h
    rcases h2 with ⟨h2, h3⟩ | ⟨h2, h3⟩
    · exact .inl ⟨h2, o, ho, u, hu, h3⟩
    · exact .inr ⟨h2, o, ho, u, hu, h3⟩

theorem lstrip_name {name rest : Text} (h : ' ' ∉ name) : lstrip (name ++ [' '] ++ rest) name = ' ' :: rest := by
  have key : ∀ l : Text, (∀ c ∈ l, c ∈ name) → lstrip (l ++ [' '] ++ rest) name = ' ' :: rest := fun l => by
    induction l with
    | nil => intro _; simp [lstrip, h]
    | cons c l ih =>
      intro hl
      have := ih fun c hc => hl c (by simp [hc])
      simp only [lstrip, List.cons_append, List.append_assoc] at this ⊢
      rw [List.dropWhile_cons_of_pos (by simpa using hl c (by simp))]
      exact this
  exact key name fun _ h => h

/-- With a blank in the name, the blank after the name is removed too. -/
theorem lstrip_blank {name rest : Text} (h : ' ' ∈ name) : (lstrip (name ++ [' '] ++ rest) name).length ≤ rest.length := by
  have key : ∀ l : Text, (∀ c ∈ l, c ∈ name) → (lstrip (l ++ rest) name).length ≤ rest.length := fun l => by
    induction l with
    | nil => exact fun _ => (List.dropWhile_suffix _).length_le
    | cons a l ih =>
      intro hl
      rw [lstrip, List.cons_append, List.dropWhile_cons_of_pos (by simpa using hl a (by simp))]
      exact ih fun c hc => hl c (by simp [hc])
  exact key (name ++ [' ']) fun c hc => by
    rcases List.mem_append.1 hc with hc | hc
    · exact hc
    · rw [List.mem_singleton.1 hc]; exact h

theorem percent_length : ∀ (cs : Text) (t : Text), percent cs [] = .ok t → t.length ≤ cs.length ∧ ('%' ∈ cs → t.length < cs.length) := by
  have key : ∀ (cs : Text) (args : List Text) (t : Text), args = [] → percent cs args = .ok t → t.length ≤ cs.length ∧ ('%' ∈ cs → t.length < cs.length) := by
    intro cs args
    induction cs, args using percent.induct with
    | case1 => intro t _ h; rw [percent] at h; cases h; simp
    | case2 => intro t ha; cases ha
    | case3 cs args ih =>
      intro t ha h
      rw [percent] at h
      cases hp : percent cs args with
      | error e => rw [hp] at h; cases h
      | ok x =>
        rw [hp] at h
        cases h
        have := (ih x ha hp).1
        simp only [List.length_cons]
        exact ⟨by omega, fun _ => by omega⟩
    | case4 => intro t ha; cases ha
    | case5 cs args h1 h2 =>
      intro t ha h
      rw [percent, if_pos rfl] at h
      · cases h
      · intro cs' hc; cases hc; exact h1 _ rfl
      · subst ha; intro cs' a as h4 h5 h6; simp_all
    | case6 c cs args h1 h2 hc ih =>
      intro t ha h
      rw [percent, if_neg hc] at h
      · cases hp : percent cs args with
        | error e => rw [hp] at h; cases h
        | ok x =>
          rw [hp] at h
          cases h
          obtain ⟨k1, k2⟩ := ih x ha hp
          simp only [List.length_cons, List.mem_cons]
          exact ⟨by omega, fun hm => by have := k2 (hm.resolve_left fun h => hc h.symm); omega⟩
      all_goals simp_all
  exact fun cs t h => key cs [] t rfl h

/-- **C104** The strings of the preamble and of the body fit together: there is one string for every variable; an output is printed as its string; a variable or random variable with
a name has that name as its string; the shape information of every ordinary variable that an output depends on, and of no other, is `name space`; and the definition of a
random variable is `name ~ op(parameters) space` (in LaTeX `name \sim op\left(parameters\right)\,  space`) exactly if its string contains no blank and its shape information no percent sign.  Missing: definitions of random variables with blanks or percent signs in
their names, for which it is false (`C104_blank_wrong`, `C104_percent_wrong`). -/
theorem C104_text_partial {G : PGraph} (hac : G.Acyclic) {fuel : ℕ} {outs : List ℕ} (hfuel : ∀ o ∈ outs, o < fuel) {st : PState} {body : List Text}
    (h : printOutputs G fuel outs = .ok (st, body)) :
    ∃ text : ℕ → Text, body = outs.map text ∧
      (∀ u c cs, (∃ o ∈ outs, G.Reaches o u) → G.IsRV u ∨ G.kind u = .var → G.name u = some (c :: cs) → text u = c :: cs) ∧
      (∀ u s, st.shapes.get? u = some s ↔ G.kind u = .var ∧ (∃ o ∈ outs, G.Reaches o u) ∧ s = text u ++ [' '] ++ G.space u (text u)) ∧
      ∀ p ∈ st.rvs, G.IsDefinition text p.1 p.2 ↔ ' ' ∉ text p.1 ∧ '%' ∉ G.space p.1 (text p.1) := by
  rcases print_outcome hac hfuel with ⟨st', ss, h1, hI, ha, hm⟩ | ⟨_, h1, -⟩
  swap
  · rw [h1] at h; cases h
  rw [h1] at h
  cases h
  have hmap : ∀ (vs : List ℕ) (ss : List Text), vs.map st.get = ss.map some → ss = vs.map fun u => (st.get u).getD [] := fun vs ss h => by
    have : (vs.map st.get).map (fun o => o.getD []) = (ss.map some).map (fun o => o.getD []) := by rw [h]
    simpa [Function.comp_def] using this.symm
  have hreach : ∀ u, (∃ o ∈ outs, G.Reaches o u) → st.get u ≠ none := fun u ⟨o, ho, hr⟩ => by
    refine hI.closed o ?_ (by simp) u hr
    have : st.get o ∈ body.map some := hm ▸ List.mem_map_of_mem ho
    obtain ⟨y, -, hy⟩ := List.mem_map.1 this
    rw [← hy]; simp
  refine ⟨fun u => (st.get u).getD [], hmap _ _ hm, fun u c cs hu hk hn => ?_, fun u s => ?_, fun p hp => ?_⟩
  · rcases hs : st.get u with _ | s
    · exact absurd hs (hreach u hu)
    · show (st.get u).getD [] = _
      rw [hs, hI.named u c cs hk hn s hs]; rfl
  · constructor
    · intro hs
      have hk : G.kind u = .var := by
        by_contra hk
        rw [hI.noShape u hk] at hs
        cases hs
      rw [hI.shape u hk] at hs
      rcases hx : st.get u with _ | x
      · rw [hx] at hs; cases hs
      · rw [hx] at hs
        cases hs
        refine ⟨hk, (ha.new u (by rw [hx]; simp)).resolve_left fun h => h rfl, ?_⟩
        show _ = (st.get u).getD [] ++ [' '] ++ G.space u ((st.get u).getD [])
        rw [hx]; rfl
    · rintro ⟨hk, hu, rfl⟩
      rw [hI.shape u hk]
      rcases hx : st.get u with _ | x
      · exact absurd hx (hreach u hu)
      · show _ = some ((st.get u).getD [] ++ [' '] ++ G.space u ((st.get u).getD []))
        rw [hx]; rfl
  · obtain ⟨op, params, format, name, ps, h1, h2, h3, h4⟩ := hI.text p hp
    have hname : (st.get p.1).getD [] = name := by rw [h2]; rfl
    simp only [hname]
    rw [defText_general, hmap _ _ h3] at h4
    constructor
    · rintro ⟨op', params', format', h1', h5⟩
      rw [h1] at h1'
      cases h1'
      simp only [hname] at h5
      rcases hq : percent (lstrip (shapeInfo G p.1 name) name) [] with e | t
      · rw [hq] at h4; cases h4
      rw [hq] at h4
      have h4 := (Except.ok.inj h4).trans h5
      have h6 : t = ' ' :: G.space p.1 name := by
        revert h4
        cases G.latex <;> simp only [lineText, Bool.false_eq_true, if_false, if_true, List.append_assoc, List.append_cancel_left_eq] <;> intro h4
        · exact List.append_cancel_left (as := [')']) (by simpa using h4)
        · exact List.append_cancel_left (as := "\\right)\\, ".toList) (by simpa using h4)
      obtain ⟨l1, l2⟩ := percent_length _ _ hq
      rw [h6, List.length_cons] at l1 l2
      have hb : ' ' ∉ name := fun hb => by
        have := lstrip_blank (rest := G.space p.1 name) hb
        rw [shapeInfo] at l1
        omega
      refine ⟨hb, fun hpc => ?_⟩
      rw [shapeInfo, lstrip_name hb] at l2
      have := l2 (by simp [hpc])
      rw [List.length_cons] at this
      omega
    · rintro ⟨hb, hpc⟩
      refine ⟨op, params, format, h1, ?_⟩
      rw [shapeInfo, lstrip_name hb, percent_plain (by simpa using hpc)] at h4
      simp only [hname]
      rw [← Except.ok.inj h4]
      cases G.latex <;> simp [lineText]

/-- **C104** (negation for names with blanks) `lstrip(var_name)` (printing.py:157) removes every leading character that occurs in the name, not the name.  The definition of a
variable `n i` with values in `R` is printed as `n i ~ N()R`. -/
theorem C104_blank_wrong : ∃ (G : PGraph) (st : PState) (body : List Text), G.Acyclic ∧ printOutputs G 1 [0] = .ok (st, body) ∧
    (∀ name, G.space 0 name = ['i', 'n', ' ', 'R']) ∧ st.rvs = [(0, ['n', ' ', 'i', ' ', '~', ' ', 'N', '(', ')', 'R'])] ∧
    ¬ ∃ text : ℕ → Text, body = [0].map text ∧ ∀ p ∈ st.rvs, G.IsDefinition text p.1 p.2 := by
  let G : PGraph := ⟨fun v => if v = 0 then .rv ['N'] [] (fun _ s => s) else .var, fun _ => some ['n', ' ', 'i'], [0], fun _ _ => ['i', 'n', ' ', 'R'], false⟩
  have h : printOutputs G 1 [0] = .ok (⟨⟨[(0, ['n', ' ', 'i'])], some asciiLetters⟩, [], [(0, ['n', ' ', 'i', ' ', '~', ' ', 'N', '(', ')', 'R'])]⟩, [['n', ' ', 'i']]) := by rfl
  refine ⟨G, _, _, fun v u hu => ?_, h, fun _ => rfl, rfl, ?_⟩
  · by_cases hv : v = 0 <;> simp [PGraph.deps, G, hv] at hu
  · rintro ⟨text, hb, hd⟩
    obtain ⟨op, params, format, hk, hs⟩ := hd _ (List.mem_singleton.2 rfl)
    have h0 : text 0 = ['n', ' ', 'i'] := by simpa using hb.symm
    have hk : Kind.rv ['N'] [] (fun _ s => s) = .rv op params format := hk
    cases hk
    simp [h0, G, joinText, lineText] at hs

/-- **C104** (negation for names with percent signs) The shape information becomes a part of the format string (printing.py:158-161, 182), and for a vector of unknown length it contains the name: printing a random
vector `a%b` raises. -/
theorem C104_percent_wrong : ∃ G : PGraph, G.Acyclic ∧ G.name 0 = some "a%b".toList ∧ (∀ name, G.space 0 name = "in R**(N^".toList ++ name ++ "_0)".toList) ∧ ∀ fuel, printOutputs G (fuel + 1) [0] = .error .typeError :=
  ⟨⟨fun v => if v = 0 then .rv ['N'] [] (fun _ s => s) else .var, fun _ => some "a%b".toList, [0], fun _ name => "in R**(N^".toList ++ name ++ "_0)".toList, false⟩, fun v u hu => by
    by_cases hv : v = 0 <;> simp [PGraph.deps, hv] at hu, rfl, fun _ => rfl, fun _ => rfl⟩

/-! ### The theorems apply: `Y ~ N(X, X)` with `X ~ N(m)`, printed as part of `X + Y`. -/

namespace Demo

/-- `m`, `X ~ N(m)`, `Y ~ N(X, X)` and `(X + Y)`. -/
def G : PGraph where
  kind v := match v with
    | 1 => .rv ['N'] [0] fun _ s => s
    | 2 => .rv ['N'] [1, 1] fun _ s => s
    | 3 => .op [2, 1] fun ss => ['('] ++ joinText [' ', '+', ' '] ss ++ [')']
    | _ => .var
  name v := match v with
    | 1 => some ['X']
    | 2 => some ['Y']
    | _ => none
  fgraph := [0, 1, 2, 3]
  space _ _ := ['i', 'n', ' ', 'R']
  latex := false

theorem acyclic : G.Acyclic := fun v u hu => by
  rcases v with _ | _ | _ | _ | v <;> simp [PGraph.deps, G] at hu <;> omega

/-- The state after printing. -/
def final : PState where
  names := ⟨[(2, ['Y']), (1, ['X']), (0, ['a']), (3, ['(', 'Y', ' ', '+', ' ', 'X', ')'])], some ((asciiLetters.erase ['X']).erase ['Y']).tail⟩
  shapes := [(0, ['a', ' ', 'i', 'n', ' ', 'R'])]
  rvs := [(1, ['X', ' ', '~', ' ', 'N', '(', 'a', ')', ' ', 'i', 'n', ' ', 'R']), (2, ['Y', ' ', '~', ' ', 'N', '(', 'X', ',', ' ', 'X', ')', ' ', 'i', 'n', ' ', 'R'])]

theorem printed : printOutputs G 4 [3] = .ok (final, [['(', 'Y', ' ', '+', ' ', 'X', ')']]) := by decide +kernel

/-- The same in LaTeX. -/
theorem printed_latex : printOutputs { G with latex := true, space := fun _ _ => "\\in \\mathbb{R}".toList } 4 [3] = .ok ({ final with
    shapes := [(0, "a \\in \\mathbb{R}".toList)]
    rvs := [(1, "X \\sim N\\left(a\\right)\\,  \\in \\mathbb{R}".toList), (2, "Y \\sim N\\left(X, X\\right)\\,  \\in \\mathbb{R}".toList)] }, [['(', 'Y', ' ', '+', ' ', 'X', ')']]) := by decide +kernel

example := C104_text_partial (G := { G with latex := true, space := fun _ _ => "\\in \\mathbb{R}".toList }) acyclic (fuel := 4) (outs := [3]) (by simp) printed_latex
example := C103_defined_once acyclic (fuel := 4) (outs := [3]) (by simp) printed
example := C104_text_partial acyclic (fuel := 4) (outs := [3]) (by simp) printed

end Demo

end Verif.Defs
