import Verif.Model.Stack
import Verif.Spec.Stack
import Verif.Props.Cumsum
import Verif.Props.Dist1
import Mathlib.Data.List.GetD

/-! # C67: stacked and joined variables -/

namespace Verif
open FVal

theorem splitFrom_map {α : Type*} (a : ℕ) (v : Arr α) (sizes : List ℕ) (off : ℕ) :
    Arr.splitFrom a v off sizes = sizes.mapIdx fun k n =>
      ⟨v.shape.set a n, fun c => v.get (c.set a (off + (sizes.take k).sum + c.getD a 0))⟩ := by
  induction sizes generalizing off with
  | nil => rfl
  | cons n sizes ih =>
    rw [Arr.splitFrom, ih, List.mapIdx_cons]
    simp [Nat.add_assoc]

theorem set_getD_self {c : List ℕ} {a : ℕ} (h : a < c.length) : c.set a (c.getD a 0) = c := by
  rw [List.getD_eq_getElem _ _ h]; exact List.set_getElem_self h

theorem joinGet_eq {α : Type*} (a : ℕ) (c : List ℕ) (l : List (Arr α)) (p : Arr α) (k j : ℕ) (hk : k < (p :: l).length)
    (hj : j < ((p :: l)[k]).size a) : Arr.joinGet a c (joinOffset a (p :: l) k + j) p l = ((p :: l)[k]).get (c.set a j) := by
  induction l generalizing p k with
  | nil =>
    obtain rfl : k = 0 := by simpa using hk
    simp [Arr.joinGet, joinOffset]
  | cons q l ih =>
    cases k with
    | zero =>
      have : j < p.size a := hj
      simp [Arr.joinGet, joinOffset, this]
    | succ k =>
      have e : joinOffset a (p :: q :: l) (k + 1) = p.size a + joinOffset a (q :: l) k := by simp [joinOffset]
      rw [e, Arr.joinGet, if_neg (by omega), show p.size a + joinOffset a (q :: l) k + j - p.size a = joinOffset a (q :: l) k + j by omega]
      exact ih q k (by simpa using hk) (by simpa using hj)

theorem normAxis_lt {axis : ℤ} {n a : ℕ} (h : normAxis axis n = .ok a) : a < n := by
  unfold normAxis at h
  split_ifs at h with h1 h2
  · cases h; omega
  · cases h; omega

theorem size_of_shape {α : Type*} {p : Arr α} {S : List ℕ} {a n : ℕ} (ha : a < S.length) (h : p.shape = S.set a n) : p.size a = n := by
  simp [Arr.size, h, List.getElem?_set_self ha]

/-- Concatenating arrays that agree off the axis joins them. -/
theorem concatenate_isJoin {α : Type*} {axis : ℤ} {S : List ℕ} {a : ℕ} (hax : normAxis axis S.length = .ok a) {rs : List (Arr α)} (hne : rs ≠ [])
    (hrs : ∀ r ∈ rs, r.shape = S.set a (r.size a)) : ∃ out, Arr.concatenate axis rs = .ok out ∧ IsJoin a rs out ∧ out.ndim = S.length := by
  have ha := normAxis_lt hax
  match rs, hne with
  | [r], _ =>
    have hr := hrs r (by simp)
    refine ⟨r, rfl, ⟨?_, by simp, ?_, ?_⟩, by rw [Arr.ndim, hr, List.length_set]⟩
    · rw [Arr.ndim, hr, List.length_set]; exact ha
    · intro p hp
      obtain rfl : p = r := by simpa using hp
      conv_rhs => rw [hr, List.set_set]
      exact hr
    · intro k hk c hc
      obtain rfl : k = 0 := by simpa using hk
      have hcl : c.length = S.length := by
        have := hc.length
        rw [this]; simp [hr]
      simp only [joinOffset, List.take_zero, List.map_nil, List.sum_nil, Nat.zero_add, List.getElem_cons_zero]
      rw [set_getD_self (by omega)]
  | r :: s :: l, _ =>
    have hr := hrs r (by simp)
    have hnd : r.ndim = S.length := by rw [Arr.ndim, hr, List.length_set]
    have hall : ((s :: l).all fun b => decide (b.shape.set a 0 = r.shape.set a 0)) = true := by
      rw [List.all_eq_true]
      intro b hb
      have hb' := hrs b (by simp only [List.mem_cons] at hb ⊢; exact Or.inr hb)
      simp only [decide_eq_true_eq]
      rw [hb', hr, List.set_set, List.set_set]
    refine ⟨⟨r.shape.set a (((r :: s :: l).map fun b => b.size a).sum), fun c => Arr.joinGet a c (c.getD a 0) r (s :: l)⟩,
      by simp only [Arr.concatenate, hnd, hax, hall, if_true], ⟨?_, ?_, ?_, ?_⟩, ?_⟩
    · rw [Arr.ndim, List.length_set, hr, List.length_set]; exact ha
    · rw [Arr.size, List.getD_eq_getElem _ _ (by rw [List.length_set, hr, List.length_set]; exact ha), List.getElem_set_self]
    · intro p hp
      conv_rhs => rw [hr, List.set_set, List.set_set]
      exact hrs p hp
    · intro k hk c hc
      have hp := hrs _ (List.getElem_mem hk)
      have hcl : c.length = S.length := by rw [hc.length, hp, List.length_set]
      have hlt : c.getD a 0 < ((r :: s :: l)[k]).size a := by
        have := hc.getD_lt (a := a) (by rw [hp, List.length_set]; exact ha)
        exact this
      show Arr.joinGet a _ ((c.set a _).getD a 0) r (s :: l) = _
      rw [getD_set_self (by omega), joinGet_eq a _ _ _ k _ hk hlt, List.set_set, set_getD_self (by omega)]
    · rw [Arr.ndim, List.length_set, hr, List.length_set]

theorem zipM_ok {α β γ : Type} {f : α → β → Except Err γ} {as : List α} {bs : List β} {cs : List γ} (h1 : as.length = cs.length)
    (h2 : bs.length = cs.length) (h : ∀ k (h : k < cs.length), f as[k] bs[k] = .ok cs[k]) : zipM f as bs = .ok cs := by
  induction cs generalizing as bs with
  | nil => rw [List.length_nil, List.length_eq_zero_iff] at h1; subst h1; rfl
  | cons c cs ih =>
    match as, bs, h1, h2 with
    | a :: as, b :: bs, h1, h2 =>
      have e0 : f a b = .ok c := h 0 (by simp)
      have e1 : zipM f as bs = .ok cs := ih (by simpa using h1) (by simpa using h2) fun k hk => h (k + 1) (by simpa using hk)
      simp [zipM, e0, e1]

theorem zipM_rel {α β γ : Type} {f : α → β → Except Err γ} {R : γ → γ → Prop} {as : List α} {bs : List β} {cs : List γ} (h1 : as.length = cs.length)
    (h2 : bs.length = cs.length) (h : ∀ k (h : k < cs.length), ∃ c, f as[k] bs[k] = .ok c ∧ R cs[k] c) :
    ∃ cs', zipM f as bs = .ok cs' ∧ List.Forall₂ R cs cs' := by
  induction cs generalizing as bs with
  | nil => rw [List.length_nil, List.length_eq_zero_iff] at h1; subst h1; exact ⟨[], rfl, .nil⟩
  | cons c cs ih =>
    match as, bs, h1, h2 with
    | a :: as, b :: bs, h1, h2 =>
      obtain ⟨c', e0, hR⟩ : ∃ c', f a b = .ok c' ∧ R c c' := h 0 (by simp)
      obtain ⟨cs', e1, hRs⟩ := ih (by simpa using h1) (by simpa using h2) fun k hk => h (k + 1) (by simpa using hk)
      exact ⟨c' :: cs', by simp [zipM, e0, e1], .cons hR hRs⟩

theorem zipM_ok_inv {α β γ : Type} {f : α → β → Except Err γ} {as : List α} {bs : List β} {cs : List γ} (hl : bs.length = as.length)
    (h : zipM f as bs = .ok cs) : cs.length = as.length ∧ ∀ k (h1 : k < as.length) (h2 : k < bs.length) (h3 : k < cs.length), f as[k] bs[k] = .ok cs[k] := by
  induction as generalizing bs cs with
  | nil => cases h; exact ⟨rfl, fun k h1 => by simp at h1⟩
  | cons a as ih =>
    match bs, hl with
    | b :: bs, hl =>
      cases e0 : f a b with
      | error e => simp [zipM, e0] at h
      | ok c =>
        cases e1 : zipM f as bs with
        | error e => simp [zipM, e0, e1] at h
        | ok cs' =>
          simp only [zipM, e0, e1, Except.ok.injEq] at h
          subst h
          obtain ⟨h1, h2⟩ := ih (by simpa using hl) e1
          refine ⟨by simp [h1], fun k => ?_⟩
          cases k with
          | zero => exact fun _ _ _ => e0
          | succ k => exact fun g1 g2 g3 => h2 k (by simpa using g1) (by simpa using g2) (by simpa using g3)

theorem Arr.Same.symm {α : Type*} {x y : Arr α} (h : Arr.Same x y) : Arr.Same y x := ⟨h.1.symm, fun c hc => (h.2 c (h.1 ▸ hc)).symm⟩

theorem IsJoin.congr {α : Type*} {a : ℕ} {ps qs : List (Arr α)} {w : Arr α} (hpq : List.Forall₂ Arr.Same ps qs) (h : IsJoin a qs w) : IsJoin a ps w := by
  have hsz : ∀ {ps qs : List (Arr α)}, List.Forall₂ Arr.Same ps qs → ps.map (fun p => p.size a) = qs.map fun p => p.size a := by
    intro ps qs hpq
    induction hpq with
    | nil => rfl
    | cons h1 h2 ih => rw [List.map_cons, List.map_cons, ih, Arr.size, Arr.size, h1.1]
  have hl := hpq.length_eq
  have hk : ∀ k (h1 : k < ps.length) (h2 : k < qs.length), Arr.Same ps[k] qs[k] := fun k h1 h2 => List.Forall₂.get hpq h1 h2
  refine ⟨h.axis, by rw [hsz hpq]; exact h.length, fun p hp => ?_, fun k h1 c hc => ?_⟩
  · obtain ⟨k, h1, rfl⟩ := List.getElem_of_mem hp
    have := h.shape qs[k] (List.getElem_mem (by omega))
    rw [Arr.size, (hk k h1 (by omega)).1]; exact this
  · have hs := hk k h1 (by omega)
    have e := h.entry k (by omega) c (hs.1 ▸ hc)
    rw [hs.2 c hc, ← e, joinOffset, joinOffset, List.map_take, List.map_take, hsz hpq]

/-- A log-probability that depends only on the entries of its argument. -/
def Respects {α β : Type} (lp : Arr α → Except Err (Arr β)) : Prop := ∀ x y, Arr.Same x y →
  (∀ e, lp x = .error e → lp y = .error e) ∧ ∀ r, lp x = .ok r → ∃ r', lp y = .ok r' ∧ Arr.Same r r'

theorem respects_map {α β : Type} (f : α → β) : Respects fun x : Arr α => .ok (x.map f) := by
  refine fun x y h => ⟨fun e he => (nomatch he), fun r hr => ⟨_, rfl, ?_⟩⟩
  cases hr
  exact ⟨h.1, fun c hc => congrArg f (h.2 c hc)⟩

theorem zipM_error {α β γ : Type} {f : α → β → Except Err γ} {as : List α} {bs : List β} {k : ℕ} {e : Err} (hk : k < as.length) (hk' : k < bs.length)
    (hpre : ∀ j (_ : j < k), ∃ c, f as[j] bs[j] = .ok c) (h : f as[k] bs[k] = .error e) : zipM f as bs = .error e := by
  induction k generalizing as bs with
  | zero =>
    match as, bs, hk, hk' with
    | a :: as, b :: bs, hk, hk' =>
      have e0 : f a b = .error e := h
      simp [zipM, e0]
  | succ k ih =>
    match as, bs, hk, hk' with
    | a :: as, b :: bs, hk, hk' =>
      obtain ⟨c, e0⟩ : ∃ c, f a b = .ok c := hpre 0 (by omega)
      have e1 : zipM f as bs = .error e := ih (by simpa using hk) (by simpa using hk') (fun j hj => hpre (j + 1) (by omega)) h
      simp [zipM, e0, e1]

/-- A joined variable: the log-probability of a base variable and its piece of the value. -/
structure Joined (α β : Type) where
  lp : Arr α → Except Err (Arr β)
  piece : Arr α

/-- The base variables as seen by the code: the length along the axis and the log-probability. -/
def Joined.base {α β : Type} (a : ℕ) (t : Joined α β) : ℕ × (Arr α → Except Err (Arr β)) := (t.piece.size a, t.lp)

/-- Splitting a joined value gives the pieces back. -/
theorem split_join {α β : Type} {a : ℕ} {ts : List (Joined α β)} {v : Arr α} (hj : IsJoin a (ts.map Joined.piece) v) :
    ∃ vs, v.split a ((ts.map (Joined.base a)).map Prod.fst) = .ok vs ∧ vs.length = ts.length ∧
      ∀ k (h1 : k < vs.length) (h2 : k < ts.length), Arr.Same vs[k] ts[k].piece := by
  have hsz : (ts.map (Joined.base a)).map Prod.fst = (ts.map Joined.piece).map fun p => p.size a := by simp [Joined.base]
  refine ⟨_, by rw [Arr.split, if_pos (by rw [hsz]; exact hj.length)], ?_, ?_⟩
  · rw [splitFrom_map]; simp
  · intro k h1 h2
    have hp := hj.shape ts[k].piece (List.mem_map.2 ⟨_, List.getElem_mem h2, rfl⟩)
    simp only [splitFrom_map, List.getElem_mapIdx]
    constructor
    · simp only [Joined.base, List.getElem_map]; exact hp.symm
    · intro c hc
      have := hj.entry k (by simpa using h2) c (by
        simp only [List.getElem_map]
        simp only [Joined.base, List.getElem_map] at hc
        rw [hp]; exact hc)
      simp only [List.getElem_map] at this
      rw [← this]
      simp only [joinOffset, hsz, List.map_take, Nat.zero_add]

/-- **C67** (joins) For any number of base variables, pieces of any lengths along the axis, and any rank: the derived log-probability at the
joined value is the log-probabilities of the variables at their pieces, joined along the same axis.  `nb` is the number of batch
dimensions.  Missing: batched multivariate variables with more than one batch dimension, or with a negative axis, for which the code
takes the wrong axis (`C67_batched_axis_wrong`, `C67_negative_axis_raises`). -/
theorem C67_join_partial {α β : Type} {axis : ℤ} {a : ℕ} {ts : List (Joined α β)} (hne : ts ≠ []) {v : Arr α} (hax : AxisIs axis v.ndim a)
    (hj : IsJoin a (ts.map Joined.piece) v) (hsame : ∀ t ∈ ts, Respects t.lp) {rs : List (Arr β)} {nb : ℕ}
    (hrl : rs.length = ts.length) (hr : ∀ k (h : k < ts.length) (h' : k < rs.length), ts[k].lp ts[k].piece = .ok rs[k] ∧
      rs[k].shape = ts[k].piece.shape.take nb) (ha : a < nb) (hnb : nb = v.ndim ∨ nb = 1 ∧ v.ndim = 2 ∧ 0 ≤ axis) :
    ∃ out, joinLogprob axis (ts.map (Joined.base a)) v = .ok out ∧ IsJoin a rs out ∧ out.ndim = nb := by
  replace hax := normAxis_iff.2 hax
  obtain ⟨vs, hvs, hvl, hvk⟩ := split_join hj
  have hav := normAxis_lt hax
  have hnbv : nb ≤ v.ndim := by omega
  have hshape : ∀ r ∈ rs, r.shape = (v.shape.take nb).set a (r.size a) := by
    intro r hr'
    obtain ⟨k, hk, rfl⟩ := List.getElem_of_mem hr'
    obtain ⟨-, h2⟩ := hr k (by omega) hk
    have hp := hj.shape ts[k].piece (List.mem_map.2 ⟨_, List.getElem_mem (by omega), rfl⟩)
    have e : rs[k].shape = (v.shape.take nb).set a (ts[k].piece.size a) := by rw [h2, hp, List.take_set]
    rw [size_of_shape (by rw [List.length_take]; exact lt_min ha (by exact hav)) e, e]
  have hlen : (v.shape.take nb).length = nb := by rw [List.length_take]; exact min_eq_left hnbv
  have hnd : ∀ r ∈ rs, r.ndim = nb := by
    intro r hr'
    rw [Arr.ndim, hshape r hr', List.length_set, hlen]
  obtain ⟨rs', hz, hrr⟩ : ∃ rs', zipM (fun b s => b.2 s) (ts.map (Joined.base a)) vs = .ok rs' ∧ List.Forall₂ Arr.Same rs rs' := by
    refine zipM_rel (by simp [hrl]) (by omega) fun k hk => ?_
    simp only [List.getElem_map, Joined.base]
    exact (hsame _ (List.getElem_mem (by omega)) _ _ (hvk k (by omega) (by omega)).symm).2 _ (hr k (by omega) hk).1
  have hshape' : ∀ r ∈ rs', r.shape = (v.shape.take nb).set a (r.size a) := by
    intro r hr'
    obtain ⟨k, hk, rfl⟩ := List.getElem_of_mem hr'
    have hl := hrr.length_eq
    have hs : Arr.Same rs[k] rs'[k] := List.Forall₂.get hrr (by omega) hk
    have := hshape rs[k] (List.getElem_mem (by omega))
    rw [Arr.size, ← hs.1]; exact this
  suffices ∃ out, joinLogprob axis (ts.map (Joined.base a)) v = .ok out ∧ IsJoin a rs' out ∧ out.ndim = nb by
    obtain ⟨out, h1, h2, h3⟩ := this
    exact ⟨out, h1, h2.congr hrr, h3⟩
  have hrl' : rs'.length = ts.length := by rw [← hrl]; exact hrr.length_eq.symm
  clear hr hshape hnd hrl hrr
  clear rs
  rename' rs' => rs, hshape' => hshape, hrl' => hrl
  have hnd : ∀ r ∈ rs, r.ndim = nb := by
    intro r hr'
    rw [Arr.ndim, hshape r hr', List.length_set, hlen]
  have hat : rs.map Arr.atleast1d = rs := by
    conv_rhs => rw [← List.map_id rs]
    refine List.map_congr_left fun r hr' => ?_
    have := hnd r hr'
    rw [Arr.atleast1d, if_neg]
    · rfl
    · intro h
      rw [Arr.ndim, h] at this
      simp at this; omega
  have hrne : rs ≠ [] := by
    rintro rfl
    exact hne (List.length_eq_zero_iff.1 hrl.symm)
  have hax' : normAxis (axis - ((v.ndim : ℤ) - nb)) (v.shape.take nb).length = .ok a := by
    rw [hlen]
    rcases hnb with h | ⟨h1, h2, h3⟩
    · rw [h, sub_self, sub_zero]; exact hax
    · unfold normAxis at hax ⊢
      split_ifs at hax with h4 h5
      · cases hax
        rw [h2, h1, if_neg (by omega), if_pos (by omega)]
        congr 1
        omega
      · omega
  obtain ⟨out, ho1, ho2, ho3⟩ := concatenate_isJoin hax' hrne hshape
  refine ⟨out, ?_, ho2, by rw [ho3, hlen]⟩
  obtain _ | ⟨r, rs⟩ := rs
  · exact absurd rfl hrne
  have hall : (rs.all fun l => decide (l.ndim = nb)) = true := by
    rw [List.all_eq_true]
    intro b hb
    simp only [decide_eq_true_eq]
    exact hnd b (by simp [hb])
  simp only [joinLogprob, hax, hvs, hz, hall, if_true, hat, hnd r (by simp), ho1]

/-- **C67** (joins) The derived log-probability raises what the first raising base variable raises. -/
theorem C67_join_raises {α β : Type} {axis : ℤ} {a : ℕ} {ts : List (Joined α β)} {v : Arr α} (hax : AxisIs axis v.ndim a)
    (hj : IsJoin a (ts.map Joined.piece) v) (hsame : ∀ t ∈ ts, Respects t.lp) {k : ℕ} {e : Err} (hk : k < ts.length)
    (hpre : ∀ j (_ : j < k), ∃ c, ts[j].lp ts[j].piece = .ok c) (h : ts[k].lp ts[k].piece = .error e) :
    joinLogprob axis (ts.map (Joined.base a)) v = .error e := by
  replace hax := normAxis_iff.2 hax
  obtain ⟨vs, hvs, hvl, hvk⟩ := split_join hj
  have hz : zipM (fun b s => b.2 s) (ts.map (Joined.base a)) vs = .error e := by
    refine zipM_error (k := k) (by simpa using hk) (by omega) (fun j hj => ?_) ?_
    · obtain ⟨c, hc⟩ := hpre j hj
      simp only [List.getElem_map, Joined.base]
      obtain ⟨c', hc', -⟩ := (hsame _ (List.getElem_mem (by omega)) _ _ (hvk j (by omega) (by omega)).symm).2 c hc
      exact ⟨c', hc'⟩
    · simp only [List.getElem_map, Joined.base]
      exact (hsame _ (List.getElem_mem hk) _ _ (hvk k (by omega) hk).symm).1 e h
  simp only [joinLogprob, hax, hvs, hz]

/-- **C67** (joins) Base variables whose log-probabilities have different numbers of dimensions (different support dimensions) are rejected with a `ValueError`, wherever
they stand. -/
theorem C67_join_supports_differ {α β : Type} {axis : ℤ} {a : ℕ} {ts : List (Joined α β)} {v : Arr α} (hax : AxisIs axis v.ndim a)
    (hj : IsJoin a (ts.map Joined.piece) v) (hsame : ∀ t ∈ ts, Respects t.lp) {rs : List (Arr β)}
    (hrl : rs.length = ts.length) (hr : ∀ k (h : k < ts.length) (h' : k < rs.length), ts[k].lp ts[k].piece = .ok rs[k])
    {r r' : Arr β} (h1 : r ∈ rs) (h2 : r' ∈ rs) (h12 : r.ndim ≠ r'.ndim) :
    joinLogprob axis (ts.map (Joined.base a)) v = .error .valueError := by
  replace hax := normAxis_iff.2 hax
  obtain ⟨vs, hvs, hvl, hvk⟩ := split_join hj
  obtain ⟨rs', hz, hrr⟩ : ∃ rs', zipM (fun b s => b.2 s) (ts.map (Joined.base a)) vs = .ok rs' ∧ List.Forall₂ Arr.Same rs rs' := by
    refine zipM_rel (by simp [hrl]) (by omega) fun k hk => ?_
    simp only [List.getElem_map, Joined.base]
    exact (hsame _ (List.getElem_mem (by omega)) _ _ (hvk k (by omega) (by omega)).symm).2 _ (hr k (by omega) hk)
  have key : ∀ r ∈ rs, ∃ q ∈ rs', q.ndim = r.ndim := by
    intro r hr'
    obtain ⟨k, hk, rfl⟩ := List.getElem_of_mem hr'
    have hl := hrr.length_eq
    have hs : Arr.Same rs[k] rs'[k] := List.Forall₂.get hrr hk (by omega)
    exact ⟨rs'[k], List.getElem_mem _, by rw [Arr.ndim, Arr.ndim, hs.1]⟩
  obtain ⟨q, hq, e1⟩ := key r h1
  obtain ⟨q', hq', e2⟩ := key r' h2
  obtain _ | ⟨l, ls⟩ := rs'
  · simp at hq
  have hall : ¬ (ls.all fun x => decide (x.ndim = l.ndim)) = true := by
    intro hall
    have h3 : ∀ x ∈ l :: ls, x.ndim = l.ndim := by
      intro x hx
      rcases List.mem_cons.1 hx with rfl | hx
      · rfl
      · simpa using List.all_eq_true.1 hall x hx
    exact h12 (by rw [← e1, ← e2, h3 q hq, h3 q' hq'])
  simp only [joinLogprob, hax, hvs, hz, hall]
  rfl

/-- **C67** (joins of vector variables along their only axis) A scalar log-probability per variable: the result is the vector of them. -/
theorem C67_join_vectors {α β : Type} {ts : List (Joined α β)} (hne : ts ≠ []) {v : Arr α} (hv : v.ndim = 1)
    (hj : IsJoin 0 (ts.map Joined.piece) v) (hsame : ∀ t ∈ ts, Respects t.lp) {rs : List (Arr β)}
    (hrl : rs.length = ts.length) (hr : ∀ k (h : k < ts.length) (h' : k < rs.length), ts[k].lp ts[k].piece = .ok rs[k] ∧ rs[k].shape = []) :
    ∃ out, joinLogprob 0 (ts.map (Joined.base 0)) v = .ok out ∧ out.shape = [ts.length] ∧
      ∀ k (h : k < rs.length), out.get [k] = rs[k].get [] := by
  obtain ⟨vs, hvs, hvl, hvk⟩ := split_join hj
  have hax : normAxis 0 v.ndim = .ok 0 := by rw [hv]; rfl
  obtain ⟨rs', hz, hrr⟩ : ∃ rs', zipM (fun b s => b.2 s) (ts.map (Joined.base 0)) vs = .ok rs' ∧ List.Forall₂ Arr.Same rs rs' := by
    refine zipM_rel (by simp [hrl]) (by omega) fun k hk => ?_
    simp only [List.getElem_map, Joined.base]
    exact (hsame _ (List.getElem_mem (by omega)) _ _ (hvk k (by omega) (by omega)).symm).2 _ (hr k (by omega) hk).1
  have hrl' : rs'.length = ts.length := by rw [← hrl]; exact hrr.length_eq.symm
  have hsh' : ∀ r ∈ rs', r.shape = [] := by
    intro r hr'
    obtain ⟨k, hk, rfl⟩ := List.getElem_of_mem hr'
    have hs : Arr.Same rs[k] rs'[k] := List.Forall₂.get hrr (by omega) hk
    rw [← hs.1]; exact (hr k (by omega) (by omega)).2
  suffices ∃ out, joinLogprob 0 (ts.map (Joined.base 0)) v = .ok out ∧ out.shape = [ts.length] ∧
      ∀ k (h : k < rs'.length), out.get [k] = rs'[k].get [] by
    obtain ⟨out, h1, h2, h3⟩ := this
    refine ⟨out, h1, h2, fun k hk => ?_⟩
    have hs : Arr.Same rs[k] rs'[k] := List.Forall₂.get hrr hk (by omega)
    rw [h3 k (by omega), hs.2 [] (by rw [(hr k (by omega) hk).2]; exact .nil)]
  clear hr hrl hrr
  clear rs
  rename' rs' => rs, hsh' => hsh, hrl' => hrl
  have hrne : rs ≠ [] := by
    rintro rfl
    exact hne (List.length_eq_zero_iff.1 hrl.symm)
  have hat : ∀ r ∈ rs, Arr.atleast1d r = ⟨[1], fun _ => r.get []⟩ := fun r hr' => by rw [Arr.atleast1d, if_pos (hsh r hr')]
  have hat1 : ∀ r ∈ rs.map Arr.atleast1d, r.shape = [1] := by
    intro r hr'
    obtain ⟨r', h1, rfl⟩ := List.mem_map.1 hr'
    rw [hat r' h1]
  have hsz : ∀ r ∈ rs.map Arr.atleast1d, r.size 0 = 1 := fun r hr' => by rw [Arr.size, hat1 r hr']; rfl
  obtain ⟨out, ho1, ho2, ho3⟩ := concatenate_isJoin (axis := -1) (S := [1]) (a := 0) rfl (rs := rs.map Arr.atleast1d) (by simpa using hrne)
    (fun r hr' => by rw [hat1 r hr', hsz r hr']; rfl)
  have hsum : ∀ l : List (Arr β), (∀ r ∈ l, r.size 0 = 1) → (l.map fun p => p.size 0).sum = l.length := by
    intro l hl
    induction l with
    | nil => rfl
    | cons r l ih =>
      rw [List.map_cons, List.sum_cons, hl r (by simp), ih fun r hr => hl r (by simp [hr]), List.length_cons, Nat.add_comm]
  refine ⟨out, ?_, ?_, fun k hk => ?_⟩
  · obtain _ | ⟨r, rs⟩ := rs
    · exact absurd rfl hrne
    have hall : (rs.all fun l => decide (l.ndim = r.ndim)) = true := by
      rw [List.all_eq_true]
      intro b hb
      simp only [decide_eq_true_eq]
      rw [Arr.ndim, Arr.ndim, hsh b (by simp [hb]), hsh r (by simp)]
    have hr0 : r.ndim = 0 := by rw [Arr.ndim, hsh r (by simp)]; rfl
    simp only [joinLogprob, hax, hvs, hz, hall, if_true]
    rw [hv, hr0]
    exact ho1
  · have h1 := ho2.length
    rw [hsum _ hsz, List.length_map, hrl] at h1
    have h2 : out.shape.length = 1 := ho3
    obtain ⟨n, hn⟩ := List.length_eq_one_iff.1 h2
    rw [Arr.size, hn] at h1
    rw [hn, h1]; rfl
  · have h1 := ho2.entry k (by simpa using hk) [0] (by rw [hat1 _ (List.getElem_mem _)]; exact .cons (by decide) .nil)
    have h2 : joinOffset 0 (rs.map Arr.atleast1d) k = k := by
      rw [joinOffset, hsum _ fun r hr => hsz r (List.mem_of_mem_take hr), List.length_take]
      simp; omega
    rw [h2] at h1
    simp only [List.getElem_map, hat _ (List.getElem_mem hk)] at h1
    exact h1

theorem zip_two {α β : Type} {t u : Joined α β} {vs : List (Arr α)} (hsame : Respects t.lp) (hsame' : Respects u.lp) {r s : Arr β}
    (hr : t.lp t.piece = .ok r) (hs : u.lp u.piece = .ok s) (hvl : vs.length = [t, u].length)
    (hvk : ∀ k (_ : k < vs.length) (_ : k < [t, u].length), Arr.Same vs[k] [t, u][k].piece) :
    ∃ r' s', zipM (fun b s => b.2 s) [t.base 0, u.base 0] vs = .ok [r', s'] ∧ Arr.Same r r' ∧ Arr.Same s s' := by
  obtain ⟨cs, hz, hR⟩ : ∃ cs, zipM (fun b s => b.2 s) [t.base 0, u.base 0] vs = .ok cs ∧ List.Forall₂ Arr.Same [r, s] cs := by
    refine zipM_rel rfl hvl fun k hk => ?_
    match k, hk with
    | 0, _ => exact (hsame _ _ (hvk 0 (by rw [hvl]; simp) (by simp)).symm).2 r hr
    | 1, _ => exact (hsame' _ _ (hvk 1 (by rw [hvl]; simp) (by simp)).symm).2 s hs
  cases hR with
  | cons h1 h => cases h with
    | cons h2 h => cases h; exact ⟨_, _, hz, h1, h2⟩

/-- **C67** (refuted part) Two multivariate variables with two batch dimensions, joined along the first: whatever their log-probabilities
are, the result has the wrong shape (the log-probabilities are joined along the second batch dimension). -/
theorem C67_batched_axis_wrong {α β : Type} {b₁ b₂ k : ℕ} (hb : b₁ ≠ 0) {t u : Joined α β} {v : Arr α} (ht : t.piece.shape = [b₁, b₂, k])
    (hu : u.piece.shape = [b₁, b₂, k]) (hj : IsJoin 0 [t.piece, u.piece] v) (hsame : Respects t.lp)
    (hsame' : Respects u.lp) {r s : Arr β} (hr : t.lp t.piece = .ok r) (hs : u.lp u.piece = .ok s)
    (hrs : r.shape = [b₁, b₂]) (hss : s.shape = [b₁, b₂]) :
    ∃ out, joinLogprob 0 [t.base 0, u.base 0] v = .ok out ∧ out.shape = [b₁, b₂ + b₂] ∧ ¬ IsJoin 0 [r, s] out := by
  have hvs : v.shape = [b₁ + b₁, b₂, k] := by
    have h1 := hj.shape t.piece (by simp)
    have h2 := hj.length
    have h3 := hj.axis
    simp only [Arr.size, ht, hu, List.map_cons, List.map_nil, List.sum_cons, List.sum_nil, List.getD_cons_zero, Nat.add_zero] at h1 h2
    match hv : v.shape with
    | [] => rw [hv] at h1; simp at h1
    | n :: l =>
      rw [hv] at h1 h2
      simp only [List.set_cons_zero, List.cons.injEq, true_and] at h1
      simp only [List.getD_cons_zero] at h2
      rw [← h1, ← h2]
  have hvn : v.ndim = 3 := by rw [Arr.ndim, hvs]; rfl
  obtain ⟨vs, hsp, hvl, hvk⟩ := split_join (ts := [t, u]) hj
  obtain ⟨r', s', hz, hrr, hss'⟩ := zip_two hsame hsame' hr hs hvl hvk
  have hrs' : r'.shape = [b₁, b₂] := hrr.1 ▸ hrs
  have hss' : s'.shape = [b₁, b₂] := hss'.1 ▸ hss
  have hrn : r'.ndim = 2 := by rw [Arr.ndim, hrs']; rfl
  have hsn : s'.ndim = 2 := by rw [Arr.ndim, hss']; rfl
  obtain ⟨out, ho1, ho2, ho3⟩ := concatenate_isJoin (axis := -1) (S := [b₁, b₂]) (a := 1) rfl (rs := [r', s']) (by simp) (by
    intro x hx
    simp only [List.mem_cons, List.not_mem_nil, or_false] at hx
    rcases hx with rfl | rfl
    · simp [Arr.size, hrs']
    · simp [Arr.size, hss'])
  have hos : out.shape = [b₁, b₂ + b₂] := by
    have h1 := ho2.shape r' (by simp)
    have h2 := ho2.length
    simp only [Arr.size, hrs', hss', List.map_cons, List.map_nil, List.sum_cons, List.sum_nil, List.getD_cons_zero, List.getD_cons_succ, Nat.add_zero] at h1 h2
    match hv : out.shape with
    | [] => rw [hv] at h1; simp at h1
    | [_] => rw [hv] at h1; simp at h1
    | n :: m :: l =>
      rw [hv] at h1 h2
      simp only [List.set_cons_zero, List.set_cons_succ, List.cons.injEq, true_and] at h1
      simp only [List.getD_cons_zero, List.getD_cons_succ] at h2
      rw [← h1.1, ← h1.2, ← h2]
  refine ⟨out, ?_, hos, fun h => ?_⟩
  · have hax : normAxis 0 v.ndim = .ok 0 := by rw [hvn]; rfl
    have hat : ∀ x : Arr β, x.ndim = 2 → Arr.atleast1d x = x := fun x hx => by
      rw [Arr.atleast1d, if_neg]; intro h; rw [Arr.ndim, h] at hx; cases hx
    have hsp' : Arr.split 0 ([t.base 0, u.base 0].map Prod.fst) v = .ok vs := hsp
    simp only [joinLogprob, hax, hsp', hz]
    simp only [List.all_cons, List.all_nil, hrn, hsn, decide_true, Bool.and_true, if_true, List.map_cons, List.map_nil,
      hat r' hrn, hat s' hsn, hvn]
    exact ho1
  · have h2 := h.length
    simp only [Arr.size, hrs, hss, hos, List.map_cons, List.map_nil, List.sum_cons, List.sum_nil, List.getD_cons_zero] at h2
    omega

/-- **C67** (refuted part) Batches of vectors joined along the batch dimension, given as axis `-2`: the derived log-probability raises for
every pair of variables (with axis `0` it is right by `C67_join_partial`). -/
theorem C67_negative_axis_raises {α β : Type} {t u : Joined α β} {v : Arr α} (hv : v.ndim = 2) (hj : IsJoin 0 [t.piece, u.piece] v)
    (hsame : Respects t.lp) (hsame' : Respects u.lp) {r s : Arr β}
    (hr : t.lp t.piece = .ok r) (hs : u.lp u.piece = .ok s) (hrn : r.ndim = 1) (hsn : s.ndim = 1) :
    joinLogprob (-2) [t.base 0, u.base 0] v = .error .valueError := by
  obtain ⟨vs, hsp, hvl, hvk⟩ := split_join (ts := [t, u]) hj
  obtain ⟨r', s', hz, hrr, hss'⟩ := zip_two hsame hsame' hr hs hvl hvk
  have hrn : r'.ndim = 1 := by rw [Arr.ndim, ← hrr.1]; exact hrn
  have hsn : s'.ndim = 1 := by rw [Arr.ndim, ← hss'.1]; exact hsn
  have hax : normAxis (-2) v.ndim = .ok 0 := by rw [hv]; rfl
  have hsp' : Arr.split 0 ([t.base 0, u.base 0].map Prod.fst) v = .ok vs := hsp
  have hat : ∀ x : Arr β, x.ndim = 1 → Arr.atleast1d x = x := fun x hx => by
    rw [Arr.atleast1d, if_neg]; intro h; rw [Arr.ndim, h] at hx; cases hx
  simp only [joinLogprob, hax, hsp', hz]
  simp only [List.all_cons, List.all_nil, hrn, hsn, decide_true, Bool.and_true, if_true, List.map_cons, List.map_nil,
    hat r' hrn, hat s' hsn, hv, Arr.concatenate]
  rfl

/-! Two `2 × 1` and `2 × 3` arrays joined along the last axis. -/

namespace JoinDemo

def left : Arr ℕ := ⟨[2, 1], fun c => c.getD 0 0 * 10 + c.getD 1 0⟩
def right : Arr ℕ := ⟨[2, 3], fun c => c.getD 0 0 * 10 + c.getD 1 0 + 1⟩
def whole : Arr ℕ := ⟨[2, 4], fun c => c.getD 0 0 * 10 + c.getD 1 0⟩
theorem inRange2 {c : List ℕ} {m n : ℕ} (h : InRange c [m, n]) : ∃ i j, c = [i, j] ∧ i < m ∧ j < n := by
  cases h with
  | cons h1 h => cases h with
    | cons h2 h => cases h; exact ⟨_, _, rfl, h1, h2⟩

theorem isJoin : IsJoin 1 [left, right] whole := by
  refine ⟨by decide, by decide, by decide, fun k hk c hc => ?_⟩
  match k, hk with
  | 0, _ =>
    obtain ⟨i, j, rfl, -, -⟩ := inRange2 hc
    simp [joinOffset, left, right, whole]
  | 1, _ =>
    obtain ⟨i, j, rfl, -, -⟩ := inRange2 hc
    simp [joinOffset, left, right, whole, Arr.size]; omega

end JoinDemo

open JoinDemo in
example (f g : ℕ → ℕ) : ∃ out, joinLogprob (-1) [(1, fun x => Except.ok (x.map f)), (3, fun x => Except.ok (x.map g))] whole = .ok out ∧
    IsJoin 1 [left.map f, right.map g] out ∧ out.ndim = 2 := by
  refine C67_join_partial (ts := [⟨fun x => .ok (x.map f), left⟩, ⟨fun x => .ok (x.map g), right⟩]) (axis := -1) (a := 1) (by simp) (by decide) isJoin ?_
    (rs := [left.map f, right.map g]) (nb := 2) rfl ?_ (by decide) (.inl rfl)
  · intro t ht
    simp only [List.mem_cons, List.not_mem_nil, or_false] at ht
    rcases ht with rfl | rfl <;> exact respects_map _
  · intro k h h'
    match k, h with
    | 0, _ => exact ⟨rfl, rfl⟩
    | 1, _ => exact ⟨rfl, rfl⟩

open JoinDemo in
example (f : ℕ → ℕ) : joinLogprob (-1) [(1, fun x => Except.ok (x.map f)), (3, fun _ => .error .parameterValue)] whole = .error .parameterValue := by
  refine C67_join_raises (ts := [⟨fun x => .ok (x.map f), left⟩, ⟨fun _ => .error .parameterValue, right⟩]) (axis := -1) (a := 1) (by decide) isJoin ?_
    (k := 1) (by simp) (fun j hj => ?_) rfl
  · intro t ht
    simp only [List.mem_cons, List.not_mem_nil, or_false] at ht
    rcases ht with rfl | rfl
    · exact respects_map _
    · exact fun x y h => ⟨fun e he => he, fun r hr => nomatch hr⟩
  · obtain rfl : j = 0 := by omega
    exact ⟨_, rfl⟩

namespace JoinDemo

/-- Two arrays of the same shape one after the other along the first axis. -/
def piece (k : ℕ) (s : List ℕ) : Arr ℕ := ⟨2 :: s, fun c => c.getD 0 0 + 2 * k⟩
def both (s : List ℕ) : Arr ℕ := ⟨4 :: s, fun c => c.getD 0 0⟩

theorem both_isJoin (s : List ℕ) : IsJoin 0 [piece 0 s, piece 1 s] (both s) := by
  refine ⟨by simp [both, Arr.ndim], by simp [both, piece, Arr.size], ?_, fun k hk c hc => ?_⟩
  · intro p hp
    simp only [List.mem_cons, List.not_mem_nil, or_false] at hp
    rcases hp with rfl | rfl <;> simp [both, piece, Arr.size]
  · have hk' : k = 0 ∨ k = 1 := by simp at hk; omega
    rcases hk' with rfl | rfl
    · cases hc with
      | cons h1 h2 => simp [joinOffset, both, piece]
    · cases hc with
      | cons h1 h2 => simp [joinOffset, both, piece, Arr.size]; omega

/-- A log-probability with one support dimension. -/
def batch (k : ℕ) (x : Arr ℕ) : Except Err (Arr ℕ) := .ok ⟨x.shape.dropLast, fun c => c.getD 0 0 + k⟩

theorem respects_batch (k : ℕ) : Respects (batch k) := by
  refine fun x y h => ⟨fun e he => (nomatch he), fun r hr => ⟨_, rfl, ?_⟩⟩
  cases hr
  exact ⟨by simp [h.1], fun c hc => rfl⟩

end JoinDemo

open JoinDemo in
example : ∃ out, joinLogprob 0 [(2, batch 7), (2, batch 9)] (both []) = .ok out ∧ out.shape = [2] ∧ ∀ k (h : k < 2),
    out.get [k] = ([⟨[], fun c => c.getD 0 0 + 7⟩, ⟨[], fun c => c.getD 0 0 + 9⟩] : List (Arr ℕ))[k].get [] := by
  refine C67_join_vectors (ts := [⟨batch 7, piece 0 []⟩, ⟨batch 9, piece 1 []⟩]) (by simp) rfl (both_isJoin []) ?_
    (rs := [⟨[], fun c => c.getD 0 0 + 7⟩, ⟨[], fun c => c.getD 0 0 + 9⟩]) rfl ?_
  · intro t ht
    simp only [List.mem_cons, List.not_mem_nil, or_false] at ht
    rcases ht with rfl | rfl <;> exact respects_batch _
  · intro k h h'
    match k, h with
    | 0, _ => exact ⟨rfl, rfl⟩
    | 1, _ => exact ⟨rfl, rfl⟩

open JoinDemo in
example : ∃ out, joinLogprob 0 [(2, batch 7), (2, batch 9)] (both [3, 5]) = .ok out ∧ out.shape = [2, 6] ∧
    ¬ IsJoin 0 [⟨[2, 3], fun c => c.getD 0 0 + 7⟩, ⟨[2, 3], fun c => c.getD 0 0 + 9⟩] out :=
  C67_batched_axis_wrong (t := ⟨batch 7, piece 0 [3, 5]⟩) (u := ⟨batch 9, piece 1 [3, 5]⟩) (by decide) rfl rfl (both_isJoin _)
    (respects_batch _) (respects_batch _) rfl rfl rfl rfl

open JoinDemo in
example : joinLogprob (-2) [(2, batch 7), (2, batch 9)] (both [5]) = .error .valueError :=
  C67_negative_axis_raises (t := ⟨batch 7, piece 0 [5]⟩) (u := ⟨batch 9, piece 1 [5]⟩) rfl (both_isJoin _)
    (respects_batch _) (respects_batch _) rfl rfl rfl rfl

open JoinDemo in
/-- A vector variable with two batch entries and a vector of two scalar variables. -/
example : joinLogprob 0 [(2, batch 7), (2, fun x => .ok (x.map fun y => y + 1))] (both []) = .error .valueError := by
  refine C67_join_supports_differ (axis := 0) (ts := [⟨batch 7, piece 0 []⟩, ⟨fun x => .ok (x.map fun y => y + 1), piece 1 []⟩]) (by decide) (both_isJoin []) ?_
    (rs := [⟨[], fun c => c.getD 0 0 + 7⟩, (piece 1 []).map fun y => y + 1]) rfl ?_
    (r := ⟨[], fun c => c.getD 0 0 + 7⟩) (r' := (piece 1 []).map fun y => y + 1) (by simp) (by simp) (by decide)
  · intro t ht
    simp only [List.mem_cons, List.not_mem_nil, or_false] at ht
    rcases ht with rfl | rfl
    · exact respects_batch _
    · exact respects_map _
  · intro k h h'
    match k, h with
    | 0, _ => rfl
    | 1, _ => rfl

/-- **C67** (stacks of scalars) The derived log-probability of a vector of scalar variables, at a value of the same length: entry by entry
the log-probability of the variable at its entry; otherwise it raises what the first raising variable raises. -/
theorem C67_stack {α β : Type} (lps : List (α → Except Err β)) (value : List α) (hl : value.length = lps.length) :
    (∀ out, makeVectorLogprob 0 value lps = .ok out ↔ out.length = lps.length ∧ ∀ k (h1 : k < lps.length) (h2 : k < value.length)
      (h3 : k < out.length), lps[k] value[k] = .ok out[k]) ∧
    ∀ k e (h1 : k < lps.length) (h2 : k < value.length), lps[k] value[k] = .error e →
      (∀ j (_ : j < k), ∃ x, lps[j] value[j] = .ok x) → makeVectorLogprob 0 value lps = .error e := by
  have key : ∀ (lps : List (α → Except Err β)) (pre vs : List α), vs.length = lps.length →
      makeVectorLogprob pre.length (pre ++ vs) lps = zipM (fun lp v => lp v) lps vs := by
    intro lps
    induction lps with
    | nil => intro pre vs h; rfl
    | cons lp lps ih =>
      intro pre vs h
      match vs, h with
      | v :: vs, h =>
        have e := ih (pre ++ [v]) vs (by simpa using h)
        simp only [List.length_append, List.length_singleton, List.append_assoc, List.cons_append, List.nil_append] at e
        simp only [makeVectorLogprob, zipM, List.getElem?_append_right le_rfl, Nat.sub_self, List.getElem?_cons_zero, e]
  have e := key lps [] value hl
  simp only [List.length_nil, List.nil_append] at e
  rw [e]
  have herr : ∀ k e (h1 : k < lps.length) (h2 : k < value.length), lps[k] value[k] = .error e →
      (∀ j (_ : j < k), ∃ x, lps[j] value[j] = .ok x) → zipM (fun lp v => lp v) lps value = .error e :=
    fun k e h1 h2 h hp => zipM_error (f := fun (lp : α → Except Err β) (v : α) => lp v) h1 h2 hp h
  refine ⟨fun out => ⟨fun h => ?_, fun ⟨h1, h2⟩ => ?_⟩, herr⟩
  · exact zipM_ok_inv hl h
  · exact zipM_ok h1.symm (hl.trans h1.symm) fun k hk => h2 k (by omega) (by omega) hk

example (v w : FVal) : makeVectorLogprob 0 [v, w] [fun v => normalLogprob v (fin 0) (fin 1), fun v => normalLogprob v (fin 0) (fin (-1))] =
    .error .parameterValue := by
  have h : ∀ v : FVal, ∃ x, normalLogprob v (fin 0) (fin 1) = .ok x := fun v => by
    simp only [normalLogprob]
    rw [checkParam_ok]
    · exact ⟨_, rfl⟩
    · simp [FVal.gt]
  have h' : ∀ v : FVal, normalLogprob v (fin 0) (fin (-1)) = .error .parameterValue := fun v => by
    simp only [normalLogprob]
    rw [checkParam_err]
    simp [FVal.gt]
  refine (C67_stack [fun v => normalLogprob v (fin 0) (fin 1), fun v => normalLogprob v (fin 0) (fin (-1))] [v, w] rfl).2 1 _ (by simp) (by simp) (h' w)
    fun j hj => ?_
  obtain rfl : j = 0 := by omega
  exact h v

/-- **C67** The rewrite: every input must be an unvalued measurable variable. -/
theorem C67_when (already : Bool) (base_vars : List StackInput) :
    findMeasurableStack already base_vars = true ↔ already = false ∧ ∀ b ∈ base_vars, b = .measurable := by
  cases already <;> simp [findMeasurableStack]

example : findMeasurableStack false [.measurable, .valued] = false := by
  rw [← Bool.not_eq_true, C67_when]; simp

end Verif
