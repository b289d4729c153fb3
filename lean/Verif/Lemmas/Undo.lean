import Verif.Spec.Undo
import Verif.Lemmas.Dict

namespace Verif.Undo
variable {α : Type}

theorem Anc.trans {h : Heap α} {u v w : ℕ} (h1 : Anc h u v) (h2 : Anc h v w) : Anc h u w := by
  induction h1 with
  | refl => exact h2
  | step e hi _ ih => exact .step e hi (ih h2)

theorem anc_leaf {h : Heap α} {v w : ℕ} (hv : h v = none) (ha : Anc h v w) : w = v := by
  cases ha with
  | refl => rfl
  | step e _ _ => rw [hv] at e; cases e

theorem has_anc {g : FGraph α} {v w : ℕ} (hv : g.Has v) (ha : Anc g.owner v w) : g.Has w := by
  obtain ⟨o, ho, h⟩ := hv
  exact ⟨o, ho, h.trans ha⟩

/-- A closed set of variables that contains the start contains all ancestors. -/
theorem anc_closed {h : Heap α} {S : ℕ → Prop} (hS : ∀ v n i, S v → h v = some n → i ∈ n.inputs → S i) {v w : ℕ}
    (ha : Anc h v w) : S v → S w := by
  induction ha with
  | refl => exact id
  | step e hi _ ih => exact fun hv => ih (hS _ _ _ hv e hi)

theorem map_swap {D : ℕ → α} {a b : ℕ} (hab : D a = D b) (l : List ℕ) : (l.map (swap a b)).map D = l.map D := by
  rw [List.map_map]
  apply List.map_congr_left
  intro i _
  simp only [Function.comp, swap]
  split_ifs with h
  · rw [h, hab]
  · rfl

theorem meaning_rewire {h : Heap α} {D : ℕ → α} (hD : Meaning h D) (S : ℕ → Prop) {a b : ℕ} (hab : D a = D b) :
    Meaning (rewire h S a b) D := by
  intro v n hn
  simp only [rewire] at hn
  split_ifs at hn with hS
  · rcases e : h v with _ | m
    · rw [e] at hn; cases hn
    · rw [e] at hn
      cases hn
      simp only [Node.subst]
      rw [map_swap hab]
      exact hD v m e
  · exact hD v n hn

theorem sameNodes_refl (D : ℕ → α) (h : Heap α) : SameNodes D h h := fun _ n hn => ⟨n, hn, rfl, rfl, rfl, rfl⟩

theorem SameNodes.trans {D : ℕ → α} {h h' h'' : Heap α} (h1 : SameNodes D h h') (h2 : SameNodes D h' h'') :
    SameNodes D h h'' := by
  intro v n hn
  obtain ⟨n', hn', k1, f1, r1, i1⟩ := h1 v n hn
  obtain ⟨n'', hn'', k2, f2, r2, i2⟩ := h2 v n' hn'
  exact ⟨n'', hn'', k2.trans k1, f2.trans f1, r2.trans r1, i2.trans i1⟩

theorem sameNodes_rewire {h : Heap α} {D : ℕ → α} (S : ℕ → Prop) {a b : ℕ} (hab : D a = D b) :
    SameNodes D h (rewire h S a b) := by
  intro v n hn
  by_cases hS : S v
  · exact ⟨n.subst a b, by simp [rewire, hS, hn], rfl, rfl, rfl, map_swap hab _⟩
  · exact ⟨n, by simp [rewire, hS, hn], rfl, rfl, rfl, rfl⟩

theorem replace_owner (g : FGraph α) (a b : ℕ) (ha : g.Has a) : (g.replace a b).owner = (g.move a b).owner := by
  simp only [FGraph.replace, ha, if_true]
  split_ifs <;> rfl

theorem replace_outputs (g : FGraph α) (a b : ℕ) (ha : g.Has a) : (g.replace a b).outputs = (g.move a b).outputs := by
  simp only [FGraph.replace, ha, if_true]
  split_ifs <;> rfl

theorem replace_absent {g : FGraph α} {a : ℕ} (b : ℕ) (ha : ¬ g.Has a) : g.replace a b = g := by
  simp [FGraph.replace, ha]

theorem replace_has (g : FGraph α) (a b : ℕ) (ha : g.Has a) (v : ℕ) : (g.replace a b).Has v ↔ (g.move a b).Has v := by
  simp only [FGraph.Has, replace_owner g a b ha, replace_outputs g a b ha]

theorem meaning_replace {g : FGraph α} {D : ℕ → α} (hD : Meaning g.owner D) {a b : ℕ} (hab : D a = D b) :
    Meaning (g.replace a b).owner D := by
  by_cases ha : g.Has a
  · rw [replace_owner g a b ha]; exact meaning_rewire hD _ hab
  · rw [replace_absent b ha]; exact hD

theorem sameNodes_replace (g : FGraph α) {D : ℕ → α} {a b : ℕ} (hab : D a = D b) :
    SameNodes D g.owner (g.replace a b).owner := by
  by_cases ha : g.Has a
  · rw [replace_owner g a b ha]; exact sameNodes_rewire _ hab
  · rw [replace_absent b ha]; exact sameNodes_refl _ _

theorem mem_set {d : Dict ℕ ℕ} {k v : ℕ} {p : ℕ × ℕ} (h : p ∈ Dict.set d k v) : p = (k, v) ∨ p ∈ d := by
  induction d with
  | nil => simpa [Dict.set] using h
  | cons q d ih =>
    obtain ⟨a, b⟩ := q
    simp only [Dict.set] at h
    split_ifs at h with e
    · rcases List.mem_cons.mp h with h | h
      · exact .inl (by rw [h, e])
      · exact .inr (List.mem_cons_of_mem _ h)
    · rcases List.mem_cons.mp h with h | h
      · exact .inr (by simp [h])
      · rcases ih h with h | h
        · exact .inl h
        · exact .inr (List.mem_cons_of_mem _ h)

theorem conversions_replace {g : FGraph α} {a b : ℕ} {p : ℕ × ℕ} (h : p ∈ (g.replace a b).conversions) :
    p = (a, b) ∨ p ∈ g.conversions := by
  simp only [FGraph.replace] at h
  split_ifs at h
  · exact mem_set h
  · exact .inr h
  · exact .inr h

/-- Where the graph reaches after a replacement: it has lost the replaced variable, and everything in it
was in it before or is an ancestor of the new variable. -/
theorem has_replace {g : FGraph α} {a b v : ℕ} (hne : b ≠ a) (hv : (g.replace a b).Has v) :
    v ≠ a ∧ (g.Has v ∨ Anc g.owner b v) := by
  by_cases ha : g.Has a
  · rw [replace_has g a b ha] at hv
    obtain ⟨o, ho, hanc⟩ := hv
    refine anc_closed (h := (g.move a b).owner) (S := fun v => v ≠ a ∧ (g.Has v ∨ Anc g.owner b v)) ?_ hanc ?_
    · rintro v n i ⟨hva, hv⟩ hn hi
      simp only [FGraph.move, rewire, hv, if_true] at hn
      rcases e : g.owner v with _ | m
      · rw [e] at hn; cases hn
      · rw [e] at hn
        cases hn
        obtain ⟨j, hj, rfl⟩ := List.mem_map.mp hi
        simp only [swap]
        split_ifs with hja
        · exact ⟨hne, .inr (.refl b)⟩
        · refine ⟨hja, ?_⟩
          rcases hv with hv | hv
          · exact .inl (has_anc hv (.step e hj (.refl j)))
          · exact .inr (hv.trans (.step e hj (.refl j)))
    · obtain ⟨o', ho', rfl⟩ := List.mem_map.mp ho
      simp only [swap]
      split_ifs with hoa
      · exact ⟨hne, .inr (.refl b)⟩
      · exact ⟨hoa, .inl ⟨o', ho', .refl o'⟩⟩
  · rw [replace_absent b ha] at hv
    exact ⟨fun e => ha (e ▸ hv), .inl hv⟩

/-- Replacing a variable leaves the ancestors of the variables that do not depend on it alone. -/
theorem anc_rewire {h : Heap α} (S : ℕ → Prop) {a b v w : ℕ} (hva : ¬ Anc h v a) (hw : Anc (rewire h S a b) v w) :
    Anc h v w := by
  induction hw with
  | refl => exact .refl _
  | step e hi _ ih =>
    rename_i v n i w _
    simp only [rewire] at e
    split_ifs at e with hS
    · rcases e' : h v with _ | m
      · rw [e'] at e; cases e
      · rw [e'] at e
        cases e
        obtain ⟨j, hj, rfl⟩ := List.mem_map.mp hi
        have hja : j ≠ a := fun hja => hva (.step e' hj (hja ▸ .refl j))
        rw [swap, if_neg hja] at ih
        exact .step e' hj (ih fun hh => hva (.step e' hj hh))
    · exact .step e hi (ih fun hh => hva (.step e hi hh))

theorem anc_replace {g : FGraph α} {a b v w : ℕ} (hva : ¬ Anc g.owner v a) (hw : Anc (g.replace a b).owner v w) :
    Anc g.owner v w := by
  by_cases ha : g.Has a
  · rw [replace_owner g a b ha] at hw; exact anc_rewire _ hva hw
  · rwa [replace_absent b ha] at hw

theorem replace_leaf {g : FGraph α} {a b v : ℕ} (hv : g.owner v = none) : (g.replace a b).owner v = none := by
  by_cases ha : g.Has a
  · rw [replace_owner g a b ha]; simp [FGraph.move, rewire, hv]
  · rwa [replace_absent b ha]

/-! ### Making nodes -/

theorem meaning_make {g : FGraph α} {D : ℕ → α} (hD : Meaning g.owner D) {v : ℕ} {n : Node α}
    (hv : D v = n.fn (n.inputs.map D)) : Meaning (g.make v n).owner D := by
  intro w m hm
  simp only [FGraph.make, Function.update_apply] at hm
  split_ifs at hm with e
  · cases hm; rw [e]; exact hv
  · exact hD w m hm

theorem sameNodes_make (D : ℕ → α) {g : FGraph α} {v : ℕ} (n : Node α) (hv : g.owner v = none) :
    SameNodes D g.owner (g.make v n).owner := by
  intro w m hm
  refine ⟨m, ?_, rfl, rfl, rfl, rfl⟩
  have : w ≠ v := by rintro rfl; rw [hv] at hm; cases hm
  simp [FGraph.make, Function.update_apply, this, hm]

theorem anc_make {g : FGraph α} {u : ℕ} {n : Node α} {v w : ℕ} (hu : ¬ Anc g.owner v u)
    (hw : Anc (g.make u n).owner v w) : Anc g.owner v w := by
  induction hw with
  | refl => exact .refl _
  | step e hi _ ih =>
    rename_i v m i w _
    have hvu : v ≠ u := by rintro rfl; exact hu (.refl _)
    simp only [FGraph.make, Function.update_apply, hvu, if_false] at e
    exact .step e hi (ih fun hh => hu (.step e hi hh))

theorem has_make {g : FGraph α} {u : ℕ} {n : Node α} {v : ℕ} (hu : ¬ g.Has u) (hv : (g.make u n).Has v) : g.Has v := by
  obtain ⟨o, ho, ha⟩ := hv
  exact ⟨o, ho, anc_make (fun hh => hu ⟨o, ho, hh⟩) ha⟩

/-! ### The three phases -/

/-- What holds after the rewrites and the transforms. -/
structure Inv (D : ℕ → α) (h0 : Heap α) (g : FGraph α) : Prop where
  meaning : Meaning g.owner D
  same : SameNodes D h0 g.owner
  recorded : ∀ p ∈ g.conversions, D p.1 = D p.2

theorem inv_replace {D : ℕ → α} {h0 : Heap α} {g : FGraph α} (hg : Inv D h0 g) {a b : ℕ} (hab : D a = D b) :
    Inv D h0 (g.replace a b) where
  meaning := meaning_replace hg.meaning hab
  same := hg.same.trans (sameNodes_replace g hab)
  recorded p hp := by
    rcases conversions_replace hp with rfl | hp
    · exact hab
    · exact hg.recorded p hp

theorem inv_make {D : ℕ → α} {h0 : Heap α} {g : FGraph α} (hg : Inv D h0 g) {v : ℕ} {n : Node α} (hv : g.owner v = none)
    (hD : D v = n.fn (n.inputs.map D)) : Inv D h0 (g.make v n) where
  meaning := meaning_make hg.meaning hD
  same := hg.same.trans (sameNodes_make D n hv)
  recorded := hg.recorded

theorem inv_rewrites {D : ℕ → α} {h0 : Heap α} {l : List (Action α)} {g : FGraph α} (hg : Inv D h0 g)
    (hl : SoundRewrites D g l) : Inv D h0 (g.rewrites l) := by
  induction l generalizing g with
  | nil => exact hg
  | cons s l ih =>
    cases s with
    | make v n => exact ih (inv_make hg hl.1 hl.2.1) hl.2.2
    | convert r new => exact ih (inv_replace hg hl.1) hl.2

theorem inv_transforms {D : ℕ → α} {h0 : Heap α} {l : List (Moved α)} {g : FGraph α} (hg : Inv D h0 g)
    (hl : SoundMoves D g l) : Inv D h0 (g.transforms l) := by
  induction l generalizing g with
  | nil => exact hg
  | cons t l ih =>
    obtain ⟨h1, _, _, _, _, h5, h6, h7⟩ := hl
    exact ih (inv_replace (inv_make hg h1 (by simpa using h5)) h6) h7

theorem has_transform {g : FGraph α} {t : Moved α} {v : ℕ} (hb : ¬ g.Has t.back) (ht : g.owner t.trans = none) (htb : t.trans ≠ t.back)
    (hp : ∀ p ∈ t.params, g.Has p) (hbt : t.clone ≠ t.back) (hv : (g.transform t).Has v) :
    v ≠ t.clone ∧ (g.Has v ∨ v = t.back ∨ v = t.trans) := by
  obtain ⟨hne, hv⟩ := has_replace (Ne.symm hbt) hv
  refine ⟨hne, ?_⟩
  rcases hv with hv | hv
  · exact .inl (has_make hb hv)
  · by_cases e : v = t.back
    · exact .inr (.inl e)
    · cases hv with
      | refl => exact absurd rfl e
      | step e1 hi ha =>
        simp only [FGraph.make, Function.update_self, Option.some.injEq] at e1
        subst e1
        rcases List.mem_cons.mp hi with rfl | hi
        · right; right
          refine anc_leaf ?_ ha
          simp [FGraph.make, Function.update_apply, htb, ht]
        · left
          exact has_anc (hp _ hi) (anc_make (fun hh => hb (has_anc (hp _ hi) hh)) ha)

theorem absent_transforms {D : ℕ → α} {l : List (Moved α)} {g : FGraph α} (hl : SoundMoves D g l)
    {c : ℕ} (hc : ¬ g.Has c ∨ ∃ t ∈ l, c = t.clone) (hd : ∀ t ∈ l, c ≠ t.back ∧ c ≠ t.trans)
    (hbt : ∀ t ∈ l, t.clone ≠ t.back) : ¬ (g.transforms l).Has c := by
  induction l generalizing g with
  | nil =>
    rcases hc with hc | ⟨t, ht, _⟩
    · exact hc
    · cases ht
  | cons t l ih =>
    obtain ⟨_, h2, h3, h3', h4, _, _, h7⟩ := hl
    refine ih h7 ?_ (fun s hs => hd s (List.mem_cons_of_mem _ hs)) (fun s hs => hbt s (List.mem_cons_of_mem _ hs))
    have key : c = t.clone ∨ ¬ g.Has c → ¬ (g.transform t).Has c := by
      intro hor hv
      obtain ⟨hne, hv⟩ := has_transform h2 h3 h3' h4 (hbt t List.mem_cons_self) hv
      rcases hor with hor | hor
      · exact hne hor
      · rcases hv with hv | hv | hv
        · exact hor hv
        · exact (hd t List.mem_cons_self).1 hv
        · exact (hd t List.mem_cons_self).2 hv
    rcases hc with hc | ⟨s, hs, hc⟩
    · exact .inl (key (.inr hc))
    · rcases List.mem_cons.mp hs with rfl | hs
      · exact .inl (key (.inl hc))
      · exact .inr ⟨s, hs, hc⟩

/-- Undoing the conversions in `l`, while those in `done` are undone already. -/
theorem undo_conversions {D : ℕ → α} {h0 : Heap α} {moved : List (Moved α)} (all l : List (ℕ × ℕ)) {g : FGraph α}
    (hl : ∀ p ∈ l, p ∈ all) (hg : Inv D h0 g) (hD : ∀ p ∈ all, D p.1 = D p.2)
    (hcl : ∀ t ∈ moved, ¬ g.Has t.clone) (hdone : ∀ p ∈ all, p ∈ l ∨ ¬ g.Has p.2)
    (hind : ∀ p ∈ all, (∀ q ∈ all, ¬ Anc g.owner p.1 q.2) ∧ ∀ t ∈ moved, ¬ Anc g.owner p.1 t.clone) :
    let g' := g.replaceAll (l.map fun p => (p.2, p.1))
    Inv D h0 g' ∧ (∀ t ∈ moved, ¬ g'.Has t.clone) ∧ (∀ p ∈ all, ¬ g'.Has p.2) ∧
      ∀ v, g.owner v = none → g'.owner v = none := by
  induction l generalizing g with
  | nil =>
    refine ⟨hg, hcl, fun p hp => ?_, fun v hv => hv⟩
    rcases hdone p hp with h | h
    · cases h
    · exact h
  | cons p l ih =>
    have hp := hl p List.mem_cons_self
    have hne : p.1 ≠ p.2 := fun e => (hind p hp).1 p hp (e ▸ .refl p.1)
    have hhas := fun v => has_replace (g := g) (a := p.2) (b := p.1) (v := v) hne
    obtain ⟨r1, r2, r3, r4⟩ := ih (g := g.replace p.2 p.1) (fun q hq => hl q (List.mem_cons_of_mem _ hq))
      (inv_replace hg (hD p hp).symm)
      (fun t ht hh => by
        rcases (hhas _ hh).2 with h | h
        · exact hcl t ht h
        · exact (hind p hp).2 t ht h)
      (fun q hq => by
        rcases hdone q hq with h | h
        · rcases List.mem_cons.mp h with rfl | h
          · exact .inr fun hh => (hhas _ hh).1 rfl
          · exact .inl h
        · refine .inr fun hh => ?_
          rcases (hhas _ hh).2 with h' | h'
          · exact h h'
          · exact (hind p hp).1 q hq h')
      (fun q hq => ⟨fun q' hq' hh => (hind q hq).1 q' hq' (anc_replace ((hind q hq).1 p hp) hh),
        fun t ht hh => (hind q hq).2 t ht (anc_replace ((hind q hq).1 p hp) hh)⟩)
    exact ⟨r1, r2, r3, fun v hv => r4 v (replace_leaf hv)⟩

theorem undo_values {D : ℕ → α} {h0 : Heap α} {moved : List (Moved α)} (all : List (ℕ × ℕ)) (values : List (ℕ × ℕ))
    {g : FGraph α} (hg : Inv D h0 g) (hcl : ∀ t ∈ moved, ¬ g.Has t.clone) (hdone : ∀ p ∈ all, ¬ g.Has p.2)
    (hv : ∀ p ∈ values, g.owner p.2 = none ∧ (∀ q ∈ all, p.2 ≠ q.2) ∧ (∀ t ∈ moved, p.2 ≠ t.clone) ∧
      (D p.1 = D p.2 ∨ ∃ t ∈ moved, p.1 = t.clone)) :
    let g' := g.replaceAll values
    Inv D h0 g' ∧ (∀ t ∈ moved, ¬ g'.Has t.clone) ∧ ∀ p ∈ all, ¬ g'.Has p.2 := by
  induction values generalizing g with
  | nil => exact ⟨hg, hcl, hdone⟩
  | cons p values ih =>
    obtain ⟨v1, v2, v3, v4⟩ := hv p List.mem_cons_self
    have habs : (∃ t ∈ moved, p.1 = t.clone) → g.replace p.1 p.2 = g := by
      rintro ⟨t, ht, e⟩
      exact replace_absent _ (e ▸ hcl t ht)
    have hsub : ∀ v, (g.replace p.1 p.2).Has v → g.Has v ∨ v = p.2 := by
      intro v hh
      by_cases e : p.2 = p.1
      · by_cases ha : g.Has p.1
        · left
          rw [replace_has _ _ _ ha] at hh
          obtain ⟨o, ho, hanc⟩ := hh
          have hsw : ∀ i, swap p.1 p.2 i = i := by
            intro i; simp only [swap]; split_ifs with hi
            · rw [hi, e]
            · rfl
          refine anc_closed (h := (g.move p.1 p.2).owner) (S := g.Has) ?_ hanc ?_
          · intro v n i hv' hn hi
            simp only [FGraph.move, rewire, hv', true_or, if_true] at hn
            rcases e' : g.owner v with _ | m
            · rw [e'] at hn; cases hn
            · rw [e'] at hn
              cases hn
              obtain ⟨j, hj, rfl⟩ := List.mem_map.mp hi
              rw [hsw]
              exact has_anc hv' (.step e' hj (.refl j))
          · obtain ⟨o', ho', rfl⟩ := List.mem_map.mp ho
            rw [hsw]
            exact ⟨o', ho', .refl o'⟩
        · rw [replace_absent _ ha] at hh; exact .inl hh
      · rcases (has_replace e hh).2 with h | h
        · exact .inl h
        · exact .inr (anc_leaf v1 h)
    refine ih (g := g.replace p.1 p.2) ?_ ?_ ?_ ?_
    · rcases v4 with h | h
      · exact inv_replace hg h
      · rw [habs h]; exact hg
    · intro t ht hh
      rcases hsub _ hh with h | h
      · exact hcl t ht h
      · exact v3 t ht h.symm
    · intro q hq hh
      rcases hsub _ hh with h | h
      · exact hdone q hq h
      · exact v2 q hq h.symm
    · intro q hq
      obtain ⟨w1, w2, w3, w4⟩ := hv q (List.mem_cons_of_mem _ hq)
      exact ⟨replace_leaf w1, w2, w3, w4⟩

/-- Whatever evaluation returns is the meaning. -/
theorem evaluate_meaning {h : Heap α} {D ρ : ℕ → α} (hD : Meaning h D) (hρ : ∀ v, h v = none → ρ v = D v) :
    ∀ fuel v x, evaluate h ρ fuel v = some x → x = D v := by
  intro fuel
  induction fuel with
  | zero => intro v x hx; cases hx
  | succ fuel ih =>
    intro v x hx
    simp only [evaluate] at hx
    rcases e : h v with _ | n
    · rw [e] at hx
      simp only [Option.some.injEq] at hx
      rw [← hx, hρ v e]
    · rw [e] at hx
      simp only at hx
      split_ifs at hx with hr
      obtain ⟨xs, hxs, rfl⟩ := Option.map_eq_some_iff.mp hx
      rw [hD v n e]
      congr 1
      have : ∀ (l : List ℕ) (ys : List α), l.mapM (evaluate h ρ fuel) = some ys → ys = l.map D := by
        intro l
        induction l with
        | nil => intro ys hys; simp at hys; simp [hys]
        | cons i l ih' =>
          intro ys hys
          rw [List.mapM_cons] at hys
          rcases e1 : evaluate h ρ fuel i with _ | y
          · simp [e1] at hys
          · rcases e2 : l.mapM (evaluate h ρ fuel) with _ | zs
            · simp [e1, e2] at hys
            · simp [e1, e2] at hys
              rw [← hys, List.map_cons, ih i y e1, ih' zs e2]
      exact this _ _ hxs

end Verif.Undo
