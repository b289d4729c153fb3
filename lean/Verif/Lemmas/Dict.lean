import Verif.Model.Dict
import Mathlib.Data.List.Nodup

namespace Verif.Dict
variable {α β : Type*} [DecidableEq α]

theorem get?_set (d : Dict α β) (k k' : α) (v : β) : get? (set d k v) k' = if k = k' then some v else get? d k' := by
  induction d with
  | nil => simp [set, get?]
  | cons p d ih =>
    obtain ⟨a, b⟩ := p
    by_cases h : a = k
    · subst h
      simp only [set, if_true, get?]
      split_ifs <;> rfl
    · simp only [set, if_neg h, get?, ih]
      split_ifs with h1 h2 <;> first | rfl | (exfalso; exact h (h1.trans h2.symm))

theorem get?_eq_none {d : Dict α β} {k : α} : get? d k = none ↔ k ∉ keys d := by
  induction d with
  | nil => simp [get?, keys]
  | cons p d ih =>
    obtain ⟨a, b⟩ := p
    by_cases h : a = k
    · subst h; simp [get?, keys]
    · have h' : ¬k = a := fun e => h e.symm
      simp only [get?, if_neg h, ih, keys, List.map_cons, List.mem_cons, h', false_or]

theorem get?_isSome {d : Dict α β} {k : α} : (∃ v, get? d k = some v) ↔ k ∈ keys d := by
  rw [← not_iff_not, ← get?_eq_none]
  cases get? d k <;> simp

theorem mem_keys_set (d : Dict α β) (k k' : α) (v : β) : k' ∈ keys (set d k v) ↔ k' = k ∨ k' ∈ keys d := by
  rw [← get?_isSome, ← get?_isSome]
  simp only [get?_set]
  split_ifs with h
  · simp [h]
  · have : ¬k' = k := fun e => h e.symm
    simp [this]

theorem set_of_not_mem {d : Dict α β} {k : α} (h : k ∉ keys d) (v : β) : set d k v = d ++ [(k, v)] := by
  induction d with
  | nil => rfl
  | cons p d ih =>
    obtain ⟨a, b⟩ := p
    simp only [keys, List.map_cons, List.mem_cons, not_or] at h
    simp only [set, if_neg (Ne.symm h.1), List.cons_append]
    rw [ih h.2]

theorem keys_set_of_mem {d : Dict α β} {k : α} (h : k ∈ keys d) (v : β) : keys (set d k v) = keys d := by
  induction d with
  | nil => simp [keys] at h
  | cons p d ih =>
    obtain ⟨a, b⟩ := p
    by_cases e : a = k
    · simp [set, e, keys]
    · simp only [keys, List.map_cons, List.mem_cons, (Ne.symm e : k ≠ a), false_or] at h
      simp only [set, if_neg e, keys, List.map_cons]
      congr 1
      exact ih h

theorem nodup_set {d : Dict α β} (h : (keys d).Nodup) (k : α) (v : β) : (keys (set d k v)).Nodup := by
  by_cases hk : k ∈ keys d
  · rwa [keys_set_of_mem hk]
  · rw [set_of_not_mem hk, keys, List.map_append, List.nodup_append]
    refine ⟨h, by simp, ?_⟩
    intro a ha b hb
    simp only [List.map_cons, List.map_nil, List.mem_singleton] at hb
    subst hb
    intro e; subst e; exact hk ha

theorem mem_of_get? {d : Dict α β} {k : α} {v : β} (h : get? d k = some v) : (k, v) ∈ d := by
  induction d with
  | nil => simp [get?] at h
  | cons p d ih =>
    obtain ⟨a, b⟩ := p
    simp only [get?] at h
    split_ifs at h with e
    · cases h; subst e; simp
    · exact List.mem_cons_of_mem _ (ih h)

theorem get?_of_mem {d : Dict α β} (hd : (keys d).Nodup) {k : α} {v : β} (h : (k, v) ∈ d) : get? d k = some v := by
  induction d with
  | nil => simp at h
  | cons p d ih =>
    obtain ⟨a, b⟩ := p
    simp only [keys, List.map_cons, List.nodup_cons] at hd
    rcases List.mem_cons.1 h with e | e
    · cases e; simp [get?]
    · have : a ≠ k := by
        rintro rfl
        exact hd.1 (List.mem_map.2 ⟨_, e, rfl⟩)
      simp only [get?, if_neg this]
      exact ih hd.2 e

theorem nodup_update {d : Dict α β} (h : (keys d).Nodup) (e : Dict α β) : (keys (update d e)).Nodup := by
  induction e generalizing d with
  | nil => exact h
  | cons p e ih => exact ih (nodup_set h _ _)

theorem mem_keys_update (d e : Dict α β) (k : α) : k ∈ keys (update d e) ↔ k ∈ keys d ∨ k ∈ keys e := by
  induction e generalizing d with
  | nil => simp [update, keys]
  | cons p e ih =>
    have : update d (p :: e) = update (set d p.1 p.2) e := rfl
    rw [this, ih, mem_keys_set]
    simp only [keys, List.map_cons, List.mem_cons]
    tauto

theorem get?_update_of_mem {d e : Dict α β} (he : (keys e).Nodup) {k : α} {v : β} (h : (k, v) ∈ e) : get? (update d e) k = some v := by
  induction e generalizing d with
  | nil => simp at h
  | cons p e ih =>
    have hu : update d (p :: e) = update (set d p.1 p.2) e := rfl
    simp only [keys, List.map_cons, List.nodup_cons] at he
    rw [hu]
    rcases List.mem_cons.1 h with h | h
    · subst h
      have : ∀ (d : Dict α β), k ∉ keys e → get? (update d e) k = get? d k := by
        intro d hk
        clear ih hu he h
        induction e generalizing d with
        | nil => rfl
        | cons q e ih =>
          simp only [keys, List.map_cons, List.mem_cons, not_or] at hk
          show get? (update (set d q.1 q.2) e) k = _
          rw [ih _ hk.2, get?_set, if_neg (Ne.symm hk.1)]
      rw [this _ he.1, get?_set, if_pos rfl]
    · exact ih he.2 h

theorem get?_update_of_not_mem {d e : Dict α β} {k : α} (h : k ∉ keys e) : get? (update d e) k = get? d k := by
  induction e generalizing d with
  | nil => rfl
  | cons q e ih =>
    simp only [keys, List.map_cons, List.mem_cons, not_or] at h
    show get? (update (set d q.1 q.2) e) k = _
    rw [ih h.2, get?_set, if_neg (Ne.symm h.1)]

theorem nodup_ofList (l : List (α × β)) : (keys (ofList l)).Nodup := nodup_update (d := []) (by simp [keys]) l

theorem mem_keys_ofList (l : List (α × β)) (k : α) : k ∈ keys (ofList l) ↔ k ∈ l.map Prod.fst := by
  have := mem_keys_update ([] : Dict α β) l k
  simpa [keys, ofList, update] using this

/-- Building a dict from items with distinct keys keeps them in order. -/
theorem update_append {d e : Dict α β} (h : (keys (d ++ e)).Nodup) : update d e = d ++ e := by
  induction e generalizing d with
  | nil => simp [update]
  | cons p e ih =>
    show update (set d p.1 p.2) e = _
    have hp : p.1 ∉ keys d := by
      intro hm
      rw [keys, List.map_append, List.nodup_append] at h
      exact h.2.2 _ hm _ (by simp) rfl
    rw [set_of_not_mem hp, ih (by simpa [List.append_assoc] using h)]
    simp

theorem ofList_of_nodup {l : List (α × β)} (h : (l.map Prod.fst).Nodup) : ofList l = l := by
  have := update_append (d := ([] : Dict α β)) (e := l) (by simpa [keys] using h)
  simpa [ofList, update] using this

end Verif.Dict
