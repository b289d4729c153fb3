import Verif.Props.Core

/-! # C80: values of the wrong type are rejected -/

namespace Verif.Cond
open Verif

variable {V N D T : Type} [DecidableEq V] [DecidableEq N] [DecidableEq D]

/-- **C80** When `conditional_logprob` returns, every requested or realized variable is produced by a node, and every realized value has
the dtype of its variable. -/
theorem C80_returns_only_well_typed {B : Backend V N D T} {rvs clones : List V} (hc : clones.length = rvs.length) {realized : Dict V V}
    (hreal : (Dict.keys realized).Nodup) {res : Dict V T × List V} (h : conditionalLogprob B rvs clones realized = .ok res) :
    (∀ v, v ∈ rvs ∨ v ∈ Dict.keys realized → ∃ n, B.owner v = some n) ∧ ∀ v x, (v, x) ∈ realized → B.dtype x = B.dtype v := by
  have hchk : checkValued B (rvValues rvs clones realized) = .ok () := by
    cases hk : checkValued B (rvValues rvs clones realized) with
    | ok u => rfl
    | error e => simp [conditionalLogprob, constructIr, hk] at h
  rw [checkValued_ok_iff] at hchk
  constructor
  · intro v hv
    have hk : v ∈ Dict.keys (rvValues rvs clones realized) := by
      rw [rvValues, Dict.mem_keys_update, Dict.mem_keys_ofList, List.map_fst_zip hc.ge]; exact hv
    obtain ⟨x, hx⟩ := Dict.get?_isSome.2 hk
    exact (hchk _ (Dict.mem_of_get? hx)).1
  · intro v x hvx
    have hx : Dict.get? (rvValues rvs clones realized) v = some x := Dict.get?_update_of_mem hreal hvx
    exact (hchk _ (Dict.mem_of_get? hx)).2

/-- **C80** The error raised: that of the first variable (in the order of the dictionary of values) at fault, an attribute error if it is
not produced by a node, a type error if its value has another dtype; whatever the rest of the library would answer. -/
theorem C80_first_fault {B : Backend V N D T} {rvs clones : List V} {realized pre post : Dict V V} {v x : V}
    (hd : rvValues rvs clones realized = pre ++ (v, x) :: post) (hpre : ∀ p ∈ pre, WellValued B p) :
    (B.owner v = none → conditionalLogprob B rvs clones realized = .error .attribute) ∧
    ((∃ n, B.owner v = some n) → B.dtype x ≠ B.dtype v → conditionalLogprob B rvs clones realized = .error .typeError) := by
  have key : ∀ d : Dict V V, (∀ p ∈ d, WellValued B p) → checkValued B (d ++ (v, x) :: post) = checkValued B ((v, x) :: post) := by
    intro d hd
    induction d with
    | nil => rfl
    | cons p d ih =>
      obtain ⟨⟨n, h1⟩, h2⟩ := hd p (by simp)
      simp only [List.cons_append, checkValued, h1, h2, ne_eq, not_true_eq_false, if_false]
      exact ih fun q hq => hd q (by simp [hq])
  have hk := key pre hpre
  rw [← hd] at hk
  constructor
  · intro ho
    simp [conditionalLogprob, constructIr, hk, checkValued, ho]
  · rintro ⟨n, ho⟩ hdt
    simp [conditionalLogprob, constructIr, hk, checkValued, ho, hdt]

/-- Variables `0 .. 9` have owners, variables from 20 on hold values; the dtype is the parity. -/
def typedDemo : Backend ℕ ℕ ℕ ℕ where
  owner v := if v < 10 then some v else none
  dtype v := v % 2
  rewrite d := .ok (d.map fun p => some ⟨p.1, p.2⟩, d.map Prod.snd)
  measurableOutputs n := [n]
  logprob n vs := .ok [n]

example : (∀ v, v ∈ [3, 4] ∨ v ∈ Dict.keys [((5 : ℕ), (31 : ℕ))] → ∃ n, typedDemo.owner v = some n) ∧ ∀ v x, (v, x) ∈ [((5 : ℕ), (31 : ℕ))] →
    typedDemo.dtype x = typedDemo.dtype v :=
  C80_returns_only_well_typed (B := typedDemo) (rvs := [3, 4]) (clones := [21, 22]) rfl (by decide)
    (res := ([(3, 3), (4, 4), (5, 5)], [21, 22])) rfl

example : conditionalLogprob typedDemo [3, 4] [21, 22] [(5, 30), (12, 30)] = .error .typeError :=
  (C80_first_fault (B := typedDemo) (rvs := [3, 4]) (clones := [21, 22]) (realized := [(5, 30), (12, 30)]) (pre := [(3, 21), (4, 22)])
    (post := [(12, 30)]) (v := 5) (x := 30) rfl (by intro p hp; simp at hp; rcases hp with rfl | rfl <;> exact ⟨⟨_, rfl⟩, rfl⟩)).2 ⟨_, rfl⟩ (by decide)

end Verif.Cond
