import Verif.Spec.PrintNumber
import Mathlib.Data.Nat.Digits.Lemmas
import Mathlib.Tactic.Linarith
import Mathlib.Tactic.Ring
import Mathlib.Tactic.FieldSimp
import Mathlib.Tactic.Positivity
import Mathlib.Tactic.IntervalCases
import Mathlib.Tactic.NormNum

/-! # Lemmas about printed numbers -/

namespace Verif.Number
open Verif

/-! ## Digits -/

theorem charDigit_ofNat {d : ℕ} (h : d < 10) : charDigit (Char.ofNat (48 + d)) = some d := by
  interval_cases d <;> rfl

theorem ofNat_ne_underscore {d : ℕ} (h : d < 10) : Char.ofNat (48 + d) ≠ '_' := by
  interval_cases d <;> decide

theorem digitPart_cons {c : Char} {cs : Text} (hc : cs ≠ []) (h : ∀ c' ∈ cs.head?, c' ≠ '_') :
    digitPart (c :: cs) = (do return (← charDigit c) :: (← digitPart cs)) := by
  cases cs with
  | nil => exact absurd rfl hc
  | cons c' cs =>
    have h' : c' ≠ '_' := h c' (by simp)
    rw [digitPart]
    intro hcs
    exact h' hcs

theorem digitPart_text : ∀ {ds : List ℕ}, ds ≠ [] → (∀ d ∈ ds, d < 10) → digitPart (digitText ds) = some ds
  | [], h, _ => absurd rfl h
  | [d], _, hd => by
    simp only [digitText, List.map_cons, List.map_nil, digitPart, charDigit_ofNat (hd d (by simp)), Option.map_some]
  | d :: d' :: ds, _, hd => by
    have ih := digitPart_text (ds := d' :: ds) (by simp) (fun x hx => hd x (List.mem_cons_of_mem _ hx))
    have e : digitText (d :: d' :: ds) = Char.ofNat (48 + d) :: digitText (d' :: ds) := rfl
    rw [e, digitPart_cons (by simp [digitText]) (by
      intro c hc
      simp only [digitText, List.map_cons, List.head?_cons, Option.mem_def, Option.some.injEq] at hc
      rw [← hc]
      exact ofNat_ne_underscore (hd d' (by simp))), ih, charDigit_ofNat (hd d (by simp))]
    rfl

theorem digitPart?_text {ds : List ℕ} (hd : ∀ d ∈ ds, d < 10) : digitPart? (digitText ds) = some ds := by
  by_cases h : ds = []
  · subst h; rfl
  · have e := digitPart_text h hd
    revert e
    cases hds : digitText ds with
    | nil => intro e; cases e
    | cons c cs => intro e; exact e

theorem foldl_digits (ds : List ℕ) : ∀ a : ℕ, ds.foldl (fun a d => 10 * a + d) a = a * 10 ^ ds.length + ofDigits ds := by
  induction ds with
  | nil => intro a; simp [ofDigits]
  | cons d ds ih =>
    intro a
    have e : ofDigits (d :: ds) = d * 10 ^ ds.length + ofDigits ds := by
      have := ih (10 * 0 + d)
      rw [ofDigits, List.foldl_cons, this, Nat.mul_zero, Nat.zero_add]
    rw [List.foldl_cons, ih, e, List.length_cons, pow_succ]
    ring

theorem ofDigits_append (a b : List ℕ) : ofDigits (a ++ b) = ofDigits a * 10 ^ b.length + ofDigits b := by
  rw [ofDigits, List.foldl_append, foldl_digits b]; rfl

theorem ofDigits_cons (d : ℕ) (ds : List ℕ) : ofDigits (d :: ds) = d * 10 ^ ds.length + ofDigits ds := by
  rw [ofDigits, List.foldl_cons, foldl_digits]; ring

theorem ofDigits_reverse_digits (n : ℕ) : ofDigits (Nat.digits 10 n).reverse = n := by
  have h : ∀ l : List ℕ, ofDigits l.reverse = Nat.ofDigits 10 l := by
    intro l
    induction l with
    | nil => rfl
    | cons d l ih =>
      rw [List.reverse_cons, ofDigits_append, ih, Nat.ofDigits_cons]
      simp [ofDigits]
      ring
  rw [h, Nat.ofDigits_digits]

theorem stripZeros_value : ∀ ds : List ℕ, (stripZeros ds).length ≤ ds.length ∧
    ofDigits ds = ofDigits (stripZeros ds) * 10 ^ (ds.length - (stripZeros ds).length)
  | [] => by simp [stripZeros]
  | d :: ds => by
    obtain ⟨h1, h2⟩ := stripZeros_value ds
    rw [stripZeros]
    split
    · rename_i h
      rw [h.1] at h2
      refine ⟨by simp, ?_⟩
      rw [ofDigits_cons, h2, h.2]
      simp [ofDigits]
    · refine ⟨by simpa using h1, ?_⟩
      rw [ofDigits_cons, ofDigits_cons, h2, List.length_cons, List.length_cons]
      have e : ds.length + 1 - ((stripZeros ds).length + 1) = ds.length - (stripZeros ds).length := by omega
      have e' : 10 ^ ds.length = 10 ^ (stripZeros ds).length * 10 ^ (ds.length - (stripZeros ds).length) := by
        rw [← pow_add]; congr 1; omega
      rw [e, e']
      ring

theorem stripZeros_mem : ∀ {ds : List ℕ} {d : ℕ}, d ∈ stripZeros ds → d ∈ ds
  | [], _, h => by simp [stripZeros] at h
  | x :: ds, d, h => by
    rw [stripZeros] at h
    split at h
    · simp at h
    · rcases List.mem_cons.1 h with h | h
      · simp [h]
      · exact List.mem_cons_of_mem _ (stripZeros_mem h)

theorem sixDigits_value {q : ℕ} : ofDigits (sixDigits q) = q := by
  simp only [ofDigits, sixDigits, List.foldl_cons, List.foldl_nil]
  omega

theorem sixDigits_lt {q : ℕ} (h : q < 1000000) : ∀ d ∈ sixDigits q, d < 10 := by
  intro d hd
  simp only [sixDigits, List.mem_cons, List.not_mem_nil, or_false] at hd
  omega

/-! ## Reading -/

theorem cut_none {p : Char → Bool} : ∀ {t : Text}, (∀ c ∈ t, p c = false) → cut p t = (t, none)
  | [], _ => rfl
  | c :: cs, h => by
    have ih := cut_none (p := p) (t := cs) fun x hx => h x (List.mem_cons_of_mem _ hx)
    simp [cut, h c (by simp), ih]

theorem cut_append {p : Char → Bool} {c : Char} {b : Text} (hc : p c = true) : ∀ {a : Text}, (∀ c ∈ a, p c = false) → cut p (a ++ c :: b) = (a, some b)
  | [], _ => by simp [cut, hc]
  | x :: a, h => by
    have ih := cut_append (p := p) (b := b) hc (a := a) fun y hy => h y (List.mem_cons_of_mem _ hy)
    simp [cut, h x (by simp), ih]

theorem digitText_mem {ds : List ℕ} (hd : ∀ d ∈ ds, d < 10) {c : Char} (h : c ∈ digitText ds) : 48 ≤ c.toNat ∧ c.toNat ≤ 57 := by
  obtain ⟨d, hmem, rfl⟩ := List.mem_map.1 h
  have := hd d hmem
  interval_cases d <;> decide

theorem char_ne_of_toNat {c c' : Char} (h : c.toNat ≠ c'.toNat) : (c == c') = false := by
  rw [beq_eq_false_iff_ne]
  intro e; exact h (by rw [e])

/-- The characters of printed numbers before the exponent. -/
theorem pointText_mem {a b : List ℕ} (ha : ∀ d ∈ a, d < 10) (hb : ∀ d ∈ b, d < 10) {c : Char} (h : c ∈ pointText a b) :
    c = '.' ∨ 48 ≤ c.toNat ∧ c.toNat ≤ 57 := by
  rw [pointText, List.mem_append] at h
  rcases h with h | h
  · exact .inr (digitText_mem ha h)
  · split at h
    · simp at h
    · rcases List.mem_cons.1 h with h | h
      · exact .inl h
      · exact .inr (digitText_mem hb h)

theorem cut_pointText {a b : List ℕ} (ha : ∀ d ∈ a, d < 10) : cut (· == '.') (pointText a b) = (digitText a, if b = [] then none else some (digitText b)) := by
  have hno : ∀ c ∈ digitText a, (c == '.') = false := by
    intro c hc
    have := digitText_mem ha hc
    apply char_ne_of_toNat
    have e : '.'.toNat = 46 := rfl
    omega
  rw [pointText]
  by_cases hb : b = []
  · simp only [hb, if_true, List.append_nil]
    exact cut_none hno
  · simp only [hb, if_false]
    exact cut_append rfl hno

theorem pointText_noexp {a b : List ℕ} (ha : ∀ d ∈ a, d < 10) (hb : ∀ d ∈ b, d < 10) : ∀ c ∈ pointText a b, (c == 'e' || c == 'E') = false := by
  intro c hc
  rcases pointText_mem ha hb hc with h | h
  · subst h; rfl
  · have h1 : (c == 'e') = false := char_ne_of_toNat (by have e : 'e'.toNat = 101 := rfl; omega)
    have h2 : (c == 'E') = false := char_ne_of_toNat (by have e : 'E'.toNat = 69 := rfl; omega)
    rw [h1, h2]; rfl

theorem unsigned_of_cut {t man : Text} {expo : Option Text} {e : ℤ} {a b : List ℕ} (hcut : cut (fun c => c == 'e' || c == 'E') t = (man, expo))
    (hexp : expo.elim (some 0) exponent = some e) (hman : man = pointText a b)
    (hne : a ≠ []) (ha : ∀ d ∈ a, d < 10) (hb : ∀ d ∈ b, d < 10) : unsigned t = some (ofDigits (a ++ b), e - b.length) := by
  rw [unsigned, hcut]
  cases expo with
  | none =>
    obtain rfl : 0 = e := by simpa using hexp
    simp only [hman, cut_pointText ha]
    by_cases hb0 : b = []
    · subst hb0
      simp [digitPart_text hne ha]
    · simp [hb0, digitPart?_text ha, digitPart?_text hb, hne]
  | some x =>
    have hx : exponent x = some e := hexp
    simp only [hx, hman, cut_pointText ha]
    by_cases hb0 : b = []
    · subst hb0
      simp [digitPart_text hne ha]
    · simp [hb0, digitPart?_text ha, digitPart?_text hb, hne]

theorem unsigned_point {a b : List ℕ} (hne : a ≠ []) (ha : ∀ d ∈ a, d < 10) (hb : ∀ d ∈ b, d < 10) :
    unsigned (pointText a b) = some (ofDigits (a ++ b), -(b.length : ℤ)) := by
  rw [unsigned_of_cut (cut_none (pointText_noexp ha hb)) rfl rfl hne ha hb]
  simp

theorem exponent_text (e : ℤ) : ∃ x, exponentText e = 'e' :: x ∧ exponent x = some e := by
  refine ⟨_, rfl, ?_⟩
  have hds : digitPart (digitText (if e.natAbs < 10 then [0, e.natAbs] else (Nat.digits 10 e.natAbs).reverse)) =
      some (if e.natAbs < 10 then [0, e.natAbs] else (Nat.digits 10 e.natAbs).reverse) := by
    split
    · rename_i h
      refine digitPart_text (by simp) fun d hd => ?_
      simp only [List.mem_cons, List.not_mem_nil, or_false] at hd
      omega
    · rename_i h
      refine digitPart_text ?_ fun d hd => Nat.digits_lt_base (by norm_num) (List.mem_reverse.1 hd)
      simp only [ne_eq, List.reverse_eq_nil_iff]
      rw [Nat.digits_eq_nil_iff_eq_zero]
      omega
  have hval : ofDigits (if e.natAbs < 10 then [0, e.natAbs] else (Nat.digits 10 e.natAbs).reverse) = e.natAbs := by
    split
    · simp [ofDigits]
    · exact ofDigits_reverse_digits _
  by_cases he : e < 0
  · simp only [he, if_true, exponent, signed, hds, Option.map_some, hval, Option.some.injEq]
    omega
  · simp only [he, if_false, exponent, signed, hds, Option.map_some, hval, Option.some.injEq, Bool.false_eq_true]
    omega

theorem unsigned_scientific {a b : List ℕ} (hne : a ≠ []) (ha : ∀ d ∈ a, d < 10) (hb : ∀ d ∈ b, d < 10) (e : ℤ) :
    unsigned (pointText a b ++ exponentText e) = some (ofDigits (a ++ b), e - b.length) := by
  obtain ⟨x, hx, hv⟩ := exponent_text e
  rw [hx]
  exact unsigned_of_cut (cut_append rfl (pointText_noexp ha hb)) hv rfl hne ha hb

/-! ## Rounding -/

theorem nearest_nat {b m : ℕ} (A : ℤ) :
    |((m / b + (if b < 2 * (m % b) ∨ b = 2 * (m % b) ∧ m / b % 2 = 1 then 1 else 0) : ℕ) : ℤ) * b - m| ≤ |A * b - m| := by
  have hm : ((b : ℤ)) * (m / b : ℕ) + (m % b : ℕ) = m := by exact_mod_cast Nat.div_add_mod m b
  generalize hq : m / b = q at *
  generalize hr : m % b = r at *
  by_cases hb : b = 0
  · subst hb; simp
  have hrb : r < b := hr ▸ Nat.mod_lt _ (Nat.pos_of_ne_zero hb)
  have hrb' : (r : ℤ) < b := by exact_mod_cast hrb
  have hA : (r : ℤ) ≤ |A * b - m| ∨ (b : ℤ) - r ≤ |A * b - m| := by
    rcases le_or_gt A q with h | h
    · left
      rw [abs_of_nonpos (by nlinarith)]
      nlinarith
    · right
      rw [abs_of_nonneg (by nlinarith)]
      nlinarith
  split
  · rename_i h
    have h2 : b ≤ 2 * r := by omega
    have e : ((q + 1 : ℕ) : ℤ) * b - m = b - r := by push_cast; linarith
    rw [e, abs_of_nonneg (by linarith)]
    have : (b : ℤ) ≤ 2 * r := by exact_mod_cast h2
    rcases hA with h | h <;> linarith
  · rename_i h
    have h2 : 2 * r ≤ b := by omega
    have e : ((q + 0 : ℕ) : ℤ) * b - m = -r := by push_cast; linarith
    rw [e, abs_neg, abs_of_nonneg (by positivity)]
    have : 2 * (r : ℤ) ≤ b := by exact_mod_cast h2
    rcases hA with h | h <;> linarith

theorem zpow_split (k : ℤ) (t : ℕ) : (10 : ℚ) ^ (k + t) = 10 ^ t * 10 ^ k := by
  rw [zpow_add₀ (by norm_num), zpow_natCast, mul_comm]

/-- What rounding does: the result has six digits, and no multiple of the unit of the last of them is nearer. -/
theorem round6_spec {m : ℕ} (hm : 0 < m) (k : ℤ) : 100000 ≤ (round6 m k).1 ∧ (round6 m k).1 < 1000000 ∧
    ∃ (j : ℤ) (Q : ℕ), ((round6 m k).1 : ℚ) * 10 ^ ((round6 m k).2 - 5) = Q * 10 ^ j ∧ (100000 : ℚ) * 10 ^ j ≤ m * 10 ^ k ∧
      ∀ A : ℤ, |(Q : ℚ) * 10 ^ j - m * 10 ^ k| ≤ |(A : ℚ) * 10 ^ j - m * 10 ^ k| := by
  have h1 : m < 10 ^ (Nat.digits 10 m).length := Nat.lt_base_pow_length_digits (by norm_num)
  have h2 : 10 ^ (Nat.digits 10 m).length ≤ 10 * m := Nat.base_pow_length_digits_le' 8 m hm.ne'
  have hk : (0 : ℚ) < 10 ^ k := by positivity
  unfold round6
  generalize (Nat.digits 10 m).length = n at *
  by_cases hn : n ≤ 6
  · obtain ⟨t, rfl⟩ : ∃ t, t = 6 - n := ⟨_, rfl⟩
    simp only [hn, if_true]
    obtain ⟨t, ht⟩ : ∃ t, 6 = n + t := ⟨6 - n, by omega⟩
    have et : 6 - n = t := by omega
    have e6 : 10 ^ n * 10 ^ t = 1000000 := by rw [← pow_add, ← ht]; norm_num
    have htp : 0 < 10 ^ t := by positivity
    rw [et]
    refine ⟨by nlinarith, by nlinarith, k - t, m * 10 ^ t, ?_, ?_, fun A => ?_⟩
    · congr 2
      omega
    · have e : (10 : ℚ) ^ k = 10 ^ t * 10 ^ (k - t) := by rw [← zpow_split]; congr 1; omega
      have hkt : (0 : ℚ) < 10 ^ (k - t) := by positivity
      rw [e]
      have : (100000 : ℚ) ≤ m * 10 ^ t := by exact_mod_cast (by nlinarith : 100000 ≤ m * 10 ^ t)
      nlinarith
    · have e : (10 : ℚ) ^ k = 10 ^ t * 10 ^ (k - t) := by rw [← zpow_split]; congr 1; omega
      rw [e]
      push_cast
      rw [show (m : ℚ) * 10 ^ t * 10 ^ (k - t) - m * (10 ^ t * 10 ^ (k - t)) = 0 by ring, abs_zero]
      exact abs_nonneg _
  · obtain ⟨t, rfl⟩ : ∃ t, n = t + 6 := ⟨n - 6, by omega⟩
    simp only [hn, if_false, Nat.add_sub_cancel]
    have hb : 0 < 10 ^ t := by positivity
    have hlo : 100000 ≤ m / 10 ^ t := by
      rw [Nat.le_div_iff_mul_le hb]
      rw [pow_add] at h2
      omega
    have hhi : m / 10 ^ t < 1000000 := by
      rw [Nat.div_lt_iff_lt_mul hb]
      rw [pow_add] at h1
      omega
    have hnear := nearest_nat (b := 10 ^ t) (m := m)
    have hj : (100000 : ℚ) * 10 ^ (k + t) ≤ m * 10 ^ k := by
      rw [zpow_split]
      have h3 : 100000 * 10 ^ t ≤ m := (Nat.le_div_iff_mul_le hb).1 hlo
      have : (100000 : ℚ) * 10 ^ t ≤ m := by exact_mod_cast h3
      nlinarith
    have hQ : m / 10 ^ t + (if 10 ^ t < 2 * (m % 10 ^ t) ∨ 10 ^ t = 2 * (m % 10 ^ t) ∧ m / 10 ^ t % 2 = 1 then 1 else 0) ≤ 1000000 := by split <;> omega
    have hQ' : 100000 ≤ m / 10 ^ t + (if 10 ^ t < 2 * (m % 10 ^ t) ∨ 10 ^ t = 2 * (m % 10 ^ t) ∧ m / 10 ^ t % 2 = 1 then 1 else 0) := by split <;> omega
    generalize m / 10 ^ t + (if 10 ^ t < 2 * (m % 10 ^ t) ∨ 10 ^ t = 2 * (m % 10 ^ t) ∧ m / 10 ^ t % 2 = 1 then 1 else 0) = Q at *
    have hfin : ∀ A : ℤ, |(Q : ℚ) * 10 ^ (k + (t : ℤ)) - m * 10 ^ k| ≤ |(A : ℚ) * 10 ^ (k + (t : ℤ)) - m * 10 ^ k| := by
      intro A
      have h := hnear A
      have h' : |(Q : ℚ) * 10 ^ t - m| ≤ |(A : ℚ) * 10 ^ t - m| := by exact_mod_cast h
      rw [zpow_split, show (Q : ℚ) * (10 ^ t * 10 ^ k) - m * 10 ^ k = (Q * 10 ^ t - m) * 10 ^ k by ring,
        show (A : ℚ) * (10 ^ t * 10 ^ k) - m * 10 ^ k = (A * 10 ^ t - m) * 10 ^ k by ring, abs_mul, abs_mul]
      exact mul_le_mul_of_nonneg_right h' (abs_nonneg _)
    split
    · rename_i hq
      subst hq
      refine ⟨by norm_num, by norm_num, k + t, 1000000, ?_, hj, hfin⟩
      rw [show k + ((t + 6 : ℕ) : ℤ) - 5 = (k + t) + (1 : ℕ) by push_cast; ring, zpow_split]
      push_cast
      ring
    · refine ⟨hQ', by omega, k + t, Q, ?_, hj, hfin⟩
      rw [show k + ((t + 6 : ℕ) : ℤ) - 1 - 5 = k + t by push_cast; ring]

/-- Rounding depends on the number only, not on how it is written. -/
theorem round6_shift {m : ℕ} (hm : 0 < m) (k : ℤ) (s : ℕ) : round6 (m * 10 ^ s) (k - s) = round6 m k := by
  have hlen : (Nat.digits 10 (m * 10 ^ s)).length = (Nat.digits 10 m).length + s := by
    rw [mul_comm, Nat.digits_base_pow_mul (by norm_num) hm]
    simp [add_comm]
  have h1 : m < 10 ^ (Nat.digits 10 m).length := Nat.lt_base_pow_length_digits (by norm_num)
  unfold round6
  rw [hlen]
  generalize (Nat.digits 10 m).length = n at *
  have hs : 0 < 10 ^ s := by positivity
  by_cases h : n + s ≤ 6
  · have hn : n ≤ 6 := by omega
    simp only [h, hn, if_true]
    rw [show 6 - n = s + (6 - (n + s)) by omega, pow_add]
    congr 1
    · ring
    · push_cast; ring
  · by_cases hn : n ≤ 6
    · simp only [h, hn, if_true, if_false]
      obtain ⟨t, ht⟩ : ∃ t, s = (6 - n) + t := ⟨s - (6 - n), by omega⟩
      have e1 : n + s - 6 = t := by omega
      have hb : 0 < 10 ^ t := by positivity
      have e2 : m * 10 ^ s = m * 10 ^ (6 - n) * 10 ^ t := by rw [ht, pow_add, mul_assoc]
      have e6 : 10 ^ n * 10 ^ (6 - n) = 1000000 := by rw [← pow_add, show n + (6 - n) = 6 by omega]; norm_num
      have hp : 0 < 10 ^ (6 - n) := by positivity
      have hne : m * 10 ^ (6 - n) ≠ 1000000 := by nlinarith
      have c : ¬ (10 ^ t < 2 * 0 ∨ 10 ^ t = 2 * 0 ∧ m * 10 ^ (6 - n) % 2 = 1) := by omega
      rw [e1, e2, Nat.mul_div_cancel _ hb, Nat.mul_mod_left, if_neg c, Nat.add_zero, if_neg hne]
      congr 1
      push_cast
      ring
    · simp only [h, hn, if_false]
      have e1 : 10 ^ (n + s - 6) = 10 ^ (n - 6) * 10 ^ s := by rw [← pow_add]; congr 1; omega
      have e2 : k - (s : ℤ) + ((n + s : ℕ) : ℤ) = k + n := by push_cast; ring
      rw [e1, e2, Nat.mul_div_mul_right _ _ hs, Nat.mul_mod_mul_right]
      have c1 : 10 ^ (n - 6) * 10 ^ s < 2 * (m % 10 ^ (n - 6) * 10 ^ s) ↔ 10 ^ (n - 6) < 2 * (m % 10 ^ (n - 6)) := by
        rw [← mul_assoc]; exact Nat.mul_lt_mul_right hs
      have c2 : 10 ^ (n - 6) * 10 ^ s = 2 * (m % 10 ^ (n - 6) * 10 ^ s) ↔ 10 ^ (n - 6) = 2 * (m % 10 ^ (n - 6)) := by
        rw [← mul_assoc]; exact Nat.mul_left_inj hs.ne'
      simp only [c1, c2]

theorem round6_six {q : ℕ} (h1 : 100000 ≤ q) (h2 : q < 1000000) (e : ℤ) : round6 q (e - 5) = (q, e) := by
  have hlen : (Nat.digits 10 q).length = 6 := by
    apply le_antisymm
    · exact (Nat.digits_length_le_iff (by norm_num) q).2 (by norm_num; exact h2)
    · by_contra h
      have := (Nat.digits_length_le_iff (b := 10) (k := 5) (by norm_num) q).1 (by omega)
      omega
  unfold round6
  rw [hlen]
  simp
  ring

/-! ## Reading what is printed -/

theorem strip_value (a b : List ℕ) (E : ℤ) :
    (ofDigits (a ++ stripZeros b) : ℚ) * 10 ^ (E - (stripZeros b).length) = ofDigits (a ++ b) * 10 ^ (E - b.length) := by
  obtain ⟨h1, h2⟩ := stripZeros_value b
  obtain ⟨t, ht⟩ : ∃ t, b.length = (stripZeros b).length + t := ⟨_, (Nat.add_sub_cancel' h1).symm⟩
  rw [ofDigits_append, ofDigits_append, h2, ht, Nat.add_sub_cancel_left]
  rw [show E - ((stripZeros b).length : ℤ) = (E - (((stripZeros b).length + t : ℕ) : ℤ)) + t by push_cast; ring, zpow_split]
  push_cast
  ring

theorem positive_shape {m : ℕ} (hm : 0 < m) (k : ℤ) : ∃ (d : ℕ) (a b : List ℕ) (x : Text), (∀ y ∈ d :: a, y < 10) ∧ (∀ y ∈ b, y < 10) ∧
    (x = [] ∨ ∃ e, x = exponentText e) ∧ positiveText m k = pointText (d :: a) b ++ x := by
  obtain ⟨_, h2, -⟩ := round6_spec hm k
  have hs := sixDigits_lt h2
  unfold positiveText
  generalize (round6 m k).1 = q at *
  generalize (round6 m k).2 = e
  unfold sixText
  split
  · refine ⟨_, _, _, _, ?_, ?_, .inr ⟨_, rfl⟩, rfl⟩
    · exact fun y hy => hs y (List.mem_of_mem_take (i := 1) hy)
    · exact fun y hy => hs y (List.mem_of_mem_drop (stripZeros_mem hy))
  · split
    · refine ⟨0, [], _, [], by simp, fun y hy => ?_, .inl rfl, (List.append_nil _).symm⟩
      rcases List.mem_append.1 (stripZeros_mem hy) with h | h
      · rw [List.eq_of_mem_replicate h]; norm_num
      · exact hs y h
    · refine ⟨_, _, _, [], ?_, ?_, .inl rfl, (List.append_nil _).symm⟩
      · exact fun y hy => hs y (List.mem_of_mem_take (i := e.toNat + 1) hy)
      · exact fun y hy => hs y (List.mem_of_mem_drop (stripZeros_mem hy))

theorem read_positive {m : ℕ} (hm : 0 < m) (k : ℤ) : ∃ m' k', unsigned (positiveText m k) = some (m', k') ∧
    (m' : ℚ) * 10 ^ k' = (round6 m k).1 * 10 ^ ((round6 m k).2 - 5) := by
  obtain ⟨_, h2, -⟩ := round6_spec hm k
  have hs := sixDigits_lt h2
  unfold positiveText
  have hv : ofDigits (sixDigits (round6 m k).1) = (round6 m k).1 := sixDigits_value
  generalize (round6 m k).1 = q at *
  generalize (round6 m k).2 = e
  unfold sixText
  have hl : (sixDigits q).length = 6 := rfl
  split
  · refine ⟨_, _, unsigned_scientific (by simp [sixDigits]) (fun y hy => hs y (List.mem_of_mem_take hy)) (fun y hy => hs y (List.mem_of_mem_drop (stripZeros_mem hy))) e, ?_⟩
    rw [strip_value, List.take_append_drop, hv, List.length_drop, hl]
    norm_num
  · split
    · refine ⟨_, _, unsigned_point (by simp) (by simp) (fun y hy => ?_), ?_⟩
      · rcases List.mem_append.1 (stripZeros_mem hy) with h | h
        · rw [List.eq_of_mem_replicate h]; norm_num
        · exact hs y h
      · have h := strip_value [0] (List.replicate (-e - 1).toNat 0 ++ sixDigits q) 0
        rw [zero_sub] at h
        have hz : ∀ n, ofDigits (List.replicate n 0) = 0 := by
          intro n
          induction n with
          | zero => rfl
          | succ n ih => rw [List.replicate_succ, ofDigits_cons, ih]; simp
        rw [h, ofDigits_append, ofDigits_append, hz, hv, List.length_append, List.length_replicate, hl]
        have e1 : ofDigits [0] = 0 := rfl
        rw [e1]
        congr 1
        · norm_num
        · congr 1; omega
    · refine ⟨_, _, unsigned_point (by simp [sixDigits]) (fun y hy => hs y (List.mem_of_mem_take hy)) (fun y hy => hs y (List.mem_of_mem_drop (stripZeros_mem hy))), ?_⟩
      have h := strip_value ((sixDigits q).take (e.toNat + 1)) ((sixDigits q).drop (e.toNat + 1)) 0
      rw [zero_sub] at h
      rw [h, List.take_append_drop, hv, List.length_drop, hl]
      congr 2
      omega

/-! ## Texts -/

theorem strip_self {t : Text} (h : ∀ c ∈ t, c.isWhitespace = false) : strip t = t := by
  have hd : ∀ {l : Text}, (∀ c ∈ l, c.isWhitespace = false) → l.dropWhile Char.isWhitespace = l := by
    intro l hl
    cases l with
    | nil => rfl
    | cons c l => rw [List.dropWhile_cons, hl c (by simp)]; simp
  rw [strip, hd h, hd (fun c hc => h c (List.mem_reverse.1 hc)), List.reverse_reverse]

theorem digit_cases {d : ℕ} (h : d < 10) {P : Char → Prop} (hp : P '0' ∧ P '1' ∧ P '2' ∧ P '3' ∧ P '4' ∧ P '5' ∧ P '6' ∧ P '7' ∧ P '8' ∧ P '9') : P (Char.ofNat (48 + d)) := by
  obtain ⟨p0, p1, p2, p3, p4, p5, p6, p7, p8, p9⟩ := hp
  interval_cases d <;> assumption

theorem signed_digit {d : ℕ} (h : d < 10) (t : Text) : signed (Char.ofNat (48 + d) :: t) = (false, Char.ofNat (48 + d) :: t) :=
  digit_cases (P := fun c => signed (c :: t) = (false, c :: t)) h (by refine ⟨?_, ?_, ?_, ?_, ?_, ?_, ?_, ?_, ?_, ?_⟩ <;> rfl)

theorem lower_digit {d : ℕ} (h : d < 10) : (Char.ofNat (48 + d)).toLower ≠ 'i' ∧ (Char.ofNat (48 + d)).toLower ≠ 'n' :=
  digit_cases (P := fun c => c.toLower ≠ 'i' ∧ c.toLower ≠ 'n') h (by decide)

theorem space_digit {c : Char} (h : 48 ≤ c.toNat ∧ c.toNat ≤ 57) : c.isWhitespace = false := by
  have hc : c = Char.ofNat (48 + (c.toNat - 48)) := by
    rw [show 48 + (c.toNat - 48) = c.toNat by omega]; exact c.ofNat_toNat.symm
  rw [hc]
  exact digit_cases (P := fun c => c.isWhitespace = false) (by omega) (by decide)

theorem exponentText_space (e : ℤ) : ∀ c ∈ exponentText e, c.isWhitespace = false := by
  intro c hc
  rw [exponentText, List.mem_cons, List.mem_cons] at hc
  rcases hc with h | h | h
  · subst h; rfl
  · subst h; split <;> rfl
  · refine space_digit (digitText_mem ?_ h)
    split
    · intro d hd
      simp only [List.mem_cons, List.not_mem_nil, or_false] at hd
      omega
    · exact fun d hd => Nat.digits_lt_base (by norm_num) (List.mem_reverse.1 hd)

theorem pointText_space {a b : List ℕ} (ha : ∀ d ∈ a, d < 10) (hb : ∀ d ∈ b, d < 10) : ∀ c ∈ pointText a b, c.isWhitespace = false := by
  intro c hc
  rcases pointText_mem ha hb hc with h | h
  · subst h; rfl
  · exact space_digit h

/-- Reading a number that starts with a digit, with or without a sign before it. -/
theorem pyFloat_digit {d : ℕ} (hd : d < 10) {t : Text} (ht : ∀ c ∈ t, c.isWhitespace = false) (neg : Bool) :
    pyFloat ((if neg then ['-'] else []) ++ Char.ofNat (48 + d) :: t) = (unsigned (Char.ofNat (48 + d) :: t)).map fun p => .num ⟨neg, p.1, p.2⟩ := by
  have hsp : ∀ c ∈ Char.ofNat (48 + d) :: t, c.isWhitespace = false := by
    intro c hc
    rcases List.mem_cons.1 hc with h | h
    · rw [h]; exact digit_cases (P := fun c => c.isWhitespace = false) hd (by decide)
    · exact ht c h
  have hsp' : ∀ c ∈ (if neg then ['-'] else []) ++ Char.ofNat (48 + d) :: t, c.isWhitespace = false := by
    intro c hc
    rcases List.mem_append.1 hc with h | h
    · cases neg
      · simp at h
      · simp at h; rw [h]; rfl
    · exact hsp c h
  have hsig : signed ((if neg then ['-'] else []) ++ Char.ofNat (48 + d) :: t) = (neg, Char.ofNat (48 + d) :: t) := by
    cases neg
    · exact signed_digit hd t
    · rfl
  obtain ⟨hi, hn⟩ := lower_digit hd
  have n1 : ¬ ((Char.ofNat (48 + d) :: t).map Char.toLower = "inf".toList ∨ (Char.ofNat (48 + d) :: t).map Char.toLower = "infinity".toList) := by
    rintro (h | h) <;> exact hi (List.cons.inj h).1
  have n2 : (Char.ofNat (48 + d) :: t).map Char.toLower ≠ "nan".toList := fun h => hn (List.cons.inj h).1
  rw [pyFloat, strip_self hsp', hsig]
  simp only [n1, n2, if_false]

/-! ## Texts that are not numbers -/

/-- A character that is in no number. -/
def NotInNumber (c : Char) : Prop :=
  charDigit c = none ∧ c ≠ '_' ∧ c ≠ '.' ∧ c ≠ 'e' ∧ c ≠ 'E' ∧ c ≠ '+' ∧ c ≠ '-' ∧ c.isWhitespace = false ∧ c.toLower ∉ "infinity".toList ∧ c.toLower ∉ "nan".toList

theorem digitPart_chars : ∀ {t : Text} {ds : List ℕ}, digitPart t = some ds → ∀ c ∈ t, charDigit c ≠ none ∨ c = '_'
  | [], _, _ => by simp
  | [c], ds, h => by
    intro x hx
    rw [List.mem_singleton] at hx
    subst hx
    left; intro e
    simp [digitPart, e] at h
  | c :: c' :: cs, ds, h => by
    by_cases hc : c' = '_'
    · subst hc
      rw [digitPart] at h
      cases h1 : charDigit c with
      | none => simp [h1] at h
      | some d =>
        cases h2 : digitPart cs with
        | none => simp [h1, h2] at h
        | some ds' =>
          intro x hx
          rcases List.mem_cons.1 hx with h | h
          · subst h; left; simp [h1]
          · rcases List.mem_cons.1 h with h | h
            · exact .inr h
            · exact digitPart_chars h2 x h
    · rw [digitPart_cons (by simp) (by simpa using hc)] at h
      cases h1 : charDigit c with
      | none => simp [h1] at h
      | some d =>
        cases h2 : digitPart (c' :: cs) with
        | none => simp [h1, h2] at h
        | some ds' =>
          intro x hx
          rcases List.mem_cons.1 hx with h | h
          · subst h; left; simp [h1]
          · exact digitPart_chars h2 x h

theorem digitPart?_chars {t : Text} {ds : List ℕ} (h : digitPart? t = some ds) : ∀ c ∈ t, charDigit c ≠ none ∨ c = '_' := by
  cases t with
  | nil => simp
  | cons c t => exact digitPart_chars h

theorem cut_mem {p : Char → Bool} : ∀ {t : Text} {c : Char}, c ∈ t → p c = false → c ∈ (cut p t).1 ∨ ∃ b, (cut p t).2 = some b ∧ c ∈ b
  | [], _, h, _ => by simp at h
  | x :: t, c, h, hc => by
    rw [cut]
    rcases List.mem_cons.1 h with h | h
    · subst h; left; simp [hc]
    · split
      · exact .inr ⟨t, rfl, h⟩
      · rcases cut_mem h hc with h | h
        · left; simp [h]
        · exact .inr h

theorem signed_mem {t : Text} {c : Char} (h : c ∈ t) (h1 : c ≠ '+') (h2 : c ≠ '-') : c ∈ (signed t).2 := by
  unfold signed
  split
  · simpa [h2] using h
  · simpa [h1] using h
  · exact h

theorem dropWhile_mem {p : Char → Bool} : ∀ {t : Text} {c : Char}, c ∈ t → p c = false → c ∈ t.dropWhile p
  | x :: t, c, h, hc => by
    rw [List.dropWhile_cons]
    split
    · rename_i hx
      rcases List.mem_cons.1 h with h | h
      · subst h; simp [hc] at hx
      · exact dropWhile_mem h hc
    · exact h

theorem strip_mem {t : Text} {c : Char} (h : c ∈ t) (hc : c.isWhitespace = false) : c ∈ strip t := by
  rw [strip, List.mem_reverse]
  exact dropWhile_mem (List.mem_reverse.2 (dropWhile_mem h hc)) hc

theorem unsigned_none {t : Text} {c : Char} (h : c ∈ t) (hc : NotInNumber c) : unsigned t = none := by
  obtain ⟨hd, hu, hp, he, hE, hplus, hminus, -⟩ := hc
  have hx : (c == 'e' || c == 'E') = false := by simp [he, hE]
  have hnot : ¬ (charDigit c ≠ none ∨ c = '_') := by simp [hd, hu]
  rw [unsigned]
  rcases hcut : cut (fun c => c == 'e' || c == 'E') t with ⟨man, expo⟩
  have hmem := cut_mem (p := fun c => c == 'e' || c == 'E') h hx
  rw [hcut] at hmem
  have hman : c ∈ man → ∀ e : ℤ, (match cut (· == '.') man with
      | (a, none) => do return (ofDigits (← digitPart a), e)
      | (a, some b) => do
        let a ← digitPart? a
        let b ← digitPart? b
        if a = [] ∧ b = [] then none else return (ofDigits (a ++ b), e - b.length) : Option (ℕ × ℤ)) = none := by
    intro hm e
    have hm' := cut_mem (p := (· == '.')) hm (by simp [hp])
    rcases hcm : cut (· == '.') man with ⟨a, b⟩
    rw [hcm] at hm'
    cases b with
    | none =>
      have hm' : c ∈ a := by simpa using hm'
      cases ha : digitPart a with
      | none => simp [ha]
      | some ds => exact absurd (digitPart_chars ha c hm') hnot
    | some b =>
      have hm' : c ∈ a ∨ c ∈ b := by simpa using hm'
      cases ha : digitPart? a with
      | none => simp [ha]
      | some ds =>
        cases hb : digitPart? b with
        | none => simp [ha, hb]
        | some ds' =>
          rcases hm' with hm' | hm'
          · exact absurd (digitPart?_chars ha c hm') hnot
          · exact absurd (digitPart?_chars hb c hm') hnot
  cases expo with
  | none =>
    have hm : c ∈ man := by simpa using hmem
    exact hman hm 0
  | some x =>
    have hmem : c ∈ man ∨ c ∈ x := by simpa using hmem
    simp only
    cases hexp : exponent x with
    | none => rfl
    | some e =>
      rcases hmem with hm | hm
      · exact hman hm e
      · exfalso
        rw [exponent] at hexp
        cases hds : digitPart (signed x).2 with
        | none => rw [hds] at hexp; cases hexp
        | some ds => exact hnot (digitPart_chars hds c (signed_mem hm hplus hminus))

/-- A text with a character that is in no number is not read as a number. -/
theorem pyFloat_none {t : Text} {c : Char} (h : c ∈ t) (hc : NotInNumber c) : pyFloat t = none := by
  obtain ⟨hd, hu, hp, he, hE, hplus, hminus, hsp, hinf, hnan⟩ := id hc
  have hm : c ∈ (signed (strip t)).2 := signed_mem (strip_mem h hsp) hplus hminus
  have hml : c.toLower ∈ (signed (strip t)).2.map Char.toLower := List.mem_map.2 ⟨c, hm, rfl⟩
  rw [pyFloat]
  rcases hs : signed (strip t) with ⟨neg, u⟩
  rw [hs] at hm hml
  have n1 : ¬ (u.map Char.toLower = "inf".toList ∨ u.map Char.toLower = "infinity".toList) := by
    rintro (e | e)
    · rw [e] at hml; exact hinf (List.mem_of_mem_take (i := 3) hml)
    · rw [e] at hml; exact hinf hml
  have n2 : u.map Char.toLower ≠ "nan".toList := fun e => by rw [e] at hml; exact hnan hml
  simp only [n1, n2, if_false, unsigned_none hm hc, Option.map_none]

end Verif.Number
