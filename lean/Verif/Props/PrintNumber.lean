import Verif.Lemmas.PrintNumber

/-! # C143: parameters in printed definitions -/

namespace Verif.Number
open Verif

/-- What is printed for a number is read back as a number of the same sign, and no number with up to six significant digits is nearer to the one printed. -/
theorem C143_nearest (d : Dec) : ∃ d', pyFloat (showFloat (.num d)) = some (.num d') ∧ d'.neg = d.neg ∧ SixDigits d'.value ∧
    ∀ y, SixDigits y → |d'.value - d.value| ≤ |y - d.value| := by
  by_cases hm : d.m = 0
  · refine ⟨⟨d.neg, 0, 0⟩, ?_, rfl, ⟨0, 0, by norm_num, by simp [Dec.value]⟩, fun y _ => ?_⟩
    · have h := pyFloat_digit (d := 0) (by norm_num) (t := []) (by simp) d.neg
      have e : showFloat (.num d) = (if d.neg then ['-'] else []) ++ Char.ofNat (48 + 0) :: [] := by simp [showFloat, hm]
      rw [e, h]
      rfl
    · simp [Dec.value, hm]
  · have hpos : 0 < d.m := Nat.pos_of_ne_zero hm
    obtain ⟨x, a, b, t, ha, hb, ht, htext⟩ := positive_shape hpos d.k
    obtain ⟨m', k', hread, hval⟩ := read_positive hpos d.k
    obtain ⟨h1, h2, j, Q, hQ, hj, hnear⟩ := round6_spec hpos d.k
    refine ⟨⟨d.neg, m', k'⟩, ?_, rfl, ?_, ?_⟩
    · have e : showFloat (.num d) = (if d.neg then ['-'] else []) ++ positiveText d.m d.k := by simp [showFloat, hm]
      rw [e]
      have ep : pointText (x :: a) b ++ t = Char.ofNat (48 + x) :: (digitText a ++ (if b = [] then [] else '.' :: digitText b) ++ t) := by simp [pointText, digitText]
      have hsp : ∀ c ∈ digitText a ++ (if b = [] then [] else '.' :: digitText b) ++ t, c.isWhitespace = false := by
        intro c hc
        rcases List.mem_append.1 hc with h | h
        · exact pointText_space (a := a) (fun y hy => ha y (List.mem_cons_of_mem _ hy)) hb c h
        · rcases ht with rfl | ⟨e, rfl⟩
          · simp at h
          · exact exponentText_space e c h
      rw [htext, ep, pyFloat_digit (ha x (by simp)) hsp, ← ep, ← htext, hread]
      rfl
    · refine ⟨(if d.neg then -1 else 1) * (round6 d.m d.k).1, (round6 d.m d.k).2 - 5, ?_, ?_⟩
      · cases d.neg <;> simp <;> omega
      · rw [Dec.value, hval]
        cases d.neg <;> simp
    · rintro y ⟨A, i, hA, rfl⟩
      -- the same with positive numbers
      have key : ∀ A : ℤ, |A| < 1000000 → |(m' : ℚ) * 10 ^ k' - d.m * 10 ^ d.k| ≤ |(A : ℚ) * 10 ^ i - d.m * 10 ^ d.k| := by
        intro A hA
        rw [hval, hQ]
        rcases le_or_gt j i with hij | hij
        · obtain ⟨s, hs⟩ : ∃ s : ℕ, i = j + s := ⟨(i - j).toNat, by omega⟩
          have h := hnear (A * 10 ^ s)
          rw [hs, zpow_split]
          push_cast at h
          rw [← mul_assoc]
          exact h
        · obtain ⟨s, hs⟩ : ∃ s : ℕ, j = i + 1 + s := ⟨(j - i - 1).toNat, by omega⟩
          have h := hnear 100000
          have hi : (0 : ℚ) < 10 ^ i := by positivity
          have hAq : (A : ℚ) ≤ 1000000 := by
            have := (abs_lt.1 hA).2
            exact_mod_cast this.le
          have hsp : (1 : ℚ) ≤ 10 ^ s := one_le_pow₀ (by norm_num)
          have hji : (10 : ℚ) ^ i * 10 ≤ 10 ^ j := by
            rw [hs, zpow_split, show i + 1 = i + (1 : ℕ) by simp, zpow_split]
            nlinarith
          have hle : (A : ℚ) * 10 ^ i ≤ 100000 * 10 ^ j := by nlinarith
          push_cast at h
          refine h.trans ?_
          rw [abs_of_nonpos (by linarith), abs_of_nonpos (by linarith)]
          linarith
      cases hneg : d.neg with
      | false =>
        have := key A hA
        simpa [Dec.value, hneg] using this
      | true =>
        have h := key (-A) (by rwa [abs_neg])
        have e1 : |(Dec.value ⟨true, m', k'⟩) - d.value| = |(m' : ℚ) * 10 ^ k' - d.m * 10 ^ d.k| := by
          rw [← abs_neg]; congr 1; simp [Dec.value, hneg]; ring
        have e2 : |(A : ℚ) * 10 ^ i - d.value| = |((-A : ℤ) : ℚ) * 10 ^ i - d.m * 10 ^ d.k| := by
          rw [← abs_neg]; congr 1; simp [Dec.value, hneg]; ring
        rw [e1, e2]; exact h

/-- A number with up to six significant digits is printed as it is. -/
theorem C143_exact {d : Dec} (h : SixDigits d.value) : ∃ d', pyFloat (showFloat (.num d)) = some (.num d') ∧ d'.value = d.value := by
  obtain ⟨d', h1, -, -, h2⟩ := C143_nearest d
  have := h2 _ h
  rw [sub_self, abs_zero] at this
  exact ⟨d', h1, sub_eq_zero.1 (abs_nonpos_iff.1 this)⟩

-- 2.50 is read back as 2.5.
example : ∃ d', pyFloat (showFloat (.num ⟨false, 250, -2⟩)) = some (.num d') ∧ d'.value = (⟨false, 250, -2⟩ : Dec).value :=
  C143_exact ⟨250, -2, by norm_num, by simp [Dec.value]⟩

/-- A number is printed exactly only if it has up to six significant digits. -/
theorem C143_exact_iff (d : Dec) : (∃ d', pyFloat (showFloat (.num d)) = some (.num d') ∧ d'.value = d.value) ↔ SixDigits d.value := by
  refine ⟨?_, C143_exact⟩
  rintro ⟨d', h, hv⟩
  obtain ⟨d'', h', -, h6, -⟩ := C143_nearest d
  rw [h] at h'
  obtain rfl : d' = d'' := by simpa using h'
  rwa [← hv]

/-- The text of a parameter: a text that is not a number is kept, and one that is a number is printed as the nearest one of six digits.  The standard deviation of a normal variable is never rounded, and gets its
square. -/
theorem C143_param_partial (normal latex : Bool) (idx : ℕ) (s : Text) :
    (normal = true → idx = 1 → paramText normal latex idx s = if latex then '{' :: s ++ "}^{2}".toList else s ++ "**2".toList) ∧
    (normal = false ∨ idx ≠ 1 → pyFloat s = none → paramText normal latex idx s = s) ∧
    (normal = false ∨ idx ≠ 1 → ∀ d, pyFloat s = some (.num d) → ∃ d', pyFloat (paramText normal latex idx s) = some (.num d') ∧ d'.neg = d.neg ∧ SixDigits d'.value ∧
      ∀ y, SixDigits y → |d'.value - d.value| ≤ |y - d.value|) := by
  have hplain : normal = false ∨ idx ≠ 1 → processParam normal latex idx s = s := by
    intro h
    rw [processParam, if_neg]
    rintro ⟨h1, h2⟩
    rcases h with h | h
    · rw [h] at h1; cases h1
    · exact h h2
  refine ⟨?_, ?_, ?_⟩
  · rintro rfl rfl
    have e : processParam true latex 1 s = if latex then '{' :: s ++ "}^{2}".toList else s ++ "**2".toList := by
      rw [processParam, if_pos ⟨rfl, rfl⟩]; rfl
    have hn : pyFloat (processParam true latex 1 s) = none := by
      rw [e]
      cases latex
      · exact pyFloat_none (c := '*') (by simp) (by unfold NotInNumber; decide)
      · exact pyFloat_none (c := '{') (by simp) (by unfold NotInNumber; decide)
    rw [paramText]
    simp only [hn]
    exact e
  · intro h hs
    rw [paramText]
    simp only [hplain h, hs]
  · intro h d hs
    rw [paramText]
    simp only [hplain h, hs]
    exact C143_nearest d

/-- Infinite parameters and NaN are printed as such, with their signs: the texts `inf`, `-inf` and `nan` are read as these, and other ways to write them (`Infinity`, `+INF`) are printed as one of these three texts. -/
theorem C143_special (normal latex : Bool) (idx : ℕ) (s : Text) (hplain : normal = false ∨ idx ≠ 1) :
    (∀ neg, pyFloat ((if neg then ['-'] else []) ++ "inf".toList) = some (.inf neg)) ∧ pyFloat "nan".toList = some .nan ∧
    (∀ neg, pyFloat s = some (.inf neg) → paramText normal latex idx s = (if neg then ['-'] else []) ++ "inf".toList) ∧ (pyFloat s = some .nan → paramText normal latex idx s = "nan".toList) := by
  have hp : processParam normal latex idx s = s := by
    rw [processParam, if_neg]
    rintro ⟨h1, h2⟩
    rcases hplain with h | h
    · rw [h] at h1; cases h1
    · exact h h2
  refine ⟨by decide, by decide, fun neg h => ?_, fun h => ?_⟩
  · rw [paramText]
    simp only [hp, h]
    rfl
  · rw [paramText]
    simp only [hp, h]
    rfl

example : paramText false false 0 "-Infinity".toList = "-inf".toList := (C143_special false false 0 "-Infinity".toList (.inl rfl)).2.2.1 true (by decide)

-- The scale of a Laplace variable, given as 0.10000001, is printed as 0.1; the name sigma is kept.
example : pyFloat "0.10000001".toList = some (.num ⟨false, 10000001, -8⟩) ∧ paramText false false 1 "0.10000001".toList = "0.1".toList := by decide
example : paramText true false 1 "sigma".toList = "sigma**2".toList := (C143_param_partial true false 1 "sigma".toList).1 rfl rfl
example : pyFloat "sigma".toList = none := by decide

/-- **Finding.**  Different numbers are printed alike: the number of trials 1234567 of a binomial variable is printed as 1.23457e+06, as are 1234565 and 1234574. -/
theorem C143_digits_wrong (latex : Bool) : paramText false latex 0 "1234567".toList = "1.23457e+06".toList ∧ paramText false latex 0 "1234574".toList = "1.23457e+06".toList ∧
    pyFloat "1234567".toList = some (.num ⟨false, 1234567, 0⟩) ∧ pyFloat "1234574".toList = some (.num ⟨false, 1234574, 0⟩) ∧ ¬ SixDigits (1234567 : ℚ) := by
  refine ⟨by cases latex <;> decide, by cases latex <;> decide, by decide, by decide, ?_⟩
  rintro ⟨a, j, ha, h⟩
  rcases le_or_gt j 0 with hj | hj
  · obtain ⟨s, hs⟩ : ∃ s : ℕ, j = -(s : ℤ) := ⟨(-j).toNat, by omega⟩
    have hp : (1 : ℚ) ≤ 10 ^ s := one_le_pow₀ (by norm_num)
    rw [hs, zpow_neg, zpow_natCast, eq_comm, ← div_eq_mul_inv, div_eq_iff (by positivity)] at h
    have ha' : (a : ℚ) < 1000000 := by exact_mod_cast (abs_lt.1 ha).2
    nlinarith
  · obtain ⟨s, hs⟩ : ∃ s : ℕ, j = ((s + 1 : ℕ) : ℤ) := ⟨(j - 1).toNat, by push_cast; omega⟩
    rw [hs, zpow_natCast] at h
    have h' : (1234567 : ℤ) = a * 10 ^ (s + 1) := by exact_mod_cast h
    rw [pow_succ, ← mul_assoc] at h'
    generalize a * 10 ^ s = b at h'
    omega

/-- **Finding.**  Names that can be read as numbers are replaced by these: a parameter named `1_0` is printed like the number ten, one named `Infinity` as `inf`, and one named `NaN` as `nan`. -/
theorem C143_name_wrong (latex : Bool) : paramText false latex 0 "1_0".toList = "10".toList ∧ paramText false latex 0 "10".toList = "10".toList ∧
    paramText false latex 0 "Infinity".toList = "inf".toList ∧ paramText false latex 0 "NaN".toList = "nan".toList := by
  cases latex <;> decide

end Verif.Number
