import Verif.Model.Printing
import Mathlib.Data.Nat.Digits.Defs

/-!
# Numbers among the printed parameters (`/repo/aeppl/printing.py:164-180, 636-647`)

`float(f_param)` is applied to the string of every parameter, and what it gives is printed with the format `2g`.  Strings are lists of characters, numbers are exact decimals (simplification: Python
holds the binary number nearest to the decimal and rounds that, which makes a difference only for numbers that are, up to the precision of the binary number, halfway between two
decimals of six digits, and for numbers outside of the range of these).
-/

namespace Verif.Number
open Verif

/-- The number `m * 10 ^ k`, or its negative. -/
structure Dec where
  neg : Bool
  m : ℕ
  k : ℤ
deriving DecidableEq

/-- What `float` returns. -/
inductive PyFloat
  | num (d : Dec)
  | inf (neg : Bool)
  | nan
deriving DecidableEq

/-! ## `float(s)` (Python) -/

/-- The value of a digit. -/
def charDigit (c : Char) : Option ℕ := if 48 ≤ c.toNat ∧ c.toNat ≤ 57 then some (c.toNat - 48) else none

/-- Digits, with single underscores between them.  Simplification: only ASCII digits (Python reads those of other scripts as well). -/
def digitPart : Text → Option (List ℕ)
  | [] => none
  | [c] => (charDigit c).map fun d => [d]
  | c :: '_' :: cs => do return (← charDigit c) :: (← digitPart cs)
  | c :: c' :: cs => do return (← charDigit c) :: (← digitPart (c' :: cs))

/-- As `digitPart`, or nothing. -/
def digitPart? : Text → Option (List ℕ)
  | [] => some []
  | t => digitPart t

/-- The number with the given decimal digits. -/
def ofDigits (ds : List ℕ) : ℕ := ds.foldl (fun a d => 10 * a + d) 0

/-- The text before the first character with the property `p`, and that after it. -/
def cut (p : Char → Bool) : Text → Text × Option Text
  | [] => ([], none)
  | c :: cs => if p c then ([], some cs) else ((c :: (cut p cs).1), (cut p cs).2)

/-- An optional sign. -/
def signed : Text → Bool × Text
  | '-' :: cs => (true, cs)
  | '+' :: cs => (false, cs)
  | cs => (false, cs)

/-- The exponent of a number. -/
def exponent (t : Text) : Option ℤ := (digitPart (signed t).2).map fun ds => if (signed t).1 then -(ofDigits ds : ℤ) else ofDigits ds

/-- A decimal number without sign. -/
def unsigned (t : Text) : Option (ℕ × ℤ) := do
  let (mantissa, expo) := cut (fun c => c == 'e' || c == 'E') t
  let e ← match expo with
    | none => some 0
    | some x => exponent x
  match cut (· == '.') mantissa with
  | (a, none) => return (ofDigits (← digitPart a), e)
  | (a, some b) =>
    let a ← digitPart? a
    let b ← digitPart? b
    if a = [] ∧ b = [] then none else return (ofDigits (a ++ b), e - b.length)

/-- `s.strip()`.  Simplification: of the white space only blanks, tabs and ends of lines. -/
def strip (s : Text) : Text := ((s.dropWhile Char.isWhitespace).reverse.dropWhile Char.isWhitespace).reverse

/-- `float(s)`; `none` is `ValueError`. -/
def pyFloat (s : Text) : Option PyFloat :=
  let (neg, t) := signed (strip s)
  if t.map Char.toLower = "inf".toList ∨ t.map Char.toLower = "infinity".toList then some (.inf neg)
  else if t.map Char.toLower = "nan".toList then some .nan
  else (unsigned t).map fun p => .num ⟨neg, p.1, p.2⟩

/-! ## The format `2g` (Python) -/

/-- `m * 10 ^ k` for `m > 0` as `q * 10 ^ (e - 5)` with a number `q` of six digits: rounded to the nearest, halves to the even one. -/
def round6 (m : ℕ) (k : ℤ) : ℕ × ℤ :=
  let n := (Nat.digits 10 m).length
  if n ≤ 6 then (m * 10 ^ (6 - n), k + n - 1)
  else
    let b := 10 ^ (n - 6)
    let q := m / b + if b < 2 * (m % b) ∨ b = 2 * (m % b) ∧ m / b % 2 = 1 then 1 else 0
    if q = 1000000 then (100000, k + n) else (q, k + n - 1)

/-- The six digits of a number. -/
def sixDigits (q : ℕ) : List ℕ := [q / 100000, q / 10000 % 10, q / 1000 % 10, q / 100 % 10, q / 10 % 10, q % 10]

/-- Digits without the zeros at the end. -/
def stripZeros : List ℕ → List ℕ
  | [] => []
  | d :: ds => if stripZeros ds = [] ∧ d = 0 then [] else d :: stripZeros ds

/-- Digits as text. -/
def digitText (ds : List ℕ) : Text := ds.map fun d => Char.ofNat (48 + d)

/-- Digits before and after the point, which is left out when there are none after it. -/
def pointText (a b : List ℕ) : Text := digitText a ++ if b = [] then [] else '.' :: digitText b

/-- The exponent: with sign and at least two digits. -/
def exponentText (e : ℤ) : Text :=
  'e' :: (if e < 0 then '-' else '+') :: digitText (if e.natAbs < 10 then [0, e.natAbs] else (Nat.digits 10 e.natAbs).reverse)

/-- The text of `q * 10 ^ (e - 5)` for a number `q` of six digits. -/
def sixText (q : ℕ) (e : ℤ) : Text :=
  if e < -4 ∨ 6 ≤ e then pointText ((sixDigits q).take 1) (stripZeros ((sixDigits q).drop 1)) ++ exponentText e
  else if e < 0 then pointText [0] (stripZeros (List.replicate (-e - 1).toNat 0 ++ sixDigits q))
  else pointText ((sixDigits q).take (e.toNat + 1)) (stripZeros ((sixDigits q).drop (e.toNat + 1)))

/-- `f"{x:g}"` for a positive number. -/
def positiveText (m : ℕ) (k : ℤ) : Text := sixText (round6 m k).1 (round6 m k).2

/-- printing.py:177 `f"{x:2g}".strip()`: the width of two is undone by `strip`. -/
def showFloat : PyFloat → Text
  | .num d => (if d.neg then ['-'] else []) ++ if d.m = 0 then ['0'] else positiveText d.m d.k
  | .inf neg => (if neg then ['-'] else []) ++ "inf".toList
  | .nan => "nan".toList

/-! ## Parameters -/

/-- printing.py:85-100, 636-647 `process_param`: the second parameter of a normal variable gets a square. -/
def processParam (normal latex : Bool) (idx : ℕ) (sform : Text) : Text :=
  if normal = true ∧ idx = 1 then
    if latex then "{".toList ++ sform ++ "}^{2}".toList else sform ++ "**2".toList
  else sform

/-- printing.py:174-180: the string of a parameter in a definition (the `format` of `Defs.Kind.rv`). -/
def paramText (normal latex : Bool) (idx : ℕ) (sform : Text) : Text :=
  let f_param := processParam normal latex idx sform
  match pyFloat f_param with
  | some x => showFloat x
  | none => f_param

end Verif.Number
