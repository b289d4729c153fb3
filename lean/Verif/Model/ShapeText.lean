import Verif.Model.Definitions

/-!
# The text of the shape information (`/repo/aeppl/printing.py:354-417`)
-/

namespace Verif.Defs
open Verif

/-- The types of numbers of a tensor, with their size (`output.dtype`). -/
inductive DType
  | bool
  | int (bits : ℕ)
  | uint (bits : ℕ)
  | float (bits : ℕ)
  | complex (bits : ℕ)
deriving DecidableEq

/-- printing.py:357-364 `sspace_char` (`int_dtypes`, `uint_dtypes` and `float_dtypes` are Aesara's lists of the types with these names; booleans are in none of them). -/
def spaceChar : DType → Char
  | .int _ => 'Z'
  | .uint _ => 'N'
  | .float _ => 'R'
  | _ => '?'

/-- What `ShapeFeature` knows of the length of an axis: a constant, or a variable from which no constant can be read off.  (Aesara's `get_shape` and `get_scalar_constant_value` are not modelled; printing.py:385-386 is for
lengths that are not tensors, which `get_shape` does not return.) -/
inductive Dim
  | known (n : ℕ)
  | unknown
deriving DecidableEq

/-- printing.py:371-402: the text of the `i`th axis.  The exceptions of `get_scalar_constant_value` leave `s_i_out` as `None`; the text of a constant is never empty. -/
def dimText (latex : Bool) (name : Text) (i : ℕ) : Dim → Text
  | .known n => Nat.toDigits 10 n
  | .unknown => if latex then 'N' :: '^' :: '{' :: (name ++ '}' :: '_' :: '{' :: (Nat.toDigits 10 i ++ ['}'])) else 'N' :: '^' :: (name ++ '_' :: Nat.toDigits 10 i)

/-- printing.py:371-404: `shape_dims`, from the `i`th axis on. -/
def dimTexts (latex : Bool) (name : Text) : ℕ → List Dim → List Text
  | _, [] => []
  | i, d :: ds => dimText latex name i d :: dimTexts latex name (i + 1) ds

/-- printing.py:407-415: the shape information after the name and a blank. -/
def spaceText (latex : Bool) (ty : DType) (dims : List Dim) (name : Text) : Text :=
  if latex then "\\in \\mathbb{".toList ++ spaceChar ty :: '}' ::
    (if joinText " \\times ".toList (dimTexts true name 0 dims) = [] then [] else '^' :: '{' :: (joinText " \\times ".toList (dimTexts true name 0 dims) ++ ['}']))
  else "in ".toList ++ spaceChar ty ::
    (if dims = [] then [] else '*' :: '*' :: '(' :: (joinText " x ".toList (dimTexts false name 0 dims) ++ [')']))

end Verif.Defs
