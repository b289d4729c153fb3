import Verif.Model.LibraryDefaults
import Verif.Model.ArrCategorical

/-! # All the distributions of the library, with those of vectors and categories -/

namespace Verif.Library
open Verif ArrGraph

/-- The distributions that have an implementation of `_logprob` in logprob.py: those of numbers, and the four others (logprob.py:528-649). -/
inductive VLib
  | num (d : Lib)
  | mvnormal
  | dirichlet
  | multinomial
  | categorical

/-- The log-probability of an array (logprob.py:88-96 `_logprob`, dispatched on the distribution).  `chol` is the Cholesky decomposition, as in C37. -/
noncomputable def VLib.kernel (chol : (n : ℕ) → Matrix (Fin n) (Fin n) ℝ → Option (Matrix (Fin n) (Fin n) ℝ)) : VLib → Arr FVal → List (Arr FVal) → Except Err (Arr FVal)
  | .num d => elemwiseLogprob d.logprob
  | .mvnormal => mvnormalArr chol
  | .dirichlet => dirichletArr
  | .multinomial => multinomialArr
  | .categorical => categoricalKernel

/-- The default transforms (transforms.py:51-63, 883-964): the simplex transform for Dirichlet vectors, none for the other distributions of vectors and categories. -/
noncomputable def VLib.default : VLib → Option ATransform
  | .num d => d.defaultArr
  | .dirichlet => some simplexArr
  | _ => none

end Verif.Library
