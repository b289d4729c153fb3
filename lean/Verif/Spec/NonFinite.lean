import Verif.Model.Dists

/-! # Values that are not finite numbers -/

namespace Verif
open FVal

/-- The log-density is `-inf` at both infinities. -/
def VanishesAtInf (lp : FVal → Except Err FVal) : Prop := lp pinf = .ok ninf ∧ lp ninf = .ok ninf

/-- The log-CDF is `-inf` at minus infinity and zero at plus infinity. -/
def CdfAtInf (lc : FVal → Except Err FVal) : Prop := lc ninf = .ok ninf ∧ lc pinf = .ok (fin 0)

/-- NaN in, NaN or `-inf` out: never taken for a possible value. -/
def RejectsNan (lp : FVal → Except Err FVal) : Prop := lp nan = .ok nan ∨ lp nan = .ok ninf

end Verif
