import Verif.Model.Library
import Verif.Model.Transforms
import Verif.Model.IRTransform
import Verif.Model.ArrTransform

/-! # The default transforms of the distributions of the library -/

namespace Verif.Library
open Verif

/-- The distributions with a registered default transform (transforms.py:901-964, without the Dirichlet distribution). -/
def Lib.transDist : Lib → Option TransDist
  | .uniform => some .uniform
  | .pareto => some .pareto
  | .triangular => some .triangular
  | .halfnormal => some .halfnormal
  | .wald => some .wald
  | .exponential => some .exponential
  | .lognormal => some .lognormal
  | .halfcauchy => some .halfcauchy
  | .gamma => some .gamma
  | .invgamma => some .invgamma
  | .chisquare => some .chisquare
  | .weibull => some .weibull
  | .beta => some .beta
  | .vonmises => some .vonmises
  | _ => none

/-- The result of a method.  Simplification: NaN in place of an exception; the default transforms do not raise once the node has all its inputs. -/
def okOr : Except Err FVal → FVal
  | .ok x => x
  | .error _ => .nan

/-- The transform that is registered for a distribution, with the parameters of the node in the place of its inputs 3, 4, 5; generator, size and data type come before them (transforms.py:901-964). -/
noncomputable def atParams (d : TransDist) (m : RVTransform → Except Err FVal) (p : List FVal) : FVal :=
  okOr (defaultTransform d (.nan :: .nan :: .nan :: p) >>= m)

/-- transforms.py:51-63 `_default_transformed_rv`, registered in transforms.py:883-890: distributions without a registered transform have none. -/
noncomputable def Lib.default (d : Lib) : Option IR.VTransform :=
  d.transDist.map fun t => {
    forward := fun v p => atParams t (·.forward v) p
    backward := fun v p => atParams t (·.backward v) p
    logJacDet := fun v p => atParams t (·.logJacDet v) p }

/-- The same for arrays of numbers: the transform works on every entry, with the parameters that meet it (transforms.py:51-63, 637-742, 883-964). -/
noncomputable def Lib.defaultArr (d : Lib) : Option ArrGraph.ATransform := d.default.map ArrGraph.entrywise

end Verif.Library
