import Verif.Model.ArrGraph
import Verif.Model.RoundArray
import Verif.Model.Cumsum
import Verif.Model.Stack
import Verif.Model.Dimshuffle
import Verif.Spec.Indices

/-! # Models with derived array variables

Random variables that the user built from others with operations aeppl recognises: elementwise functions, clipping, rounding, cumulative sums, indexed
stacks, joins, dimension shuffles and indexing.  A derived variable takes the place of a distribution in `Model/ArrGraph.lean`: its parameters are those of the operation followed by
those of the variables below, which all become inputs of its log-probability graph.  Simplification: the variables below have no values of their own and
are used by this node only (`Model/IR.lean` has graphs with shared sources).
-/

namespace Verif.ArrGraph
open Verif

/-- The elementwise operations made measurable by transforms.py:436-504. -/
inductive LayerOp
  | loc
  | scale
  | exp
  | log
  | reciprocal

/-- An entry of an index: one that does not depend on the graph, or an array of integers computed in the graph (an input of the indexing node). -/
inductive IndexEntry
  | fixed (i : Index)
  | given

/-- A variable derived from random variables with distributions `Di`. -/
inductive Derived (Di : Type)
  | base (d : Di)
  | layer (op : LayerOp) (inner : Derived Di)
  | cumsum (axis : ℤ) (inner : Derived Di)
  | clip (lowerConst upperConst : Bool) (d : Di)
  | mixture (S : List ℕ) (comps : List (Di × ℕ)) (rest : List Index)
  | round (op : RoundOp) (d : Di)
  | join (axis : ℤ) (pieces : List (Di × ℕ × ℕ))
  | dimshuffle (ndim : ℕ) (order : Order) (d : Di)
  | stack (comps : List (Di × ℕ))
  | index (S : List ℕ) (entries : List IndexEntry) (d : Di)

variable {Di : Type}

/-- transforms.py:436-504: the transform of the measurable node, with its parameter taken from the inputs of the node, and the remaining parameters, those of the variable below. -/
def layerTransform : LayerOp → List (Arr FVal) → Except Err (ArrTransform × List (Arr FVal))
  | .loc, a :: p => .ok (.loc a, p)
  | .scale, a :: p => .ok (.scale a, p)
  | .exp, p => .ok (.exp, p)
  | .log, p => .ok (.log, p)
  | .reciprocal, p => .ok (.reciprocal, p)
  | _, [] => .error .valueError

/-- A number used as an index.  Simplification: indices are whole numbers (others would be a `TypeError`). -/
noncomputable def toIndex (x : FVal) : ℤ := ⌊toReal x⌋

/-- mixture.py:386-393: log-probabilities of the chosen entries of a component with elementwise formula `k` and parameters `params`; the leading zero of a coordinate belongs to the axis
added by the stack, and each entry is drawn with the parameters that meet it (`rv_pull_down`). -/
def componentLogprob (k : FVal → List FVal → Except Err FVal) (params : List (Arr FVal)) (positions : List (List ℕ)) (values : List FVal) : Except Err (List FVal) :=
  (positions.zip values).mapM fun pv => k pv.2 (params.map fun a => entryAt a pv.1.tail)

/-- mixture.py:281-292, 361-377: the components of a stack of arrays of shape `S`, with their numbers of parameters; `elem` are the elementwise formulas of logprob.py. -/
def mixtureComponents (elem : Di → FVal → List FVal → Except Err FVal) (S : List ℕ) : List (Di × ℕ) → List (Arr FVal) → List MixComp
  | [], _ => []
  | (d, n) :: comps, p => ⟨1 :: S, componentLogprob (elem d) (p.take n)⟩ :: mixtureComponents elem S comps (p.drop n)

/-- tensor.py:45-77, the base variables of a join: distribution, number of parameters, and length along the axis.  tensor.py:100-104 `find_measurable_stacks` takes any measurable variables;
simplification: here they are random variables. -/
def joinPieces (kernel : Di → Arr FVal → List (Arr FVal) → Except Err (Arr FVal)) : List (Di × ℕ × ℕ) → List (Arr FVal) → List (ℕ × (Arr FVal → Except Err (Arr FVal)))
  | [], _ => []
  | (d, n, len) :: pieces, p => (len, fun x => kernel d x (p.take n)) :: joinPieces kernel pieces (p.drop n)

/-- `value[i]` for every `i`: the numbers of a vector. -/
def vectorItems (v : Arr FVal) : List (Arr FVal) := (List.range (v.size 0)).map fun i => ⟨v.shape.tail, fun c => v.get (i :: c)⟩

/-- `at.stack` (external) of scalars. -/
def stackScalars (l : List (Arr FVal)) : Arr FVal := ⟨[l.length], fun c => match l[c.getD 0 0]? with | some x => x.get [] | none => .nan⟩

/-- tensor.py:26-33 `logprob_make_vector`, with the log-probabilities of the base variables. -/
def stackLogprob (lps : List (Arr FVal → Except Err (Arr FVal))) (v : Arr FVal) : Except Err (Arr FVal) :=
  match makeVectorLogprob 0 (vectorItems v) lps with
  | .error e => .error e
  | .ok l => .ok (stackScalars l)

/-- The base variables of a stack: distribution and number of parameters.  Simplification: as for joins. -/
def stackComps (kernel : Di → Arr FVal → List (Arr FVal) → Except Err (Arr FVal)) : List (Di × ℕ) → List (Arr FVal) → List (Arr FVal → Except Err (Arr FVal))
  | [], _ => []
  | (d, n) :: comps, p => (fun x => kernel d x (p.take n)) :: stackComps kernel comps (p.drop n)

/-- The index with the arrays among the inputs of the indexing node put in their places, and the remaining inputs. -/
noncomputable def fillIndices : List IndexEntry → List (Arr FVal) → Except Err (List Index × List (Arr FVal))
  | [], p => .ok ([], p)
  | .fixed i :: es, p =>
    match fillIndices es p with
    | .error e => .error e
    | .ok r => .ok (i :: r.1, r.2)
  | .given :: es, a :: p =>
    match fillIndices es p with
    | .error e => .error e
    | .ok r => .ok (.adv (a.map toIndex) :: r.1, r.2)
  | .given :: _, [] => .error .valueError

/-- rewriting.py:179 `local_subtensor_rv_lift` (external, also in mixture.py:166-178 `rv_pull_down`): the parameters of the variable that `rv[idx]` is replaced by.  It is a variable of the same distribution in
which every entry has the parameters of the element of `rv` at the coordinates `R` that it selects.  Simplification: all parameters are broadcast to the result (Aesara leaves axes that a parameter does not
have to the size). -/
def liftParams (R : Arr (List ℕ)) (p : List (Arr FVal)) : List (Arr FVal) := p.map fun a => ⟨R.shape, fun c => entryAt a (R.get c)⟩

/-- The log-probability of `rv[idx]`, for a variable `rv` of shape `S` whose draws are numbers (others are not lifted): `logprob` of the variable it is replaced by.  Simplification: an index that is out of range
raises (Aesara does not notice it if no parameter has the axis). -/
noncomputable def indexLogprob (S : List ℕ) (lp : Arr FVal → List (Arr FVal) → Except Err (Arr FVal)) (idx : List Index) (v : Arr FVal) (p : List (Arr FVal)) : Except Err (Arr FVal) :=
  match npSelect idx S with
  | .error e => .error e
  | .ok R => lp v (liftParams R p)

/-- Log-probabilities of derived variables.  `kernel` and `cdf` are `_logprob` and `_logcdf` of the distributions (logprob.py), `elem` the elementwise formulas, and `empty` the memory returned by
`at.empty` (mixture.py:375).  transforms.py:366-383 `measurable_elemwise_logprob`; cumsum.py:23-44 `logprob_cumsum`; censoring.py:81-143 `clip_logprob`, of real-valued variables;
mixture.py:361-397 `logprob_MixtureRV`, for `at.stack(comps)[(I, *rest)]` with an index of one or more dimensions (for integers and slices only: `Model/MixtureBasic.lean`); censoring.py:216-275 `round_logprob`; tensor.py:45-77 `logprob_join`; tensor.py:128-158 `logprob_dimshuffle`, of
random variables (tensor.py:172-184 `find_measurable_dimshuffles` takes no others); tensor.py:26-33 `logprob_make_vector`;
rewriting.py:179 `local_subtensor_rv_lift`. -/
noncomputable def derivedKernel (kernel cdf : Di → Arr FVal → List (Arr FVal) → Except Err (Arr FVal)) (elem : Di → FVal → List FVal → Except Err FVal) (empty : List ℕ → FVal) :
    Derived Di → Arr FVal → List (Arr FVal) → Except Err (Arr FVal)
  | .base d, v, p => kernel d v p
  | .layer op e, v, p =>
    match layerTransform op p with
    | .error err => .error err
    | .ok tq => arrayElemwiseLogprob tq.1 (fun x => derivedKernel kernel cdf elem empty e x tq.2) v
  | .cumsum axis e, v, p => cumsumLogprob axis (fun x => derivedKernel kernel cdf elem empty e x p) v
  | .clip lc uc d, v, lower :: upper :: p => arrayClipLogprob false (fun x => kernel d x p) (fun x => cdf d x p) ⟨lower, lc⟩ ⟨upper, uc⟩ v
  | .clip _ _ _, _, _ => .error .valueError
  | .mixture S comps rest, v, I :: p => arrayMixtureLogprob (some 0) (.adv (I.map toIndex) :: rest) (mixtureComponents elem S comps p) empty v
  | .mixture _ _ _, _, [] => .error .valueError
  | .round op d, v, p => arrayRoundLogprob op (fun x => cdf d x p) v
  | .join axis pieces, v, p => joinLogprob axis (joinPieces kernel pieces p) v
  | .dimshuffle ndim order d, v, p => dimshuffleLogprob ndim order (fun x => kernel d x p) v
  | .stack comps, v, p => stackLogprob (stackComps kernel comps p) v
  | .index S es d, v, p =>
    match fillIndices es p with
    | .error e => .error e
    | .ok r => indexLogprob S (kernel d) r.1 v r.2

end Verif.ArrGraph
