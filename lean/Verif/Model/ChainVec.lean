import Verif.Model.Simplex

/-! # `ChainedTransform.log_jac_det` on vectors (`/repo/aeppl/transforms.py:799-815`) -/

namespace Verif
open FVal

/-- A tensor with at most one dimension. -/
inductive Tens
  | sc (x : FVal)
  | vc (xs : List FVal)

namespace Tens

/-- `.ndim`. -/
def ndim : Tens → ℕ
  | sc _ => 0
  | vc _ => 1

/-- `.sum(axis=-1)`; only applied to vectors. -/
noncomputable def sumLast : Tens → Tens
  | sc x => sc x
  | vc xs => sc (fsum xs)

/-- `+` with broadcasting; the vectors have equal lengths. -/
noncomputable def add : Tens → Tens → Tens
  | sc x, sc y => sc (x + y)
  | sc x, vc ys => vc (ys.map (x + ·))
  | vc xs, sc y => vc (xs.map (· + y))
  | vc xs, vc ys => vc (List.zipWith (· + ·) xs ys)

end Tens

/-- `forward`, `backward` and `log_jac_det` of a transform on vectors.  Simplification: they do not raise. -/
structure VecTransform where
  forward : List FVal → List FVal
  backward : List FVal → List FVal
  logJacDet : List FVal → Tens

namespace VecTransform

/-- transforms.py:600-615 `LocTransform` with a scalar location. -/
noncomputable def loc (loc : FVal) : VecTransform := ⟨fun v => v.map (· + loc), fun v => v.map (· - loc), fun v => .vc (v.map fun _ => 0)⟩

/-- transforms.py:618-634 `ScaleTransform` with a scalar scale: the determinant has the shape of the scale. -/
noncomputable def scaleScalar (scale : FVal) : VecTransform := ⟨fun v => v.map (· * scale), fun v => v.map (· / scale), fun _ => .sc (-FVal.log (abs scale))⟩

/-- transforms.py:637-647 `LogTransform`. -/
noncomputable def log : VecTransform := ⟨fun v => v.map FVal.log, fun v => v.map FVal.exp, fun v => .vc v⟩

/-- transforms.py:650-660 `ExpTransform`. -/
noncomputable def exp : VecTransform := ⟨fun v => v.map FVal.exp, fun v => v.map FVal.log, fun v => .vc (v.map (-FVal.log ·))⟩

/-- transforms.py:744-766 `SimplexTransform`: the determinant has one dimension less than the vector. -/
noncomputable def simplex : VecTransform := ⟨simplexForward, simplexBackward, fun v => .sc (simplexLogJacDet v)⟩

/-- transforms.py:789-792 `ChainedTransform.forward`. -/
def chainedForward (ts : List VecTransform) (value : List FVal) : List FVal :=
  ts.foldl (fun value t => t.forward value) value

/-- transforms.py:794-797 `ChainedTransform.backward`. -/
def chainedBackward (ts : List VecTransform) (value : List FVal) : List FVal :=
  ts.reverse.foldl (fun value t => t.backward value) value

/-- One turn of the loop transforms.py:803-807: the determinants, the smallest number of dimensions and the back-transformed value. -/
def detStep (acc : List Tens × ℕ × List FVal) (t : VecTransform) : List Tens × ℕ × List FVal :=
  let det_ := t.logJacDet acc.2.2
  (acc.1 ++ [det_], min acc.2.1 det_.ndim, t.backward acc.2.2)

/-- One turn of the loop transforms.py:810-814. -/
noncomputable def addDet (ndim0 : ℕ) (det det_ : Tens) : Tens :=
  if det_.ndim > ndim0 then det.add det_.sumLast else det.add det_

/-- transforms.py:799-815 `ChainedTransform.log_jac_det` on a vector. -/
noncomputable def chainedLogJacDet (ts : List VecTransform) (value : List FVal) : Tens :=
  let r := ts.reverse.foldl detStep ([], 1, value)
  r.1.foldl (addDet r.2.1) (.sc 0)

/-- transforms.py:780-815 `ChainedTransform` on vectors. -/
noncomputable def chained (ts : List VecTransform) : VecTransform := ⟨chainedForward ts, chainedBackward ts, chainedLogJacDet ts⟩

end VecTransform
end Verif
