import Verif.Model.ArrGraph
import Verif.Model.Scan

/-! # Scans with one random output as array variables -/

namespace Verif.ArrGraph
open Verif

/-- The kind of the output of a scan: recurrent with several lags, with the lag one, or not recurrent. -/
inductive ScanOut (ι : Type) where
  | mit (taps : List ℤ) (ins : List ι)
  | sit (inp : ι)
  | nit

/-- A scan with one random output.  Simplifications: sequences are vectors, non-sequences are scalars, and the number of steps is a constant. -/
structure ScanDist (ι : Type) where
  /-- inner-inputs of the sequences -/
  seqs : List ι
  out : ScanOut ι
  /-- inner-inputs of the non-sequences -/
  nonSeqs : List ι
  /-- the inner-output, and the inner-input that is made for its value -/
  io : ι
  new : ι
  /-- how many initial values -/
  lag : ℕ
  steps : ℕ
  /-- log-probability of the inner-output at a value, given the values of the inner variables -/
  lp : FVal → (ι → FVal) → Except Err FVal

variable {ι : Type} [DecidableEq ι]

/-- The entries of a vector. -/
def vecList (a : Arr FVal) : List FVal := (List.range (a.shape.headD 0)).map fun i => a.get [i]

/-- The `ScanArgs` of the scan (scan.py:268-269), with the given sequences. -/
def ScanDist.scanArgs (d : ScanDist ι) (seqs : List (List FVal)) : ScanArgs ι FVal where
  inner_in_seqs := d.seqs
  outer_in_seqs := seqs
  inner_in_mit_sot := match d.out with | .mit _ ins => [ins] | _ => []
  mit_sot_in_slices := match d.out with | .mit taps _ => [taps] | _ => []
  inner_out_mit_sot := match d.out with | .mit _ _ => [d.io] | _ => []
  inner_in_sit_sot := match d.out with | .sit inp => [inp] | _ => []
  inner_out_sit_sot := match d.out with | .sit _ => [d.io] | _ => []
  inner_out_nit_sot := match d.out with | .nit => [d.io] | _ => []
  outer_in_nit_sot := match d.out with | .nit => [d.steps] | _ => []
  n_steps := d.steps

/-- The values of the non-sequences, for the inner variables that are not sequences. -/
def ScanDist.base (d : ScanDist ι) (vals : List (Arr FVal)) (v : ι) : FVal :=
  match (d.nonSeqs.zip vals).lookup v with
  | some a => a.get []
  | none => .nan

/-- The value of the whole output: a scan that is not recurrent is valued itself; of a recurrent one the part `out[lag:]` is (it is what `aesara.scan` returns), and
scan.py:421-474 puts the initial values before it.  `mem` are the entries of `at.empty`. -/
def ScanDist.wholeSeries (d : ScanDist ι) (mem : List FVal) (v : Arr FVal) (init : Option (Arr FVal)) : Except Err (List FVal) :=
  match d.out with
  | .nit => .ok (vecList v)
  | _ => padScanValue mem (.slice (some d.lag) none) (vecList v) (init.map vecList)

/-- Parameters: initial values (for a recurrent output), sequences, non-sequences. -/
def ScanDist.split (d : ScanDist ι) : List (Arr FVal) → Option (Arr FVal) × List (Arr FVal) × List (Arr FVal)
  | p =>
    match d.out, p with
    | .nit, p => (none, p.take d.seqs.length, p.drop d.seqs.length)
    | _, [] => (none, [], [])
    | _, a :: p => (some a, p.take d.seqs.length, p.drop d.seqs.length)

/-- scan.py:266-313 `logprob_ScanRV` and 364-487 `update_scan_value_vars`, for a scan with one random output as a variable of a model: the array of its terms. -/
def scanKernel (mem : List FVal) (d : ScanDist ι) (v : Arr FVal) (p : List (Arr FVal)) : Except Err (Arr FVal) := do
  let parts := d.split p
  let series ← d.wholeSeries mem v parts.1
  let rows ← (d.scanArgs (parts.2.1.map vecList)).scanLogprob (d.base parts.2.2) (fun _ => d.lp) [(d.io, d.new, series)]
  .ok ⟨[rows.length], fun c => (rows.getD (c.headD 0) []).getD 0 .nan⟩

/-- The value of a scan as other variables see it, if it is a recurrent one: scan.py:446-468 make a new value, with the initial values before the user's, and 470-485 put it in the place of the
`ValuedVariable` of the part `out[lag:]`, wherever that is used.  `none`: the user's value.  (An exception while setting entries is a NaN here.) -/
def ScanDist.seen (mem : List FVal) (d : ScanDist ι) : Option (Arr FVal → Arr FVal → Arr FVal) :=
  match d.out with
  | .nit => none
  | _ => some fun init v =>
    match d.wholeSeries mem v (some init) with
    | .ok series => ⟨[series.length], fun c => series.getD (c.headD 0) .nan⟩
    | .error _ => ⟨[], fun _ => .nan⟩

variable {Di : Type}

/-- rewriting.py:270-274 and scan.py:470-485: every use of a valued variable becomes its `ValuedVariable`, with the value that `seen` makes of the first parameter and the user's value for
recurrent scans. -/
def replaceScan (seen : Di → Option (Arr FVal → Arr FVal → Arr FVal)) (vals : Dict ℕ ℕ) : Expr Di → Expr Di
  | .const x => .const x
  | .inp i => .inp i
  | .app n f args => .app n f fun i => replaceScan seen vals (args i)
  | .rv id dist n args =>
    match Dict.get? vals id with
    | some v =>
      match seen dist, n, args with
      | some f, n + 1, args => .valued (.rv id dist (n + 1) args) (.app 2 (fun a => f (a 0) (a 1)) fun i => if i = 0 then args 0 else .inp v)
      | _, n, args => .valued (.rv id dist n args) (.inp v)
    | none => .rv id dist n fun i => replaceScan seen vals (args i)
  | .valued r v => .valued (replaceScan seen vals r) (replaceScan seen vals v)

/-- `backend` of `Model/ArrGraph.lean` for models with scans. -/
def backendScan (seen : Di → Option (Arr FVal → Arr FVal → Arr FVal)) (defs : ℕ → Option (RVDef Di)) (d : Dict ℕ ℕ) : Cond.Backend ℕ ℕ Unit (Term Di) where
  owner v := if (defs v).isSome then some v else none
  dtype _ := ()
  rewrite d := .ok (d.map fun p => some ⟨p.1, p.2⟩, d.map Prod.snd)
  measurableOutputs n := if (defs n).isSome then [n] else []
  logprob n vs :=
    match defs n, vs with
    | some r, [v] => .ok [⟨r.dist, cleanup (.inp v), r.n, fun i => cleanup (replaceScan seen d (r.args i))⟩]
    | _, _ => .error .notImplemented

/-- joint_logprob.py:222-319 `joint_logprob` on a model with scans. -/
def jointScan (seen : Di → Option (Arr FVal → Arr FVal → Arr FVal)) (defs : ℕ → Option (RVDef Di)) (rvs clones : List ℕ) (realized : Dict ℕ ℕ) :
    Except Err (Option (Cond.JointExpr (Term Di) × List ℕ)) :=
  Cond.jointLogprob (backendScan seen defs (Cond.rvValues rvs clones realized)) rvs clones realized

end Verif.ArrGraph
