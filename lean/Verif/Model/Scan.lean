import Verif.Model.ScanTaps
import Verif.Model.Graph

/-!
# Log-probabilities of scans (`/repo/aeppl/scan.py:231-313` and `364-487`)

`ι` are the variables of the inner graph.
-/

namespace Verif
namespace ScanArgs
variable {ι V R : Type} [DecidableEq ι]

/-- Values of the inner variables at step `s`: those of a sequence have its entry, the others (non-sequences and constants) have the values `base`. -/
def stepEnv (args : ScanArgs ι V) (base : ι → V) (s : ℕ) (v : ι) : V :=
  match args.inner_in_seqs.idxOf? v with
  | some i =>
    match args.outer_in_seqs[i]? with
    | some seq => seq.getD s (base v)
    | none => base v
  | none => base v

/-- Aesara's `Scan` with nit-sot outputs `f` and no recurrent ones: `n_steps` steps, each reading the entries of the sequences; sequences
that are too short raise.  Simplification: recurrent outputs other than the converted ones are left out. -/
def run (args : ScanArgs ι V) (base : ι → V) (f : (ι → V) → Except Err R) : Except Err (List R) :=
  if args.outer_in_seqs.all (fun seq => args.n_steps ≤ seq.length) then (List.range args.n_steps).mapM fun s => f (args.stepEnv base s) else .error .valueError

/-- scan.py:275-280 `create_inner_out_logp`, as evaluated in a step: by C07 the term of an inner-output is its log-probability at the value of the new
inner-input, conditional on the values of the other inner-outputs (`lp io x e` is the log-probability of `io` at `x` when the inner variables it
depends on have the values `e`). -/
def innerLogps (lp : ι → V → (ι → V) → Except Err FVal) (outs : List (ι × ι × List V)) (e : ι → V) : Except Err (List FVal) :=
  outs.mapM fun o => lp o.1 (e o.2.1) fun v =>
    match outs.find? (fun o' => o'.1 = v) with
    | some o' => e o'.2.1
    | none => e v

/-- scan.py:266-313 `logprob_ScanRV`: rows of terms, one row for every step.  `outs` are the random outputs (`get_random_outer_outputs`, 231-252), in the order of
the outputs of the scan, with their new inner-inputs and values; `zip(*rv_outer_outs)` raises when there are none.  Shared variables (random generators) are left out. -/
def scanLogprob (args : ScanArgs ι V) (base : ι → V) (lp : ι → V → (ι → V) → Except Err FVal) (outs : List (ι × ι × List V)) : Except Err (List (List FVal)) :=
  if outs.isEmpty then .error .valueError else do
    let args' ← args.convertOuterOutToIn outs
    args'.run base (innerLogps lp outs)

/-- joint_logprob.py:307-319 for the outputs of a scan: each output's terms are summed over time, and the sums are added. -/
noncomputable def scanJoint (args : ScanArgs ι V) (base : ι → V) (lp : ι → V → (ι → V) → Except Err FVal) (outs : List (ι × ι × List V)) : Except Err FVal := do
  let rows ← args.scanLogprob base lp outs
  .ok (((List.range outs.length).map fun k => (rows.map fun row => row.getD k 0).sum).sum)

end ScanArgs

/-- The indices of a `Subtensor` of a scan's output along time: a slice with step one, or one position. -/
inductive TimeIndex where
  | slice (b e : Option ℤ)
  | pos (k : ℤ)

/-- First position set, and the one after the last, or an exception. -/
def TimeIndex.ends (n : ℕ) : TimeIndex → Except Err (ℕ × ℕ)
  | .slice b e =>
    let ends := sliceEnds b e 1 n
    .ok (ends.1.toNat, max ends.1.toNat ends.2.toNat)
  | .pos k =>
    let k' := if k < 0 then k + n else k
    if 0 ≤ k' ∧ k' < n then .ok (k'.toNat, k'.toNat + 1) else .error .indexError

/-- `set_subtensor(l[idx], val)` along the first axis (value of the right length, no broadcasting). -/
def setTime {V : Type} (l : List V) (idx : TimeIndex) (val : List V) : Except Err (List V) :=
  match idx.ends l.length with
  | .error e => .error e
  | .ok (a, b) => if val.length = b - a then .ok (l.take a ++ val ++ l.drop b) else .error .valueError

/-- scan.py:421-474, in `update_scan_value_vars`: the value of the whole output made of the user's value for a part of it.  `mem` are the entries of `at.empty`
(as many as the output has), `init` the initial values of the output (`expand_empty` sets them at `[:L]`); outputs without initial values fail the assertion that
their outer-input is made by `set_subtensor`. -/
def padScanValue {V : Type} (mem : List V) (idx : TimeIndex) (val : List V) (init : Option (List V)) : Except Err (List V) :=
  match setTime mem idx val with
  | .error e => .error e
  | .ok new_val =>
    match init with
    | none => .error .assertion
    | some init => setTime new_val (.slice none (some init.length)) init

end Verif
