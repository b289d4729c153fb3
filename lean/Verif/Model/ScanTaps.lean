import Verif.Model.Indices
import Mathlib.Data.List.Sort

/-!
# Converting scan outputs to inputs (`/repo/aeppl/scan.py:48-228`)

`ι` are the variables of the inner graph, `V` the entries of the value sequences.
-/

namespace Verif

/-- Python's `l[b:e]` for a list or along the first axis of an array. -/
def pySlice {V : Type} (l : List V) (b : ℤ) (e : Option ℤ) : List V :=
  let ends := sliceEnds (some b) e 1 l.length
  (l.take ends.2.toNat).drop ends.1.toNat

/-- scan.py:176-199: the new inner-inputs with their sequences, and `n_steps`, for the given taps, inner-inputs and value sequence.
`sorted` is stable; the length of the sequence itself changes nothing in the minimum, slices are not longer. -/
def tapSequences {ι V : Type} (taps : List ℤ) (inner_ins : List ι) (values : List V) : List (ι × List V) × ℕ :=
  let sorted := (taps.zip inner_ins).insertionSort fun x y => x.1 ≤ y.1
  let taps := sorted.map Prod.fst
  let new_inner_in_seqs := (sorted.map Prod.snd).reverse
  let slice_seqs := (taps.map fun n => -n).zip (taps.reverse.map fun n => if n < 0 then some n else none)
  let var_slices := slice_seqs.map fun be => pySlice values be.1 be.2
  let n_steps := (var_slices.map List.length).foldr min values.length
  (new_inner_in_seqs.zip (var_slices.map fun v => v.take n_steps), n_steps)

/-- The fields of Aesara's `ScanArgs` that matter here.  Simplification: no mit-mot and shared outputs. -/
structure ScanArgs (ι V : Type) where
  inner_in_seqs : List ι
  outer_in_seqs : List (List V)
  inner_in_mit_sot : List (List ι)
  mit_sot_in_slices : List (List ℤ)
  inner_out_mit_sot : List ι
  inner_in_sit_sot : List ι
  inner_out_sit_sot : List ι
  inner_out_nit_sot : List ι
  outer_in_nit_sot : List ℕ
  n_steps : ℕ

namespace ScanArgs
variable {ι V : Type}

/-- scan.py:176-213: add the new sequences.  `inner_in_seqs` and `outer_in_seqs` are extended in the same order. -/
def addSeqs (args : ScanArgs ι V) (taps : List ℤ) (inner_ins : List ι) (values : List V) (add_nit_sot : Bool) : ScanArgs ι V :=
  let seqs := tapSequences taps inner_ins values
  { args with
    inner_in_seqs := args.inner_in_seqs ++ seqs.1.map Prod.fst
    outer_in_seqs := args.outer_in_seqs ++ seqs.1.map Prod.snd
    n_steps := seqs.2
    outer_in_nit_sot := if add_nit_sot then args.outer_in_nit_sot ++ [seqs.2] else args.outer_in_nit_sot }

variable [DecidableEq ι]

/-- scan.py:98-213: one turn of the loop, for the inner-output `io`, the new inner-input `new_in` and the value sequence. -/
def convertOne (args : ScanArgs ι V) (io new_in : ι) (values : List V) : Except Err (ScanArgs ι V) :=
  match args.inner_out_mit_sot.idxOf? io with
  | some var_idx =>
    match args.inner_in_mit_sot[var_idx]?, args.mit_sot_in_slices[var_idx]? with
    | some inner_in, some taps =>
      .ok ({ args with
        inner_out_mit_sot := args.inner_out_mit_sot.eraseIdx var_idx
        inner_in_mit_sot := args.inner_in_mit_sot.eraseIdx var_idx
        mit_sot_in_slices := args.mit_sot_in_slices.eraseIdx var_idx }.addSeqs (taps ++ [0]) (inner_in ++ [new_in]) values true)
    | _, _ => .error .indexError
  | none =>
    match args.inner_out_sit_sot.idxOf? io with
    | some var_idx =>
      match args.inner_in_sit_sot[var_idx]? with
      | some inner_in =>
        .ok ({ args with
          inner_out_sit_sot := args.inner_out_sit_sot.eraseIdx var_idx
          inner_in_sit_sot := args.inner_in_sit_sot.eraseIdx var_idx }.addSeqs [-1, 0] [inner_in, new_in] values true)
      | none => .error .indexError
    | none =>
      match args.inner_out_nit_sot.idxOf? io with
      | some var_idx => .ok ({ args with inner_out_nit_sot := args.inner_out_nit_sot.eraseIdx var_idx }.addSeqs [0] [new_in] values false)
      | none => .error .assertion

/-- scan.py:79-228 `convert_outer_out_to_in`, for outputs given by their inner-outputs, new inner-inputs and value sequences (the new inner
outputs are not modelled). -/
def convertOuterOutToIn (args : ScanArgs ι V) (outs : List (ι × ι × List V)) : Except Err (ScanArgs ι V) :=
  outs.foldlM (fun args o => args.convertOne o.1 o.2.1 o.2.2) args

end ScanArgs
end Verif
