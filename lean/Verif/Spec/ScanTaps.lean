import Verif.Model.ScanTaps

/-! # What the steps of a scan read -/

namespace Verif.ScanArgs
variable {ι V : Type}

/-- At step `s` the inner variable `v` has the value `x`. -/
def Reads (args : ScanArgs ι V) (v : ι) (s : ℕ) (x : V) : Prop :=
  ∃ (i : ℕ) (seq : List V), args.inner_in_seqs[i]? = some v ∧ args.outer_in_seqs[i]? = some seq ∧ seq[s]? = some x

/-- Fields that belong together have the same length, and no two outputs are the same variable. -/
structure Consistent (args : ScanArgs ι V) : Prop where
  seqs : args.inner_in_seqs.length = args.outer_in_seqs.length
  mit_in : args.inner_in_mit_sot.length = args.inner_out_mit_sot.length
  mit_taps : args.mit_sot_in_slices.length = args.inner_out_mit_sot.length
  sit_in : args.inner_in_sit_sot.length = args.inner_out_sit_sot.length
  nodup : (args.inner_out_mit_sot ++ args.inner_out_sit_sot ++ args.inner_out_nit_sot).Nodup
  each_tap : ∀ (i : ℕ) (taps : List ℤ) (ins : List ι), args.mit_sot_in_slices[i]? = some taps → args.inner_in_mit_sot[i]? = some ins → taps.length = ins.length

/-- The output `io` of the scan has the inner-inputs `l`, each with its tap. -/
def HasTaps (args : ScanArgs ι V) (io : ι) (l : List (ℤ × ι)) : Prop :=
  (∃ (i : ℕ) (taps : List ℤ) (ins : List ι), args.inner_out_mit_sot[i]? = some io ∧ args.mit_sot_in_slices[i]? = some taps ∧ args.inner_in_mit_sot[i]? = some ins ∧ l = taps.zip ins) ∨
  (∃ (i : ℕ) (v : ι), args.inner_out_sit_sot[i]? = some io ∧ args.inner_in_sit_sot[i]? = some v ∧ l = [(-1, v)]) ∨
  (io ∈ args.inner_out_nit_sot ∧ l = [])

end Verif.ScanArgs

namespace Verif

/-- The taps are negative, different, and the largest lag is `L` (zero without taps). -/
structure Lags (taps : List ℤ) (L : ℕ) : Prop where
  neg : ∀ t ∈ taps, t < 0
  nodup : taps.Nodup
  ge : ∀ t ∈ taps, -(L : ℤ) ≤ t
  max : -(L : ℤ) ∈ taps ∨ taps = [] ∧ L = 0

/-- Counted from the largest lag, the taps (with the present) look the same in both directions. -/
def Symmetric (taps : List ℤ) (L : ℕ) : Prop := ∀ t ∈ taps, -(L : ℤ) - t ∈ taps ∨ t = -(L : ℤ)

end Verif
