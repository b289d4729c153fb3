import Verif.Model.ArrScan
import Verif.Spec.ArrGraph
import Verif.Spec.Scan
import Mathlib.MeasureTheory.Measure.GiryMonad

/-! # Series drawn step by step -/

namespace Verif.ArrGraph
open Verif MeasureTheory

variable {ι : Type} [DecidableEq ι]

/-- The inner-inputs that have earlier entries of the series, each with its lag (a negative number). -/
def ScanOut.taps : ScanOut ι → List (ℤ × ι)
  | .mit taps ins => taps.zip ins
  | .sit inp => [(-1, inp)]
  | .nit => []

/-- The values of the inner variables when the next entry is drawn, after the series `h` (initial values first): earlier entries, counted from the end; the entry of the sequences at the time; the
non-sequences. -/
noncomputable def ScanDist.envAt (d : ScanDist ι) (seqs vals : List (Arr FVal)) (h : List ℝ) (v : ι) : FVal :=
  match (d.out.taps.map Prod.swap).lookup v with
  | some t => .fin (h.getD ((h.length : ℤ) + t).toNat 0)
  | none =>
    match (d.seqs.zip seqs).lookup v with
    | some a => a.get [h.length - d.lag]
    | none =>
      match (d.nonSeqs.zip vals).lookup v with
      | some a => a.get []
      | none => .nan

/-- The law of `n` more entries after `h`: the next one is drawn from `step h`, and so on. -/
noncomputable def seriesLaw (step : List ℝ → Measure ℝ) : (n : ℕ) → List ℝ → Measure (Fin n → ℝ)
  | 0, _ => Measure.dirac Fin.elim0
  | n + 1, h => (step h).bind fun x => (seriesLaw step n (h ++ [x])).map (Fin.cons x)

/-- Everything that can be reached with positive density is good. -/
def SeriesValid (lp : FVal → (ι → FVal) → Except Err FVal) (law : (ι → FVal) → Measure ℝ) (ref : Measure ℝ) (env : List ℝ → ι → FVal) : ℕ → List ℝ → Prop
  | 0, _ => True
  | n + 1, h => StepGood lp law ref (env h) ∧ ∀ x, dens (lp (.fin x) (env h)) ≠ 0 → SeriesValid lp law ref env n (h ++ [x])

/-- Scans that make sense: the inner variables are all different, the taps are negative and different, and every tap has its inner-input. -/
structure ScanDist.Proper (d : ScanDist ι) : Prop where
  names : (d.seqs ++ d.io :: d.new :: d.out.taps.map Prod.snd).Nodup
  lags : Lags (d.out.taps.map Prod.fst) d.lag
  taps : ∀ taps ins, d.out = .mit taps ins → taps.length = ins.length
  lp : ∀ x e e', (∀ v, v ≠ d.io → v ≠ d.new → e v = e' v) → d.lp x e = d.lp x e'

/-- The parameters of a scan: the initial values, if it is recurrent, then the sequences, long enough, then the non-sequences. -/
structure ScanParams (d : ScanDist ι) (p : List (Arr FVal)) (init : List ℝ) (seqs vals : List (Arr FVal)) : Prop where
  start : init.length = d.lag
  split : (d.out = .nit ∧ p = seqs ++ vals) ∨
    (d.out ≠ .nit ∧ ∃ a : Arr FVal, p = a :: (seqs ++ vals) ∧ a.shape = [d.lag] ∧ ∀ i (h : i < init.length), a.get [i] = .fin init[i])
  count : seqs.length = d.seqs.length
  long : ∀ a ∈ seqs, ∃ m, a.shape = [m] ∧ d.steps ≤ m

/-- A graph uses a recurrent scan directly. -/
def UsesScan {Di : Type} (seen : Di → Option (Arr FVal → Arr FVal → Arr FVal)) : Expr Di → Prop
  | .const _ => False
  | .inp _ => False
  | .app _ _ args => ∃ i, UsesScan seen (args i)
  | .rv _ dist _ _ => (seen dist).isSome
  | .valued r v => UsesScan seen r ∨ UsesScan seen v

end Verif.ArrGraph
