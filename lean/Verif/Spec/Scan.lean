import Verif.Spec.ScanTaps
import Verif.Spec.Density

/-! # What a scan draws -/

namespace Verif
open MeasureTheory

variable {ι V : Type}

/-- The values of the inner variables at step `s`, given the whole series `series io` of every random output `io` (initial values first): the output itself is at time
`lag io + s`, its inner-input with tap `t` at time `lag io + s + t`, and sequences are at `s`. -/
structure IsStepEnv (args : ScanArgs ι V) (base : ι → V) (taps : ι → List (ℤ × ι)) (lag : ι → ℕ) (ios : List ι) (series : ι → List V) (s : ℕ) (e : ι → V) : Prop where
  out : ∀ io ∈ ios, ∀ p ∈ (0, io) :: taps io, (series io)[((lag io : ℤ) + s + p.1).toNat]? = some (e p.2)
  seq : ∀ (i : ℕ) (v : ι) (seq : List V), args.inner_in_seqs[i]? = some v → args.outer_in_seqs[i]? = some seq → seq[s]? = some (e v)
  rest : ∀ v, v ∉ args.inner_in_seqs → (∀ io ∈ ios, v ∉ io :: (taps io).map Prod.snd) → e v = base v

/-- The values of the inner variables at step `s`, as a function of the series drawn so far (entries that are not there yet are `0`). -/
noncomputable def seriesEnv [DecidableEq ι] (args : ScanArgs ι FVal) (base : ι → FVal) (taps : ι → List (ℤ × ι)) (lag : ι → ℕ) (ios : List ι) (s : ℕ) (h : ι → List ℝ) (v : ι) : FVal :=
  if v ∈ ios then .fin ((h v).getD (lag v + s) 0)
  else match (ios.flatMap fun io => (taps io).map fun p => (p.2, io, p.1)).lookup v with
    | some (io, t) => .fin ((h io).getD ((lag io : ℤ) + s + t).toNat 0)
    | none =>
      match (args.inner_in_seqs.zip args.outer_in_seqs).lookup v with
      | some seq => seq.getD s .nan
      | none => base v

/-- The draws of a scan: at every step, every output in turn. -/
def draws (n : ℕ) (ios : List ι) : List (ℕ × ι) := (List.range n).flatMap fun s => ios.map fun io => (s, io)

/-- One more entry for the series of `io`. -/
def push [DecidableEq ι] (h : ι → List ℝ) (io : ι) (x : ℝ) : ι → List ℝ := Function.update h io (h io ++ [x])

/-- Expectation of `φ` when the entries are drawn one after the other, each from its law given what has been drawn so far. -/
noncomputable def drawE [DecidableEq ι] (law : ι → (ι → FVal) → Measure ℝ) (env : ℕ → (ι → List ℝ) → ι → FVal) :
    List (ℕ × ι) → (ι → List ℝ) → ((ι → List ℝ) → ENNReal) → ENNReal
  | [], h, φ => φ h
  | (s, io) :: l, h, φ => ∫⁻ x, drawE law env l (push h io x) φ ∂(law io (env s h))

/-- Integral over the entries with respect to the reference measures. -/
noncomputable def entriesE [DecidableEq ι] (ref : ι → Measure ℝ) : List (ℕ × ι) → (ι → List ℝ) → ((ι → List ℝ) → ENNReal) → ENNReal
  | [], h, φ => φ h
  | (_, io) :: l, h, φ => ∫⁻ x, entriesE ref l (push h io x) φ ∂(ref io)

/-- `lp` is the log-density of the probability law `law` with respect to `ref`, when the inner variables have the values `e`. -/
structure StepGood (lp : FVal → (ι → FVal) → Except Err FVal) (law : (ι → FVal) → Measure ℝ) (ref : Measure ℝ) (e : ι → FVal) : Prop where
  prob : IsProbabilityMeasure (law e)
  meas : Measurable fun x : ℝ => dens (lp (.fin x) e)
  dens : law e = ref.withDensity fun x : ℝ => dens (lp (.fin x) e)

/-- Everything that can be reached with positive density is good. -/
def DrawsValid [DecidableEq ι] (lp : ι → FVal → (ι → FVal) → Except Err FVal) (law : ι → (ι → FVal) → Measure ℝ) (ref : ι → Measure ℝ)
    (env : ℕ → (ι → List ℝ) → ι → FVal) : List (ℕ × ι) → (ι → List ℝ) → Prop
  | [], _ => True
  | (s, io) :: l, h => StepGood (lp io) (law io) (ref io) (env s h) ∧
      ∀ x, dens (lp io (.fin x) (env s h)) ≠ 0 → DrawsValid lp law ref env l (push h io x)

/-- Within a step the outputs are in dependency order: an output does not depend on itself, on later ones, or on the variables in `fresh`. -/
def OutOrder (lp : ι → V → (ι → V) → Except Err FVal) (fresh : List ι) : List ι → Prop
  | [] => True
  | io :: ios => (∀ x e e', (∀ v, v ∉ fresh → v ∉ io :: ios → e v = e' v) → lp io x e = lp io x e') ∧ OutOrder lp fresh ios

end Verif
