import Verif.Spec.ArrScan
import Verif.Model.ArrDerived

/-! # The same series of random numbers, written in different ways -/

namespace Verif.ArrGraph
open Verif FVal

/-- A vector with the entries `f 0`, `f 1`, … -/
def column (n : ℕ) (f : ℕ → FVal) : Arr FVal := ⟨[n], fun c => f (c.headD 0)⟩

/-- An array without axes. -/
def scalar (x : FVal) : Arr FVal := ⟨[], fun _ => x⟩

/-- `r` is the vector of the `n` terms `f 0`, `f 1`, …; it raises what the first failing term raises. -/
def IsTerms (n : ℕ) (f : ℕ → Except Err FVal) : Except Err (Arr FVal) → Prop
  | .ok a => a.shape = [n] ∧ ∀ i < n, f i = .ok (a.get [i])
  | .error e => ∃ i < n, f i = .error e ∧ ∀ j < i, ∃ x, f j = .ok x

/-- Two computations of an array raise the same error or give arrays of the same shape with the same entries. -/
def SameResult (r r' : Except Err (Arr FVal)) : Prop :=
  (∃ e, r = .error e ∧ r' = .error e) ∨ ∃ a a', r = .ok a ∧ r' = .ok a' ∧ a.Same a'

/-- The parameters `P`, one entry at a time: those of the first variable, then those of the second, … -/
def oneByOne (n : ℕ) (P : List (ℕ → FVal)) : List (Arr FVal) := (List.range n).flatMap fun i => P.map fun p => scalar (p i)

/-- The parameters `P` cut into pieces of the given lengths, from position `off` on. -/
def inPieces (P : List (ℕ → FVal)) : ℕ → List ℕ → List (Arr FVal)
  | _, [] => []
  | off, len :: lens => (P.map fun p => column len fun j => p (off + j)) ++ inPieces P (off + len) lens

/-- A scan that draws an entry in each step, with the parameters of the step as sequences: `aesara.scan(lambda *p: dist(*p), sequences=P)`.  The inner variables are numbered. -/
def drawScan (n : ℕ) (k : FVal → List FVal → Except Err FVal) (m : ℕ) : ScanDist ℕ where
  seqs := List.range m
  out := .nit
  nonSeqs := []
  io := m
  new := m + 1
  lag := 0
  steps := n
  lp x e := k x ((List.range m).map e)

/-- A recurrent scan in which the next entry has the log-probability `k` given the previous entry and the sequences: `aesara.scan(lambda *p, x: …, outputs_info=[a], sequences=P)`. -/
def stepScan (n : ℕ) (k : FVal → FVal → List FVal → Except Err FVal) (m : ℕ) : ScanDist ℕ where
  seqs := List.range m
  out := .sit (m + 2)
  nonSeqs := []
  io := m
  new := m + 1
  lag := 1
  steps := n
  lp x e := k (e (m + 2)) x ((List.range m).map e)

end Verif.ArrGraph
