import Verif.Model.Printing

/-!
# Definitions of random variables in the preamble (`/repo/aeppl/printing.py:85-200, 255-418, 547-551`)

The variables of the graph are numbers.
-/

namespace Verif.Defs
open Verif

/-- How a variable is printed: by `VariableWithShapePrinter`; by `RandomVariablePrinter`, with the name of the distribution, the parameters (`node.inputs[3:]`), and the format of each
parameter (`process_param`, e.g. the squared standard deviation of a normal variable); by one of Aesara's printers, which print every input and put the strings together; by
`IgnorePrinter` (generators, `Assert`). -/
inductive Kind
  | var
  | rv (op : Text) (params : List ℕ) (format : ℕ → Text → Text)
  | op (inputs : List ℕ) (render : List Text → Text)
  | ignore

/-- The graph (`pstate.fgraph`): kinds and names of the variables, the variables themselves, and the part of the shape information after the name (printing.py:396-416, without
the leading blank: `in R**(2 x 3)`), which depends on the variable and the name printed.  `latex` is `pstate.latex`. -/
structure PGraph where
  kind : ℕ → Kind
  name : ℕ → Option Text
  fgraph : List ℕ
  space : ℕ → Text → Text
  latex : Bool

/-- The printer state: `memo` and `available_names`, `preamble_dict["shape_strings"]`, and `preamble_dict["rv_strings"]` (with the variables, for reference). -/
structure PState where
  names : NameState ℕ
  shapes : Dict ℕ Text
  rvs : List (ℕ × Text)
deriving DecidableEq

/-- `pstate.memo[v] = s`. -/
def PState.remember (st : PState) (v : ℕ) (s : Text) : PState := { st with names := { st.names with memo := st.names.memo.set v s } }

/-- printing.py:354-417 `process_shape_info`: `name in space`. -/
def shapeInfo (G : PGraph) (v : ℕ) (name : Text) : Text := name ++ [' '] ++ G.space v name

/-- `s.lstrip(chars)`. -/
def lstrip (s chars : Text) : Text := s.dropWhile fun c => c ∈ chars

/-- `format % args` for strings: `%s` stands for the next of the arguments and `%%` for a percent sign.  Simplification: every other use of `%` raises `TypeError` (so do formats for which there is no argument left;
a percent sign at the end raises `ValueError`). -/
def percent : Text → List Text → Except Err Text
  | [], [] => .ok []
  | [], _ :: _ => .error .typeError
  | '%' :: '%' :: cs, args => (percent cs args).map ('%' :: ·)
  | '%' :: 's' :: cs, a :: args => (percent cs args).map (a ++ ·)
  | c :: cs, args => if c = '%' then .error .typeError else (percent cs args).map (c :: ·)

/-- printing.py:147-150 `dist_format`: `%s ~ %s(%s)`, or in LaTeX `%s \sim %s\left(%s\right)`, where the name of the distribution is that of printing.py:126-132. -/
def distPattern : Bool → Text
  | false => "%s ~ %s(%s)".toList
  | true => "%s \\sim %s\\left(%s\\right)".toList

/-- printing.py:157-161: what is left of the shape information is put at the end of `dist_format`. -/
def distFormat (G : PGraph) (v : ℕ) (name : Text) : Text := distPattern G.latex ++ ((if G.latex then "\\, ".toList else []) ++ lstrip (shapeInfo G v name) name)

/-- printing.py:182-186 `dist_def_str`. -/
def defText (G : PGraph) (v : ℕ) (op name : Text) (params : List Text) : Except Err Text := percent (distFormat G v name) [name, op, joinText [',', ' '] params]

/-- Strings for a list of variables, one after the other. -/
def processList (f : PState → ℕ → Except Err (PState × Text)) : PState → List ℕ → Except Err (PState × List Text)
  | st, [] => .ok (st, [])
  | st, v :: vs => do
    let (st, s) ← f st v
    let (st, ss) ← processList f st vs
    return (st, s :: ss)

/-- printing.py:164-170: the loop over the parameters. -/
def formatParams (format : ℕ → Text → Text) (ss : List Text) : List Text := ss.mapIdx format

/-- printing.py:102-199 `RandomVariablePrinter.process`, once the variable is not in `memo`.  The string for the name comes from `VariableWithShapePrinter` applied to a copy of
the variable (`orig_var`); the shape information it puts into the preamble is taken out again (155-156).  The parameters are printed twice (164-180).  `preamble_dict` is not
empty (the shape information has been in it), so the definition goes there. -/
def processRV (G : PGraph) (f : PState → ℕ → Except Err (PState × Text)) (st : PState) (v : ℕ) (op : Text) (params : List ℕ) (format : ℕ → Text → Text) : Except Err (PState × Text) := do
  let (names, var_name) ← NameState.processVariableName G.name G.fgraph st.names v
  let (st, _) ← processList f { st with names := names } params
  let (st, ss) ← processList f st params
  let dist_def_str ← defText G v op var_name (formatParams format ss)
  let st := st.remember v var_name
  return ({ st with rvs := st.rvs ++ [(v, dist_def_str)] }, var_name)

/-- printing.py:270-318 `VariableWithShapePrinter.process`, once the variable is not in `memo` (constants that are printed as such are variables of kind `op` without inputs). -/
def processVar (G : PGraph) (st : PState) (v : ℕ) : Except Err (PState × Text) := do
  let (names, out_name) ← NameState.processVariableName G.name G.fgraph st.names v
  return ({ st with names := names, shapes := st.shapes.set v (shapeInfo G v out_name) }.remember v out_name, out_name)

/-- Aesara's printers for operators. -/
def processOp (f : PState → ℕ → Except Err (PState × Text)) (st : PState) (v : ℕ) (inputs : List ℕ) (render : List Text → Text) : Except Err (PState × Text) := do
  let (st, ss) ← processList f st inputs
  return (st.remember v (render ss), render ss)

/-- `pprinter.process(v, pstate)`: the first printer that applies to the variable; all of them return what is in `memo`.  The first argument bounds the depth of the recursion. -/
def process (G : PGraph) : ℕ → PState → ℕ → Except Err (PState × Text)
  | 0, _, _ => .error .valueError
  | fuel + 1, st, v =>
    match st.names.memo.get? v with
    | some s => .ok (st, s)
    | none =>
      match G.kind v with
      | .var => processVar G st v
      | .rv op params format => processRV G (process G fuel) st v op params format
      | .op inputs render => processOp (process G fuel) st v inputs render
      | .ignore => .ok (st.remember v [], [])

/-- printing.py:547-551: the strings for the outputs and the state from which the preamble is made. -/
def printOutputs (G : PGraph) (fuel : ℕ) (out_vars : List ℕ) : Except Err (PState × List Text) :=
  processList (process G fuel) ⟨NameState.fresh, [], []⟩ out_vars

end Verif.Defs
