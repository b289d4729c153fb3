import Verif.Model.FVal
import Verif.Model.Dict
import Mathlib.Data.List.Range

/-!
# Pretty printing (`/repo/aeppl/printing.py`)

Strings are lists of characters.
-/

namespace Verif

abbrev Text := List Char

/-! ## Names (printing.py:255-353) -/

/-- printing.py:265: `string.ascii_letters`, in the order of the `OrderedDict` (its values are all `None`). -/
def asciiLetters : List Text :=
  (List.range 26).map (fun i => [Char.ofNat (97 + i)]) ++ (List.range 26).map (fun i => [Char.ofNat (65 + i)])

/-- The part of the printer state used for names: `pstate.memo` and `pstate.available_names`. -/
structure NameState (V : Type) where
  memo : Dict V Text
  available : Option (List Text)
deriving DecidableEq

namespace NameState
variable {V : Type} [DecidableEq V]

/-- printing.py:334-340: the names available, initialised at the first use by removing the names of `pstate.fgraph.variables`.
`name v` is `v.name`; `OrderedDict.pop(k, None)` of a missing key does nothing. -/
def availableNames (name : V → Option Text) (fgraph : List V) (st : NameState V) : List Text :=
  match st.available with
  | some l => l
  | none => (fgraph.filterMap name).foldl List.erase asciiLetters

/-- printing.py:320-353 `VariableWithShapePrinter.process_variable_name`.  A name is used if it is neither `None` nor empty;
`popitem` raises `KeyError` on an empty dictionary. -/
def processVariableName (name : V → Option Text) (fgraph : List V) (st : NameState V) (output : V) :
    Except Err (NameState V × Text) :=
  match st.memo.get? output with
  | some s => .ok (st, s)
  | none =>
    let available := st.availableNames name fgraph
    match name output with
    | some (c :: cs) =>
      .ok ({ memo := st.memo.set output (c :: cs), available := some (available.erase (c :: cs)) }, c :: cs)
    | _ =>
      match available with
      | [] => .error .keyError
      | out_name :: rest => .ok ({ memo := st.memo.set output out_name, available := some rest }, out_name)

/-- The names printed for a sequence of variables with one state, in the order in which printing reaches them.
Simplification: only the calls of `process_variable_name`; the other users of `pstate.memo` (constants, definitions of random
variables) store what was printed for the same variable. -/
def processNames (name : V → Option Text) (fgraph : List V) : NameState V → List V → Except Err (NameState V × List Text)
  | st, [] => .ok (st, [])
  | st, v :: vs => do
    let (st, s) ← processVariableName name fgraph st v
    let (st, ss) ← processNames name fgraph st vs
    return (st, s :: ss)

/-- The state made by `create_state(None)` (printing.py:471-475): no memo and no `available_names`. -/
def fresh : NameState V := ⟨[], none⟩

end NameState

/-! ## Preamble (printing.py:553-606) -/

/-- printing.py:564-575: the state of the loop. -/
structure WrapState where
  v_new : List (List Text)
  c_len : ℕ
  l_idx : ℕ

/-- printing.py:566-575: one turn of the loop. -/
def wrapStep (width : ℕ) (st : WrapState) (l : Text) : WrapState :=
  let st : WrapState :=
    if st.v_new.length ≤ st.l_idx then ⟨st.v_new ++ [[l]], width * st.l_idx, st.l_idx⟩
    else ⟨st.v_new.modify st.l_idx (· ++ [l]), st.c_len, st.l_idx⟩
  let c_len := st.c_len + l.length
  ⟨st.v_new, c_len, st.l_idx + if c_len / width > st.l_idx then 1 else 0⟩

/-- printing.py:564-575: the lines of one category. -/
def wrapLines (width : ℕ) (v : List Text) : List (List Text) :=
  (v.foldl (wrapStep width) ⟨[], 0, 0⟩).v_new

/-- `sep.join(parts)`. -/
def joinText (sep : Text) : List Text → Text
  | [] => []
  | [x] => x
  | x :: y :: l => x ++ sep ++ joinText sep (y :: l)

/-- printing.py:555-577: `preamble_lines`, for the declarations of each category in order.  For a `Mapping` the list is that of
its values; an empty category is skipped. -/
def preambleLines (width : ℕ) (comma newline : Text) (categories : List (List Text)) : List Text :=
  (categories.filter fun v => !v.isEmpty).map fun v => joinText newline ((wrapLines width v).map (joinText comma))

/-- printing.py:547-589: the text without a LaTeX environment (`latex_out` false). -/
def preambleText (width : ℕ) (comma newline : Text) (categories : List (List Text)) (body_strs : List Text) : Text :=
  joinText newline (preambleLines width comma newline categories ++ body_strs)

/-- The lines of a text (`str.splitlines`; simplification: a line is ended by a line feed only, and a text that ends with one has a last, empty line, which changes nothing below). -/
def splitLines : Text → List Text
  | [] => [[]]
  | c :: cs =>
    if c = '\n' then [] :: splitLines cs
    else match splitLines cs with
      | [] => [[c]]
      | l :: ls => (c :: l) :: ls

/-- `line.strip()` is not empty. -/
def hasText (line : Text) : Bool := line.any fun c => !c.isWhitespace

/-- `textwrap.indent(text, "  ")`: lines with something in them get the prefix. -/
def indentText (text : Text) : Text := joinText ['\n'] ((splitLines text).map fun l => if hasText l then ' ' :: ' ' :: l else l)

/-- `\begin{env}` or `\end{env}` on a line of its own around a text. -/
def beginEnd (env text : Text) : Text := "\\begin{".toList ++ env ++ "}".toList ++ ['\n'] ++ text ++ "\\end{".toList ++ env ++ "}".toList

/-- printing.py:553-554: the separators in LaTeX. -/
def latexComma : Text := ", \\,".toList
def latexNewline : Text := "\n\\\\\n".toList

/-- printing.py:580-588: with declarations, everything goes into a `gathered` environment. -/
def gatheredText (width : ℕ) (categories : List (List Text)) (body_strs : List Text) : Text :=
  if preambleLines width latexComma latexNewline categories = [] then preambleText width latexComma latexNewline categories body_strs
  else beginEnd "gathered".toList (indentText (preambleText width latexComma latexNewline categories body_strs) ++ ['\n'])

/-- printing.py:590-598: the text in LaTeX, in the environment `latex_env` unless this is empty (or `None`), with a label unless this is empty (or `None`). -/
def latexText (width : ℕ) (categories : List (List Text)) (body_strs : List Text) (latex_env latex_label : Text) : Text :=
  let res := gatheredText width categories body_strs
  let label_out := if latex_label = [] then [] else "\\label{".toList ++ latex_label ++ "}".toList ++ ['\n']
  if latex_env = [] then res else beginEnd latex_env (indentText res ++ ['\n'] ++ label_out)

/-! ## The categories across calls (printing.py:449-485) -/

/-- `OrderedDict.setdefault(k, []).append(decl)`. -/
def addDecl (d : Dict Text (List Text)) (k decl : Text) : Dict Text (List Text) :=
  d.set k ((d.get? k).getD [] ++ [decl])

/-- printing.py:471-478 `create_state` with printing.py:190-199, 305-308: one call of a printer whose default `preamble_dict` is
`defaults`, during which the declarations `decls` are made.  `copy(v)` is shallow: the containers of the categories already in
`defaults` are shared with the state of the call, those of new categories are not.  Returns the categories printed and the
defaults afterwards.  Simplification: in every container the declarations are a list (the values of a mapping are appended as well,
one for each variable, and every call has variables of its own). -/
def printCall (defaults : Dict Text (List Text)) (decls : List (Text × Text)) :
    Dict Text (List Text) × Dict Text (List Text) :=
  let state := decls.foldl (fun d p => addDecl d p.1 p.2) defaults
  (state, defaults.map fun p => (p.1, (state.get? p.1).getD p.2))

/-- The categories printed by successive calls of the same printer. -/
def printCalls : Dict Text (List Text) → List (List (Text × Text)) → List (Dict Text (List Text))
  | _, [] => []
  | defaults, decls :: calls => (printCall defaults decls).1 :: printCalls (printCall defaults decls).2 calls

/-! ## Indices (printing.py:202-250) -/

/-- An entry of `Subtensor.idx_list`: the type of an index, or a slice with the types of those of start, stop and step that are given. -/
inductive IdxEntry
  | index
  | slice (start stop step : Bool)

/-- `inputs.pop()`: the last element and the rest. -/
def popLast {α : Type} (inputs : List α) : Except Err (α × List α) :=
  match inputs.getLast? with
  | none => .error .indexError
  | some x => .ok (x, inputs.dropLast)

/-- printing.py:219-225: print the next input if the part is given. -/
def popPart {ι : Type} (process : ι → Text) (given : Bool) (inputs : List ι) : Except Err (Option Text × List ι) :=
  if given then do
    let (x, inputs) ← popLast inputs
    return (some (process x), inputs)
  else return (none, inputs)

/-- printing.py:216-231: the string of one entry and the inputs that remain. -/
def printEntry {ι : Type} (process : ι → Text) (inputs : List ι) : IdxEntry → Except Err (Text × List ι)
  | .index => do
    let (x, inputs) ← popLast inputs
    return (process x, inputs)
  | .slice start stop step => do
    let (a, inputs) ← popPart process start inputs
    let (b, inputs) ← popPart process stop inputs
    let (c, inputs) ← popPart process step inputs
    return (joinText [':'] ([a.getD [], b.getD []] ++ c.toList), inputs)

/-- printing.py:215-231: the loop over `idx_list` of a `Subtensor`. -/
def printEntries {ι : Type} (process : ι → Text) : List ι → List IdxEntry → Except Err (List Text)
  | _, [] => .ok []
  | inputs, e :: es => do
    let (s, inputs) ← printEntry process inputs e
    let ss ← printEntries process inputs es
    return s :: ss

/-- printing.py:215-231 when the op has no `idx_list`: the loop runs over the very list from which it pops, at position `i`;
the entries are variables, not slices.  The loop ends when the position is past the end of what remains. -/
def printInputs {ι : Type} (process : ι → Text) (inputs : List ι) (i : ℕ) : List Text :=
  if h : i < inputs.length then
    process (inputs.getLast (List.ne_nil_of_length_pos (by omega))) :: printInputs process inputs.dropLast (i + 1)
  else []
termination_by inputs.length - i
decreasing_by simp only [List.length_dropLast]; omega

/-- printing.py:202-250 `GenericSubtensorPrinter.process` (plain text): `idx_list` is `none` for ops without it.
`process` prints a variable; printing a variable again gives the same string (`pstate.memo`). -/
def printSubtensor {ι : Type} (process : ι → Text) (idx_list : Option (List IdxEntry)) (obj : ι) (inputs : List ι) :
    Except Err Text := do
  let sidxs ← match idx_list with
    | some es => printEntries process inputs es
    | none => .ok (printInputs process inputs 0)
  return process obj ++ ['['] ++ joinText [',', ' '] sidxs ++ [']']

end Verif
