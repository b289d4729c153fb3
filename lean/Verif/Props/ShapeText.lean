import Verif.Lemmas.ShapeText
import Verif.Props.Definitions

/-! # C145: lines of the preamble -/

namespace Verif.Defs
open Verif

/-- **C145** (lines) The shape information of two variables whose names have no blanks is the same text exactly if the names, the kinds of numbers and the lengths of all axes (known or not) are the same. -/
theorem C145_lines {latex : Bool} {name name' : Text} {ty ty' : DType} {dims dims' : List Dim} (h : ' ' ∉ name) (h' : ' ' ∉ name') :
    name ++ [' '] ++ spaceText latex ty dims name = name' ++ [' '] ++ spaceText latex ty' dims' name' ↔ name = name' ∧ ty.kind = ty'.kind ∧ dims = dims' := by
  constructor
  · intro e
    simp only [List.append_assoc, List.cons_append, List.nil_append] at e
    obtain ⟨rfl, e⟩ := split_blank h h' e
    exact ⟨rfl, spaceText_inj h e⟩
  · rintro ⟨rfl, hk, rfl⟩
    rw [spaceText_kind hk]

/-- **C145** (definitions) Two definitions of random variables whose names have no blanks are the same text only if the names, the kinds of numbers and the lengths of all axes are the same, whatever the distributions and
parameters. -/
theorem C145_definitions {latex : Bool} {name name' op op' params params' : Text} {ty ty' : DType} {dims dims' : List Dim} (h : ' ' ∉ name) (h' : ' ' ∉ name')
    (e : lineText latex name op params (spaceText latex ty dims name) = lineText latex name' op' params' (spaceText latex ty' dims' name')) : name = name' ∧ ty.kind = ty'.kind ∧ dims = dims' := by
  obtain ⟨x, a, e1, e2⟩ := line_split latex name op params (spaceText latex ty dims name)
  obtain ⟨x', a', e1', e2'⟩ := line_split latex name' op' params' (spaceText latex ty' dims' name')
  obtain ⟨rfl, -⟩ := split_blank h h' (e1.symm.trans (e.trans e1'))
  exact ⟨rfl, space_end h (e2.symm.trans (e.trans e2'))⟩

/-- **C145** (preamble) In the preamble of a printed graph, two lines that are the same text are about variables of the same printed name, kind of numbers and shape, both among the shape lines and among the definitions,
if the printed names have neither blanks nor percent signs. -/
theorem C145_preamble {G : PGraph} (hac : G.Acyclic) {ty : ℕ → DType} {dims : ℕ → List Dim} (hG : G.Shaped ty dims) {fuel : ℕ} {outs : List ℕ} (hfuel : ∀ o ∈ outs, o < fuel) {st : PState} {body : List Text}
    (h : printOutputs G fuel outs = .ok (st, body)) :
    ∃ text : ℕ → Text, body = outs.map text ∧
      (∀ u v s, st.shapes.get? u = some s → st.shapes.get? v = some s → ' ' ∉ text u → ' ' ∉ text v → text u = text v ∧ (ty u).kind = (ty v).kind ∧ dims u = dims v) ∧
      ∀ u v s, (u, s) ∈ st.rvs → (v, s) ∈ st.rvs → ' ' ∉ text u → ' ' ∉ text v → '%' ∉ text u → '%' ∉ text v → text u = text v ∧ (ty u).kind = (ty v).kind ∧ dims u = dims v := by
  obtain ⟨text, h1, -, h3, h4⟩ := C104_text_partial hac hfuel h
  refine ⟨text, h1, fun u v s hu hv bu bv => ?_, fun u v s hu hv bu bv pu pv => ?_⟩
  · obtain ⟨-, -, rfl⟩ := (h3 u s).1 hu
    obtain ⟨-, -, e⟩ := (h3 v _).1 hv
    rw [hG, hG] at e
    exact (C145_lines bu bv).1 e
  · obtain ⟨op, params, format, -, e⟩ := (h4 _ hu).2 ⟨bu, by rw [hG]; exact space_percent pu⟩
    obtain ⟨op', params', format', -, e'⟩ := (h4 _ hv).2 ⟨bv, by rw [hG]; exact space_percent pv⟩
    have g1 := hG u (text u)
    have g2 := hG v (text v)
    simp only [g1, g2] at e e'
    exact C145_definitions bu bv (e.symm.trans e')

/-! ### The theorems apply -/

/-- A vector of unknown length and a matrix with one known axis: `x in R**(N^x_0)`, `x in R**(3 x N^x_1)`. -/
example : spaceText false (.float 64) [.unknown] ['x'] = "in R**(N^x_0)".toList ∧ spaceText false (.float 64) [.known 3, .unknown] ['x'] = "in R**(3 x N^x_1)".toList ∧
    spaceText true (.int 64) [.known 12, .unknown] ['x'] = "\\in \\mathbb{Z}^{12 \\times N^{x}_{1}}".toList ∧ spaceText true .bool [] ['x'] = "\\in \\mathbb{?}".toList := by
  refine ⟨?_, ?_, ?_, ?_⟩ <;> decide +kernel

example := C145_lines (latex := false) (name := ['x']) (name' := ['x']) (ty := .float 64) (ty' := .float 32) (dims := [.unknown, .known 3]) (dims' := [.known 3, .unknown]) (by decide) (by decide)

example := @C145_definitions true ['x'] ['x'] "\\operatorname{N}".toList "\\operatorname{N}".toList "0, 1".toList "0, 1".toList (.float 64) (.float 32) [.known 3] [.known 3] (by decide) (by decide) (by decide +kernel)

namespace ShapeDemo

/-- `Y ~ N(m, s)` with a vector `m` and a scalar `s`. -/
def G : PGraph := ⟨fun v => if v = 2 then .rv ['N'] [0, 1] (fun _ t => t) else .var, fun v => if v = 2 then some ['Y'] else if v = 0 then some ['m'] else none, [0, 1, 2],
  fun v => spaceText false (.float 64) (if v = 1 then [] else [.known 3]), false⟩

theorem acyclic : G.Acyclic := fun v u hu => by
  by_cases h : v = 2
  · subst h
    simp [PGraph.deps, G] at hu
    omega
  · simp [PGraph.deps, G, h] at hu

example : (printOutputs G 3 [2]).map (fun p => (p.1.shapes, p.1.rvs, p.2)) =
    .ok ([(0, "m in R**(3)".toList), (1, "a in R".toList)], [(2, "Y ~ N(m, a) in R**(3)".toList)], [['Y']]) := by decide +kernel

example {st : PState} {body : List Text} (h : printOutputs G 3 [2] = .ok (st, body)) := C145_preamble acyclic (ty := fun _ => .float 64) (dims := fun v => if v = 1 then [] else [.known 3]) (fun _ _ => rfl) (by simp) h

end ShapeDemo

end Verif.Defs
