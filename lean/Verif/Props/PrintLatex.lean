import Verif.Lemmas.PrintLatex

/-! # C144: LaTeX expressions with quotients, roots, powers and negations -/

namespace Verif.PrintLatex
open Verif Verif.PrintExpr

/-- Two expressions have the same LaTeX text exactly when they differ in nothing but the grouping of comparisons and negations. -/
theorem C144_alike {e e' : LExpr} (h : Proper e) (h' : Proper e') : latexText e = latexText e' ↔ Regrouped e e' := by
  refine ⟨fun heq => ?_, regrouped_text⟩
  have r := regroup_spec e
  have r' := regroup_spec e'
  have := text_unique (r.2.1 h) (r'.2.1 h') r.2.2 r'.2.2 (by rw [← regrouped_text r.1, heq, regrouped_text r'.1])
  exact r.1.trans (this ▸ r'.1.symm)

/-- The text determines the expression if no comparison or negation is compared with something on its right. -/
theorem C144_unique_partial {e e' : LExpr} (h : Proper e) (h' : Proper e') (hl : LeftPlain e) (hl' : LeftPlain e') (heq : latexText e = latexText e') : e = e' :=
  text_unique h h' hl hl' heq

/-- Without this condition it does not: the negation of a comparison, and the comparison of a negation, have the same text, and different values when the two sides are true. -/
theorem C144_negation_wrong {a b : Text} {ρ : Text → Bool} (ha : ρ a = true) (hb : ρ b = true) :
    latexText (.inv (.cmp .gt (.leaf a) (.leaf b))) = latexText (.cmp .gt (.inv (.leaf a)) (.leaf b)) ∧
      truth ρ (.inv (.cmp .gt (.leaf a) (.leaf b))) = some true ∧ truth ρ (.cmp .gt (.inv (.leaf a)) (.leaf b)) = some false :=
  ⟨by simp [latexText], by simp [truth, ha, hb], by simp [truth, ha, hb]⟩

/-- `\frac{\sqrt{x}}{{y}^{z}}`. -/
def demoQuotient : LExpr := .frac (.sqrt (.leaf ['x'])) (.pow (.leaf ['y']) (.leaf ['z']))

/-- `(\lnot {x}^{y} \odot x)`. -/
def demoProduct : LExpr := .op .mul 2 fun i => if i = 0 then .inv (.pow (.leaf ['x']) (.leaf ['y'])) else .leaf ['x']

theorem proper_letter {c : Char} (h : c ∈ "xyz".toList) : Proper (.leaf [c]) := by
  have : c = 'x' ∨ c = 'y' ∨ c = 'z' := by simpa using h
  rcases this with rfl | rfl | rfl <;> exact ⟨by simp, by simp, by decide, by simp⟩

theorem demoQuotient_proper : Proper demoQuotient := ⟨proper_letter (by simp), proper_letter (by simp), proper_letter (by simp)⟩

theorem demoProduct_proper : Proper demoProduct := by
  refine ⟨le_rfl, fun i => ?_⟩
  dsimp only
  split_ifs
  · exact ⟨proper_letter (by simp), proper_letter (by simp)⟩
  · exact proper_letter (by simp)

example := C144_alike demoQuotient_proper demoProduct_proper
example := C144_alike (e := .inv (.cmp .gt demoProduct demoQuotient)) (e' := .cmp .gt (.inv demoProduct) demoQuotient) ⟨demoProduct_proper, demoQuotient_proper⟩
  ⟨demoProduct_proper, demoQuotient_proper⟩
example (h : latexText demoQuotient = latexText demoProduct) := C144_unique_partial demoQuotient_proper demoProduct_proper ⟨trivial, trivial, trivial⟩
  (fun i => by dsimp only; split_ifs <;> [exact ⟨trivial, trivial⟩; trivial]) h
example := C144_negation_wrong (a := "a".toList) (b := "b".toList) (ρ := fun _ => true) rfl rfl

end Verif.PrintLatex
