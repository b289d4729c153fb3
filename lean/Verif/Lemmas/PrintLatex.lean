import Verif.Spec.PrintLatex
import Mathlib.Data.List.OfFn

/-! # Lemmas for C144 -/

namespace Verif.PrintLatex
open Verif Verif.PrintExpr

inductive LTok
  | mark (c : Char)
  | word (w : Text)
deriving DecidableEq

def lflush (acc : Text) : List LTok := if acc = [] then [] else [.word acc]

def llex : Text → Text → List LTok
  | acc, [] => lflush acc
  | acc, c :: cs =>
    if c = ' ' then lflush acc ++ llex [] cs
    else if c ∈ "(){}".toList then lflush acc ++ .mark c :: llex [] cs
    else llex (acc ++ [c]) cs

def joinL (w : Text) : List (List LTok) → List LTok
  | [] => []
  | [x] => x
  | x :: y :: l => x ++ .word w :: joinL w (y :: l)

def ltoks : LExpr → List LTok
  | .leaf name => [.word name]
  | .op o n args => .mark '(' :: (joinL (o.text true) (List.ofFn fun i => ltoks (args i)) ++ [.mark ')'])
  | .cmp r a b => ltoks a ++ .word (r.text true) :: ltoks b
  | .inv a => .word lnotText :: ltoks a
  | .frac a b => .word fracText :: .mark '{' :: (ltoks a ++ .mark '}' :: .mark '{' :: (ltoks b ++ [.mark '}']))
  | .sqrt a => .word sqrtText :: .mark '{' :: (ltoks a ++ [.mark '}'])
  | .pow a b => .mark '{' :: (ltoks a ++ .mark '}' :: .word ['^'] :: .mark '{' :: (ltoks b ++ [.mark '}']))

/-- A word ends here. -/
def LBoundary (rest : Text) : Prop := rest = [] ∨ ∃ c cs, rest = c :: cs ∧ c ∈ " (){}".toList

theorem LBoundary.cons {c : Char} {cs : Text} (h : c ∈ " (){}".toList) : LBoundary (c :: cs) := .inr ⟨c, cs, rfl, h⟩

theorem mem_delims {c : Char} : c ∈ " (){}".toList ↔ c = ' ' ∨ c ∈ "(){}".toList := by simp

theorem llex_boundary {rest : Text} (h : LBoundary rest) (acc : Text) : llex acc rest = lflush acc ++ llex [] rest := by
  rcases h with rfl | ⟨c, cs, rfl, hc⟩
  · simp [llex, lflush]
  · rw [llex, llex]
    split_ifs with h1 h2
    · simp [lflush]
    · simp [lflush]
    · exact absurd (mem_delims.1 hc) (not_or.2 ⟨h1, h2⟩)

theorem llex_word : ∀ {w : Text} (acc rest : Text), (∀ c ∈ w, c ∉ " (){}".toList) → llex acc (w ++ rest) = llex (acc ++ w) rest
  | [], acc, rest, _ => by simp
  | c :: w, acc, rest, h => by
    have hc := h c (by simp)
    rw [mem_delims, not_or] at hc
    rw [List.cons_append, llex, if_neg hc.1, if_neg hc.2, llex_word (acc ++ [c]) rest fun c' hc' => h c' (by simp [hc'])]
    simp

theorem llex_name {w : Text} (hne : w ≠ []) (h : ∀ c ∈ w, c ∉ " (){}".toList) {rest : Text} (hr : LBoundary rest) : llex [] (w ++ rest) = .word w :: llex [] rest := by
  rw [llex_word [] rest h, llex_boundary hr, List.nil_append, lflush, if_neg hne]
  rfl

theorem llex_space (rest : Text) : llex [] (' ' :: rest) = llex [] rest := by simp [llex, lflush]

theorem llex_mark {c : Char} (h : c ∈ "(){}".toList) (rest : Text) : llex [] (c :: rest) = .mark c :: llex [] rest := by
  have : c ≠ ' ' := by rintro rfl; simp at h
  rw [llex, if_neg this, if_pos h]
  simp [lflush]

theorem lop_text (o : Op) : o.text true ≠ [] ∧ ∀ c ∈ o.text true, c ∉ " (){}".toList := by cases o <;> simp [Op.text]
theorem lcmp_text (r : Cmp) : r.text true ≠ [] ∧ ∀ c ∈ r.text true, c ∉ " (){}".toList := by cases r <;> simp [Cmp.text]
theorem lkey_text : (lnotText ≠ [] ∧ ∀ c ∈ lnotText, c ∉ " (){}".toList) ∧ (fracText ≠ [] ∧ ∀ c ∈ fracText, c ∉ " (){}".toList) ∧
    (sqrtText ≠ [] ∧ ∀ c ∈ sqrtText, c ∉ " (){}".toList) := by simp [lnotText, fracText, sqrtText]
theorem lop_inj {o o' : Op} (h : o.text true = o'.text true) : o = o' := by cases o <;> cases o' <;> simp [Op.text] at h ⊢
theorem lcmp_inj {r r' : Cmp} (h : r.text true = r'.text true) : r = r' := by cases r <;> cases r' <;> simp [Cmp.text] at h ⊢

theorem llex_join {w : Text} (hw : w ≠ [] ∧ ∀ c ∈ w, c ∉ " (){}".toList) {rest : Text} (hr : LBoundary rest) : ∀ (l : List (Text × List LTok)),
    (∀ p ∈ l, ∀ rest, LBoundary rest → llex [] (p.1 ++ rest) = p.2 ++ llex [] rest) →
    llex [] (joinText (' ' :: w ++ [' ']) (l.map Prod.fst) ++ rest) = joinL w (l.map Prod.snd) ++ llex [] rest
  | [], _ => by simp [joinText, joinL]
  | [p], h => by simpa [joinText, joinL] using h p (by simp) rest hr
  | p :: q :: l, h => by
    have ih := llex_join hw hr (q :: l) fun p' hp' => h p' (by simp only [List.mem_cons] at hp' ⊢; exact .inr hp')
    simp only [List.map_cons] at ih ⊢
    rw [joinText, joinL]
    · have e1 : p.1 ++ (' ' :: w ++ [' ']) ++ joinText (' ' :: w ++ [' ']) (q.1 :: l.map Prod.fst) ++ rest
          = p.1 ++ (' ' :: (w ++ ' ' :: (joinText (' ' :: w ++ [' ']) (q.1 :: l.map Prod.fst) ++ rest))) := by simp
      rw [e1, h p (by simp) _ (.cons (by simp)), llex_space, llex_name hw.1 hw.2 (.cons (by simp)), llex_space, ih]
      simp
    all_goals simp

theorem llex_text : ∀ {e : LExpr}, Proper e → ∀ rest, LBoundary rest → llex [] (latexText e ++ rest) = ltoks e ++ llex [] rest
  | .leaf name, h, rest, hr => by
    rw [latexText, ltoks, llex_name h.1 h.2.1 hr]; rfl
  | .op o n args, h, rest, hr => by
    have h1 : n ≠ 1 := by have := h.1; omega
    rw [latexText, if_neg h1, List.nil_append, ltoks]
    have := llex_join (lop_text o) (rest := ')' :: rest) (.cons (by simp)) (List.ofFn fun i => (latexText (args i), ltoks (args i))) (by
      intro p hp rest' hr'
      obtain ⟨i, rfl⟩ := List.mem_ofFn.1 hp
      exact llex_text (h.2 i) rest' hr')
    simp only [List.map_ofFn] at this
    rw [show ('(' :: joinText (' ' :: o.text true ++ [' ']) (List.ofFn fun i => latexText (args i)) ++ [')']) ++ rest
      = '(' :: (joinText (' ' :: o.text true ++ [' ']) (List.ofFn fun i => latexText (args i)) ++ (')' :: rest)) by simp, llex_mark (by simp)]
    rw [show (List.ofFn fun i => latexText (args i)) = List.ofFn (Prod.fst ∘ fun i => (latexText (args i), ltoks (args i))) from rfl, this, llex_mark (by simp)]
    simp [Function.comp_def]
  | .cmp r a b, h, rest, hr => by
    simp only [latexText, ltoks, List.append_assoc, List.cons_append]
    rw [llex_text h.1 _ (.cons (by simp)), llex_space, llex_name (lcmp_text r).1 (lcmp_text r).2 (.cons (by simp)), llex_space, llex_text h.2 _ hr]
  | .inv a, h, rest, hr => by
    simp only [latexText, ltoks, List.append_assoc, List.cons_append]
    rw [llex_name lkey_text.1.1 lkey_text.1.2 (.cons (by simp)), llex_space, llex_text (e := a) h _ hr]
  | .frac a b, h, rest, hr => by
    simp only [latexText, ltoks, List.append_assoc, List.cons_append, List.nil_append]
    rw [llex_name lkey_text.2.1.1 lkey_text.2.1.2 (.cons (by simp)), llex_mark (by simp), llex_text h.1 _ (.cons (by simp)), llex_mark (by simp), llex_mark (by simp),
      llex_text h.2 _ (.cons (by simp)), llex_mark (by simp)]
  | .sqrt a, h, rest, hr => by
    simp only [latexText, ltoks, List.append_assoc, List.cons_append, List.nil_append]
    rw [llex_name lkey_text.2.2.1 lkey_text.2.2.2 (.cons (by simp)), llex_mark (by simp), llex_text (e := a) h _ (.cons (by simp)), llex_mark (by simp)]
  | .pow a b, h, rest, hr => by
    simp only [latexText, ltoks, List.append_assoc, List.cons_append, List.nil_append]
    rw [llex_mark (by simp), llex_text h.1 _ (.cons (by simp)), llex_mark (by simp),
      show ('^' :: '{' :: (latexText b ++ ('}' :: rest))) = ['^'] ++ ('{' :: (latexText b ++ ('}' :: rest))) by simp, llex_name (by simp) (by simp) (.cons (by simp)), llex_mark (by simp),
      llex_text h.2 _ (.cons (by simp)), llex_mark (by simp)]

theorem llex_whole {e : LExpr} (h : Proper e) : llex [] (latexText e) = ltoks e := by simpa [llex, lflush] using llex_text h [] (.inl rfl)

/-! ## Reading tokens -/

/-- Nothing that continues an expression. -/
def Stops (rest : List LTok) : Prop := ∀ r : Cmp, ∀ l, rest ≠ .word (r.text true) :: l

theorem stops_mark (c : Char) (l : List LTok) : Stops (.mark c :: l) := by intro r l'; simp
theorem stops_nil : Stops [] := by intro r l'; simp
theorem stops_op (o : Op) (l : List LTok) : Stops (.word (o.text true) :: l) := by
  intro r l'; cases o <;> cases r <;> simp [Op.text, Cmp.text]

def Unique (e : LExpr) : Prop :=
  (e.closed → ∀ e' : LExpr, Proper e' → LeftPlain e' → e'.closed → ∀ rest rest', ltoks e ++ rest = ltoks e' ++ rest' → e = e' ∧ rest = rest') ∧
  ∀ e' : LExpr, Proper e' → LeftPlain e' → ∀ rest rest', Stops rest → Stops rest' → ltoks e ++ rest = ltoks e' ++ rest' → e = e' ∧ rest = rest'

theorem closed_head {e : LExpr} (h : Proper e) (hc : e.closed) {rest l : List LTok} : ltoks e ++ rest ≠ .word lnotText :: l := by
  cases e with
  | leaf name =>
    intro hh
    simp only [ltoks, List.cons_append, List.nil_append, List.cons.injEq, LTok.word.injEq] at hh
    exact h.2.2.2 (by simp [hh.1, lnotText])
  | op o n args => simp [ltoks]
  | cmp r a b => exact absurd hc (by simp [LExpr.closed])
  | inv a => exact absurd hc (by simp [LExpr.closed])
  | frac a b => simp [ltoks, fracText, lnotText]
  | sqrt a => simp [ltoks, sqrtText, lnotText]
  | pow a b => simp [ltoks]

theorem unique_join {o o' : Op} : ∀ (l l' : List LExpr), l ≠ [] → l' ≠ [] → (∀ e ∈ l, Unique e) → (∀ e ∈ l', Proper e ∧ LeftPlain e) → (o = o' ∨ 2 ≤ l.length ∧ 2 ≤ l'.length) → ∀ rest rest',
    joinL (o.text true) (l.map ltoks) ++ .mark ')' :: rest = joinL (o'.text true) (l'.map ltoks) ++ .mark ')' :: rest' → o = o' ∧ l = l' ∧ rest = rest'
  | [], _, h, _, _, _, _, _, _, _ => absurd rfl h
  | _, [], _, h, _, _, _, _, _, _ => absurd rfl h
  | [x], [x'], _, _, hu, hp, ho, rest, rest', h => by
    simp only [List.map_cons, List.map_nil, joinL] at h
    obtain ⟨rfl, h2⟩ := (hu x (by simp)).2 x' (hp x' (by simp)).1 (hp x' (by simp)).2 _ _ (stops_mark _ _) (stops_mark _ _) h
    refine ⟨?_, rfl, by simpa using h2⟩
    rcases ho with h | h
    · exact h
    · simp at h
  | [x], x' :: y' :: l', _, _, hu, hp, ho, rest, rest', h => by
    simp only [List.map_cons, List.map_nil, joinL, List.append_assoc, List.cons_append] at h
    obtain ⟨rfl, h2⟩ := (hu x (by simp)).2 x' (hp x' (by simp)).1 (hp x' (by simp)).2 _ _ (stops_mark _ _) (stops_op _ _) h
    simp at h2
  | x :: y :: l, [x'], _, _, hu, hp, ho, rest, rest', h => by
    simp only [List.map_cons, List.map_nil, joinL, List.append_assoc, List.cons_append] at h
    obtain ⟨rfl, h2⟩ := (hu x (by simp)).2 x' (hp x' (by simp)).1 (hp x' (by simp)).2 _ _ (stops_op _ _) (stops_mark _ _) h
    simp at h2
  | x :: y :: l, x' :: y' :: l', _, _, hu, hp, ho, rest, rest', h => by
    simp only [List.map_cons, joinL, List.append_assoc, List.cons_append] at h
    obtain ⟨rfl, h2⟩ := (hu x (by simp)).2 x' (hp x' (by simp)).1 (hp x' (by simp)).2 _ _ (stops_op _ _) (stops_op _ _) h
    rw [List.cons.injEq, LTok.word.injEq] at h2
    have ho' := lop_inj h2.1
    obtain ⟨-, h3, h4⟩ := unique_join (y :: l) (y' :: l') (by simp) (by simp) (fun e he => hu e (List.mem_cons_of_mem _ he)) (fun e he => hp e (List.mem_cons_of_mem _ he)) (.inl ho') rest rest' h2.2
    exact ⟨ho', by rw [h3], h4⟩

theorem op_of_lists {o : Op} {n n' : ℕ} {args : Fin n → LExpr} {args' : Fin n' → LExpr} (h : List.ofFn args = List.ofFn args') : LExpr.op o n args = .op o n' args' := by
  have hn : n = n' := by simpa using congrArg List.length h
  subst hn
  rw [List.ofFn_injective h]

theorem name_key {name : Text} (h : Proper (.leaf name)) : name ≠ fracText ∧ name ≠ sqrtText ∧ name ≠ lnotText := by
  refine ⟨?_, ?_, ?_⟩ <;> rintro rfl <;> exact h.2.2.2 (by simp [fracText, sqrtText, lnotText])

/-- What follows from the statement for closed expressions. -/
theorem unique_closed {e : LExpr} (hp : Proper e) (hc : e.closed)
    (h : ∀ e' : LExpr, Proper e' → LeftPlain e' → e'.closed → ∀ rest rest', ltoks e ++ rest = ltoks e' ++ rest' → e = e' ∧ rest = rest') : Unique e := by
  refine ⟨fun _ => h, fun e' hp' hl' rest rest' hr hr' heq => ?_⟩
  cases e' with
  | cmp r a b =>
    rw [ltoks, List.append_assoc] at heq
    obtain ⟨-, h2⟩ := h a hp'.1 hl'.2.1 hl'.1 _ _ heq
    exact absurd h2 (hr r _)
  | inv a => exact absurd heq (closed_head hp hc)
  | leaf name => exact h _ hp' hl' trivial _ _ heq
  | op o n args => exact h _ hp' hl' trivial _ _ heq
  | frac a b => exact h _ hp' hl' trivial _ _ heq
  | sqrt a => exact h _ hp' hl' trivial _ _ heq
  | pow a b => exact h _ hp' hl' trivial _ _ heq

theorem unique : ∀ {e : LExpr}, Proper e → LeftPlain e → Unique e
  | .leaf name, hp, _ => by
    refine unique_closed hp trivial fun e' hp' hl' hc' rest rest' h => ?_
    cases e' with
    | leaf name' => simpa [ltoks] using h
    | op o n args => simp [ltoks] at h
    | cmp r a b => exact absurd hc' id
    | inv a => exact absurd hc' id
    | frac a b => simp [ltoks] at h; exact absurd h.1 (name_key hp).1
    | sqrt a => simp [ltoks] at h; exact absurd h.1 (name_key hp).2.1
    | pow a b => simp [ltoks] at h
  | .op o n args, hp, hl => by
    refine unique_closed hp trivial fun e' hp' hl' hc' rest rest' h => ?_
    cases e' with
    | leaf name' => simp [ltoks] at h
    | op o' n' args' =>
      have h1 := hp.1
      have h1' := hp'.1
      simp only [ltoks, List.cons_append, List.append_assoc, List.cons.injEq, true_and, List.nil_append] at h
      rw [show (List.ofFn fun i => ltoks (args i)) = (List.ofFn args).map ltoks by simp [List.map_ofFn, Function.comp_def],
        show (List.ofFn fun i => ltoks (args' i)) = (List.ofFn args').map ltoks by simp [List.map_ofFn, Function.comp_def]] at h
      obtain ⟨rfl, h2, h3⟩ := unique_join (o := o) (o' := o') (List.ofFn args) (List.ofFn args') (by intro h; have := congrArg List.length h; simp at this; omega)
        (by intro h; have := congrArg List.length h; simp at this; omega)
        (fun e he => by obtain ⟨i, rfl⟩ := List.mem_ofFn.1 he; exact unique (hp.2 i) (hl i))
        (fun e he => by obtain ⟨i, rfl⟩ := List.mem_ofFn.1 he; exact ⟨hp'.2 i, hl' i⟩) (.inr (by simp; omega)) rest rest' h
      exact ⟨op_of_lists h2, h3⟩
    | cmp r a b => exact absurd hc' id
    | inv a => exact absurd hc' id
    | frac a b => simp [ltoks] at h
    | sqrt a => simp [ltoks] at h
    | pow a b => simp [ltoks] at h
  | .frac a b, hp, hl => by
    have ha := unique hp.1 hl.1
    have hb := unique hp.2 hl.2
    refine unique_closed hp trivial fun e' hp' hl' hc' rest rest' h => ?_
    cases e' with
    | leaf name' => simp [ltoks] at h; exact absurd h.1.symm (name_key hp').1
    | op o n args => simp [ltoks] at h
    | cmp r a b => exact absurd hc' id
    | inv a => exact absurd hc' id
    | frac a' b' =>
      simp only [ltoks, List.cons_append, List.append_assoc, List.cons.injEq, true_and, List.nil_append] at h
      obtain ⟨rfl, h2⟩ := ha.2 a' hp'.1 hl'.1 _ _ (stops_mark _ _) (stops_mark _ _) h
      simp only [List.cons.injEq, true_and] at h2
      obtain ⟨rfl, h3⟩ := hb.2 b' hp'.2 hl'.2 _ _ (stops_mark _ _) (stops_mark _ _) h2
      exact ⟨rfl, by simpa using h3⟩
    | sqrt a => simp [ltoks, fracText, sqrtText] at h
    | pow a b => simp [ltoks] at h
  | .sqrt a, hp, hl => by
    have ha := unique (e := a) hp hl
    refine unique_closed hp trivial fun e' hp' hl' hc' rest rest' h => ?_
    cases e' with
    | leaf name' => simp [ltoks] at h; exact absurd h.1.symm (name_key hp').2.1
    | op o n args => simp [ltoks] at h
    | cmp r a b => exact absurd hc' id
    | inv a => exact absurd hc' id
    | frac a' b' => simp [ltoks, fracText, sqrtText] at h
    | sqrt a' =>
      simp only [ltoks, List.cons_append, List.append_assoc, List.cons.injEq, true_and, List.nil_append] at h
      obtain ⟨rfl, h2⟩ := ha.2 a' hp' hl' _ _ (stops_mark _ _) (stops_mark _ _) h
      exact ⟨rfl, by simpa using h2⟩
    | pow a b => simp [ltoks] at h
  | .pow a b, hp, hl => by
    have ha := unique hp.1 hl.1
    have hb := unique hp.2 hl.2
    refine unique_closed hp trivial fun e' hp' hl' hc' rest rest' h => ?_
    cases e' with
    | leaf name' => simp [ltoks] at h
    | op o n args => simp [ltoks] at h
    | cmp r a b => exact absurd hc' id
    | inv a => exact absurd hc' id
    | frac a' b' => simp [ltoks] at h
    | sqrt a => simp [ltoks] at h
    | pow a' b' =>
      simp only [ltoks, List.cons_append, List.append_assoc, List.cons.injEq, true_and, List.nil_append] at h
      obtain ⟨rfl, h2⟩ := ha.2 a' hp'.1 hl'.1 _ _ (stops_mark _ _) (stops_mark _ _) h
      simp only [List.cons.injEq, true_and] at h2
      obtain ⟨rfl, h3⟩ := hb.2 b' hp'.2 hl'.2 _ _ (stops_mark _ _) (stops_mark _ _) h2
      exact ⟨rfl, by simpa using h3⟩
  | .inv a, hp, hl => by
    have ha := unique (e := a) hp hl
    refine ⟨fun hc => absurd hc id, fun e' hp' hl' rest rest' hr hr' h => ?_⟩
    by_cases hc' : e'.closed
    · exact absurd h.symm (by rw [ltoks, List.cons_append]; exact closed_head hp' hc')
    · cases e' with
      | cmp r a' b' =>
        rw [ltoks, ltoks, List.append_assoc, List.cons_append] at h
        exact absurd h.symm (closed_head hp'.1 hl'.1)
      | inv a' =>
        simp only [ltoks, List.cons_append, List.cons.injEq, true_and] at h
        obtain ⟨rfl, h2⟩ := ha.2 a' hp' hl' _ _ hr hr' h
        exact ⟨rfl, h2⟩
      | leaf name => exact absurd trivial hc'
      | op o n args => exact absurd trivial hc'
      | frac a b => exact absurd trivial hc'
      | sqrt a => exact absurd trivial hc'
      | pow a b => exact absurd trivial hc'
  | .cmp r a b, hp, hl => by
    have ha := unique hp.1 hl.2.1
    have hb := unique hp.2 hl.2.2
    refine ⟨fun hc => absurd hc id, fun e' hp' hl' rest rest' hr hr' h => ?_⟩
    by_cases hc' : e'.closed
    · rw [ltoks, List.append_assoc] at h
      obtain ⟨-, h2⟩ := ha.1 hl.1 e' hp' hl' hc' _ _ h
      exact absurd h2.symm (hr' r _)
    · cases e' with
      | cmp r' a' b' =>
        rw [ltoks, ltoks, List.append_assoc, List.append_assoc, List.cons_append, List.cons_append] at h
        obtain ⟨rfl, h2⟩ := ha.1 hl.1 a' hp'.1 hl'.2.1 hl'.1 _ _ h
        rw [List.cons.injEq, LTok.word.injEq] at h2
        have hrr := lcmp_inj h2.1
        subst hrr
        obtain ⟨rfl, h3⟩ := hb.2 b' hp'.2 hl'.2.2 _ _ hr hr' h2.2
        exact ⟨rfl, h3⟩
      | inv a' =>
        rw [ltoks, ltoks, List.append_assoc, List.cons_append] at h
        exact absurd h (closed_head hp.1 hl.1)
      | leaf name => exact absurd trivial hc'
      | op o n args => exact absurd trivial hc'
      | frac a b => exact absurd trivial hc'
      | sqrt a => exact absurd trivial hc'
      | pow a b => exact absurd trivial hc'

theorem text_unique {e e' : LExpr} (hp : Proper e) (hp' : Proper e') (hl : LeftPlain e) (hl' : LeftPlain e') (h : latexText e = latexText e') : e = e' := by
  have h2 : ltoks e = ltoks e' := by rw [← llex_whole hp, ← llex_whole hp', h]
  exact ((unique hp hl).2 e' hp' hl' [] [] stops_nil stops_nil (by rw [h2])).1

/-! ## Regrouping -/

def attach (r : Cmp) : LExpr → LExpr → LExpr
  | .inv a, c => .inv (attach r a c)
  | .cmp s a b, c => .cmp s a (attach r b c)
  | a, c => .cmp r a c

def regroup : LExpr → LExpr
  | .leaf name => .leaf name
  | .op o n args => .op o n fun i => regroup (args i)
  | .cmp r a b => attach r (regroup a) (regroup b)
  | .inv a => .inv (regroup a)
  | .frac a b => .frac (regroup a) (regroup b)
  | .sqrt a => .sqrt (regroup a)
  | .pow a b => .pow (regroup a) (regroup b)

theorem attach_spec (r : Cmp) (c : LExpr) : ∀ a : LExpr, Regrouped (.cmp r a c) (attach r a c) ∧ (Proper a → Proper c → Proper (attach r a c)) ∧ (LeftPlain a → LeftPlain c → LeftPlain (attach r a c))
  | .inv a => by
    obtain ⟨h1, h2, h3⟩ := attach_spec r c a
    exact ⟨(Regrouped.inv_cmp r a c).trans h1.inv, h2, h3⟩
  | .cmp s a b => by
    obtain ⟨h1, h2, h3⟩ := attach_spec r c b
    exact ⟨(Regrouped.cmp_cmp s r a b c).trans ((Regrouped.refl a).cmp s h1), fun h hc => ⟨h.1, h2 h.2 hc⟩, fun h hc => ⟨h.1, h.2.1, h3 h.2.2 hc⟩⟩
  | .leaf _ => ⟨.refl _, fun h hc => ⟨h, hc⟩, fun h hc => ⟨trivial, h, hc⟩⟩
  | .op _ _ _ => ⟨.refl _, fun h hc => ⟨h, hc⟩, fun h hc => ⟨trivial, h, hc⟩⟩
  | .frac _ _ => ⟨.refl _, fun h hc => ⟨h, hc⟩, fun h hc => ⟨trivial, h, hc⟩⟩
  | .sqrt _ => ⟨.refl _, fun h hc => ⟨h, hc⟩, fun h hc => ⟨trivial, h, hc⟩⟩
  | .pow _ _ => ⟨.refl _, fun h hc => ⟨h, hc⟩, fun h hc => ⟨trivial, h, hc⟩⟩

theorem regroup_spec : ∀ e : LExpr, Regrouped e (regroup e) ∧ (Proper e → Proper (regroup e)) ∧ LeftPlain (regroup e)
  | .leaf _ => ⟨.refl _, id, trivial⟩
  | .op o n args => ⟨.op o fun i => (regroup_spec (args i)).1, fun h => ⟨h.1, fun i => (regroup_spec (args i)).2.1 (h.2 i)⟩, fun i => (regroup_spec (args i)).2.2⟩
  | .cmp r a b => by
    obtain ⟨h1, h2, h3⟩ := attach_spec r (regroup b) (regroup a)
    have ha := regroup_spec a
    have hb := regroup_spec b
    exact ⟨(ha.1.cmp r hb.1).trans h1, fun h => h2 (ha.2.1 h.1) (hb.2.1 h.2), h3 ha.2.2 hb.2.2⟩
  | .inv a => ⟨(regroup_spec a).1.inv, (regroup_spec a).2.1, (regroup_spec a).2.2⟩
  | .frac a b => ⟨(regroup_spec a).1.frac (regroup_spec b).1, fun h => ⟨(regroup_spec a).2.1 h.1, (regroup_spec b).2.1 h.2⟩, (regroup_spec a).2.2, (regroup_spec b).2.2⟩
  | .sqrt a => ⟨(regroup_spec a).1.sqrt, (regroup_spec a).2.1, (regroup_spec a).2.2⟩
  | .pow a b => ⟨(regroup_spec a).1.pow (regroup_spec b).1, fun h => ⟨(regroup_spec a).2.1 h.1, (regroup_spec b).2.1 h.2⟩, (regroup_spec a).2.2, (regroup_spec b).2.2⟩

theorem regrouped_text {e e' : LExpr} (h : Regrouped e e') : latexText e = latexText e' := by
  induction h with
  | refl e => rfl
  | symm _ ih => exact ih.symm
  | trans _ _ ih ih' => exact ih.trans ih'
  | inv_cmp r a b => simp [latexText]
  | cmp_cmp r s a b c => simp [latexText]
  | op o _ ih => simp only [latexText, ih]
  | cmp r _ _ iha ihb => simp only [latexText, iha, ihb]
  | inv _ ih => simp only [latexText, ih]
  | frac _ _ iha ihb => simp only [latexText, iha, ihb]
  | sqrt _ ih => simp only [latexText, ih]
  | pow _ _ iha ihb => simp only [latexText, iha, ihb]

end Verif.PrintLatex
