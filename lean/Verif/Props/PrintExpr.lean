import Verif.Spec.PrintExpr
import Mathlib.Data.List.OfFn

/-! # C127: reading printed expressions -/

namespace Verif.PrintExpr
open Verif

/-! ## Words -/

/-- Tokens with a word between them. -/
def joinToks (w : Text) : List (List Tok) → List Tok
  | [] => []
  | [x] => x
  | x :: y :: l => x ++ .word w :: joinToks w (y :: l)

def toks (latex : Bool) : Expr → List Tok
  | .leaf name => [.word name]
  | .op o n args => .opening :: joinToks (o.text latex) (List.ofFn fun i => toks latex (args i)) ++ [.closing]
  | .cmp r a b => toks latex a ++ .word (r.text latex) :: toks latex b

/-- A word ends here. -/
def Boundary (rest : Text) : Prop := rest = [] ∨ ∃ cs, rest = ' ' :: cs ∨ rest = ')' :: cs

theorem lex_boundary {rest : Text} (h : Boundary rest) (acc : Text) : lex acc rest = flush acc ++ lex [] rest := by
  rcases h with rfl | ⟨cs, rfl | rfl⟩ <;> simp [lex, flush]

theorem lex_word : ∀ {w : Text} (acc rest : Text), (∀ c ∈ w, c ≠ '(' ∧ c ≠ ')' ∧ c ≠ ' ') → lex acc (w ++ rest) = lex (acc ++ w) rest
  | [], acc, rest, _ => by simp
  | c :: w, acc, rest, h => by
    obtain ⟨h1, h2, h3⟩ := h c (by simp)
    rw [List.cons_append, lex, if_neg h1, if_neg h2, if_neg h3, lex_word (acc ++ [c]) rest fun c' hc' => h c' (by simp [hc'])]
    simp

theorem lex_name {w : Text} (hne : w ≠ []) (h : ∀ c ∈ w, c ≠ '(' ∧ c ≠ ')' ∧ c ≠ ' ') {rest : Text} (hr : Boundary rest) : lex [] (w ++ rest) = .word w :: lex [] rest := by
  rw [lex_word [] rest h, lex_boundary hr, List.nil_append, flush, if_neg hne]
  rfl

theorem op_text (latex : Bool) (o : Op) : o.text latex ≠ [] ∧ ∀ c ∈ o.text latex, c ≠ '(' ∧ c ≠ ')' ∧ c ≠ ' ' := by cases latex <;> cases o <;> simp [Op.text]

theorem cmp_text (latex : Bool) (r : Cmp) : r.text latex ≠ [] ∧ ∀ c ∈ r.text latex, c ≠ '(' ∧ c ≠ ')' ∧ c ≠ ' ' := by cases latex <;> cases r <;> simp [Cmp.text]

theorem op_text_inj {latex : Bool} {o o' : Op} (h : o.text latex = o'.text latex) : o = o' := by cases latex <;> cases o <;> cases o' <;> simp [Op.text] at h ⊢

theorem cmp_text_inj {latex : Bool} {r r' : Cmp} (h : r.text latex = r'.text latex) : r = r' := by cases latex <;> cases r <;> cases r' <;> simp [Cmp.text] at h ⊢

theorem op_ne_cmp (latex : Bool) (o : Op) (r : Cmp) : o.text latex ≠ r.text latex := by cases latex <;> cases o <;> cases r <;> simp [Op.text, Cmp.text]

theorem lex_sign {w : Text} (hne : w ≠ []) (h : ∀ c ∈ w, c ≠ '(' ∧ c ≠ ')' ∧ c ≠ ' ') (rest : Text) : lex [] (' ' :: (w ++ ' ' :: rest)) = .word w :: lex [] rest := by
  have h1 : lex [] (' ' :: (w ++ ' ' :: rest)) = lex [] (w ++ ' ' :: rest) := by simp [lex, flush]
  rw [h1, lex_name hne h (.inr ⟨rest, .inl rfl⟩)]
  simp [lex, flush]

theorem lex_join {latex : Bool} (o : Op) : ∀ {l : List (Text × List Tok)}, (∀ p ∈ l, ∀ rest, Boundary rest → lex [] (p.1 ++ rest) = p.2 ++ lex [] rest) → ∀ rest, Boundary rest →
    lex [] (joinText (' ' :: o.text latex ++ [' ']) (l.map Prod.fst) ++ rest) = joinToks (o.text latex) (l.map Prod.snd) ++ lex [] rest
  | [], _, rest, _ => rfl
  | [p], h, rest, hr => h p (by simp) rest hr
  | p :: q :: l, h, rest, hr => by
    have ih := lex_join (latex := latex) o (l := q :: l) (fun p' hp' => h p' (by simp [List.mem_cons.1 hp'])) rest hr
    simp only [List.map_cons, joinText, joinToks, List.append_assoc, List.cons_append, List.nil_append] at ih ⊢
    rw [h p (by simp) _ (.inr ⟨_, .inl rfl⟩), lex_sign (op_text latex o).1 (op_text latex o).2, ih]

theorem lex_render {latex : Bool} : ∀ {e : Expr}, Proper latex e → ∀ rest, Boundary rest → lex [] (render latex e ++ rest) = toks latex e ++ lex [] rest
  | .leaf name, h, rest, hr => by
    rw [Proper] at h
    exact lex_name h.1 h.2.1 hr
  | .op o n args, h, rest, hr => by
    rw [Proper] at h
    have h1 := lex_join (latex := latex) o (l := List.ofFn fun i => (render latex (args i), toks latex (args i)))
      (fun p hp => by obtain ⟨i, rfl⟩ := List.mem_ofFn.1 hp; exact lex_render (h.2 i)) (')' :: rest) (.inr ⟨rest, .inr rfl⟩)
    rw [List.map_ofFn, List.map_ofFn] at h1
    rw [render, toks, if_neg (by omega)]
    simp only [List.nil_append, List.cons_append, List.append_assoc, Function.comp_def] at h1 ⊢
    rw [lex, if_pos rfl, h1]
    simp [flush, lex]
  | .cmp r a b, h, rest, hr => by
    rw [Proper] at h
    rw [render, toks]
    simp only [List.append_assoc, List.cons_append]
    rw [lex_render h.1 _ (.inr ⟨_, .inl rfl⟩), lex_sign (cmp_text latex r).1 (cmp_text latex r).2, lex_render h.2 rest hr]

/-! ## Splitting -/

/-- `ts` in front of the first piece. -/
def prepend (ts : List Tok) : List (List Tok) → List (List Tok)
  | [] => [ts]
  | p :: ps => (ts ++ p) :: ps

theorem splitTop_ne (w : Text) (d : ℕ) (ts : List Tok) : splitTop w d ts ≠ [] := by
  cases ts with
  | nil => simp [splitTop]
  | cons t ts =>
    rw [splitTop]
    split
    · simp
    · cases splitTop w (deep d t) ts <;> simp [consHead]

theorem consHead_eq (t : Tok) (ps : List (List Tok)) : consHead t ps = prepend [t] ps := by cases ps <;> rfl

theorem prepend_append (s t : List Tok) {ps : List (List Tok)} (h : ps ≠ []) : prepend s (prepend t ps) = prepend (s ++ t) ps := by
  cases ps with
  | nil => exact absurd rfl h
  | cons p ps => simp [prepend]

/-- Tokens that contain no `w` outside of parentheses and whose parentheses match. -/
def Whole (w : Text) (ts : List Tok) : Prop := ∀ d rest, splitTop w d (ts ++ rest) = prepend ts (splitTop w d rest)

theorem Whole.append {w : Text} {s t : List Tok} (hs : Whole w s) (ht : Whole w t) : Whole w (s ++ t) := fun d rest => by
  rw [List.append_assoc, hs, ht, prepend_append _ _ (splitTop_ne _ _ _)]

theorem Whole.word {w v : Text} (h : v ≠ w) : Whole w [.word v] := fun d rest => by
  rw [List.singleton_append, splitTop, if_neg (by simp [h]), consHead_eq]
  rfl

/-- Inside of parentheses any word may follow. -/
def Inside (w : Text) (ts : List Tok) : Prop := ∀ d rest, splitTop w (d + 1) (ts ++ rest) = prepend ts (splitTop w (d + 1) rest)

theorem Whole.inside {w : Text} {ts : List Tok} (h : Whole w ts) : Inside w ts := fun d rest => h (d + 1) rest

theorem Inside.append {w : Text} {s t : List Tok} (hs : Inside w s) (ht : Inside w t) : Inside w (s ++ t) := fun d rest => by
  rw [List.append_assoc, hs, ht, prepend_append _ _ (splitTop_ne _ _ _)]

theorem Inside.word {w v : Text} : Inside w [.word v] := fun d rest => by
  rw [List.singleton_append, splitTop, if_neg (by simp), consHead_eq]
  rfl

theorem Inside.join {w v : Text} : ∀ {l : List (List Tok)}, (∀ ts ∈ l, Inside w ts) → Inside w (joinToks v l)
  | [], _ => fun d rest => by
    rw [joinToks, List.nil_append]
    cases h : splitTop w (d + 1) rest with
    | nil => exact absurd h (splitTop_ne _ _ _)
    | cons p ps => rfl
  | [x], h => h x (by simp)
  | x :: y :: l, h => by
    have h1 : joinToks v (x :: y :: l) = x ++ ([.word v] ++ joinToks v (y :: l)) := rfl
    rw [h1]
    exact (h x (by simp)).append (Inside.word.append (Inside.join fun ts hts => h ts (by simp [List.mem_cons.1 hts])))

theorem Inside.group {w : Text} {ts : List Tok} (h : Inside w ts) : Whole w (.opening :: ts ++ [.closing]) := fun d rest => by
  simp only [List.cons_append, List.append_assoc, List.nil_append]
  rw [splitTop, if_neg (by simp), deep, h]
  rw [splitTop, if_neg (by simp), deep, consHead_eq, consHead_eq, prepend_append _ _ (splitTop_ne _ _ _), Nat.add_sub_cancel, prepend_append _ _ (splitTop_ne _ _ _)]
  simp

/-- No operator is outside of parentheses. -/
theorem toks_whole {latex : Bool} {w : Text} (hw : (∃ o : Op, w = o.text latex)) : ∀ {e : Expr}, Proper latex e → Whole w (toks latex e)
  | .leaf name, h => by
    rw [Proper] at h
    exact .word fun e => h.2.2 (.inl (by rw [e]; exact hw))
  | .op o n args, h => by
    rw [Proper] at h
    exact (Inside.join fun ts hts => by obtain ⟨i, rfl⟩ := List.mem_ofFn.1 hts; exact (toks_whole hw (h.2 i)).inside).group
  | .cmp r a b, h => by
    rw [Proper] at h
    obtain ⟨o, rfl⟩ := hw
    have : toks latex (.cmp r a b) = toks latex a ++ ([.word (r.text latex)] ++ toks latex b) := rfl
    rw [this]
    exact (toks_whole ⟨o, rfl⟩ h.1).append ((Whole.word fun e => op_ne_cmp latex o r e.symm).append (toks_whole ⟨o, rfl⟩ h.2))

theorem Whole.split {w : Text} {ts : List Tok} (h : Whole w ts) : splitTop w 0 ts = [ts] := by
  have := h 0 []
  rw [List.append_nil] at this
  simpa [splitTop, prepend] using this

theorem split_join {w : Text} : ∀ {l : List (List Tok)}, l ≠ [] → (∀ ts ∈ l, Whole w ts) → splitTop w 0 (joinToks w l) = l
  | [], h, _ => absurd rfl h
  | [x], _, h => (h x (by simp)).split
  | x :: y :: l, _, h => by
    rw [joinToks, h x (by simp), splitTop, if_pos ⟨rfl, rfl⟩, split_join (by simp) fun ts hts => h ts (by simp [List.mem_cons.1 hts])]
    simp [prepend]

theorem Whole.join {w v : Text} (hv : v ≠ w) : ∀ {l : List (List Tok)}, l ≠ [] → (∀ ts ∈ l, Whole w ts) → Whole w (joinToks v l)
  | [], h, _ => absurd rfl h
  | [x], _, h => h x (by simp)
  | x :: y :: l, _, h => by
    have h1 : joinToks v (x :: y :: l) = x ++ ([.word v] ++ joinToks v (y :: l)) := rfl
    rw [h1]
    exact (h x (by simp)).append ((Whole.word hv).append (Whole.join hv (by simp) fun ts hts => h ts (by simp [List.mem_cons.1 hts])))

/-! ## Comparison signs -/

theorem find_cmp (latex : Bool) (r : Cmp) : ([Cmp.ge, .gt, .le, .lt, .eq].find? fun r' => decide (0 = 0 ∧ Tok.word (r.text latex) = Tok.word (r'.text latex))) = some r := by
  cases latex <;> cases r <;> decide

theorem find_none {latex : Bool} {d : ℕ} {t : Tok} (h : d = 0 → ∀ r : Cmp, t ≠ .word (r.text latex)) :
    ([Cmp.ge, .gt, .le, .lt, .eq].find? fun r => decide (d = 0 ∧ t = .word (r.text latex))) = none := by
  rw [List.find?_eq_none]
  intro r _
  simp only [decide_eq_true_eq, not_and]
  exact fun h0 => h h0 r

/-- Tokens without comparison sign outside of parentheses. -/
def NoCmp (latex : Bool) (ts : List Tok) : Prop := ∀ d rest, firstCmp latex d (ts ++ rest) = (firstCmp latex d rest).map fun q => (ts ++ q.1, q.2)

theorem NoCmp.nil {latex : Bool} : NoCmp latex [] := fun d rest => by simp

theorem NoCmp.append {latex : Bool} {s t : List Tok} (hs : NoCmp latex s) (ht : NoCmp latex t) : NoCmp latex (s ++ t) := fun d rest => by
  rw [List.append_assoc, hs, ht, Option.map_map]
  congr 1
  funext q
  simp

theorem NoCmp.word {latex : Bool} {v : Text} (h : ∀ r : Cmp, v ≠ r.text latex) : NoCmp latex [.word v] := fun d rest => by
  rw [List.singleton_append, firstCmp, find_none fun _ r => by simpa using h r]
  rfl

def InsideC (latex : Bool) (ts : List Tok) : Prop := ∀ d rest, firstCmp latex (d + 1) (ts ++ rest) = (firstCmp latex (d + 1) rest).map fun q => (ts ++ q.1, q.2)

theorem InsideC.append {latex : Bool} {s t : List Tok} (hs : InsideC latex s) (ht : InsideC latex t) : InsideC latex (s ++ t) := fun d rest => by
  rw [List.append_assoc, hs, ht, Option.map_map]
  congr 1
  funext q
  simp

theorem InsideC.word {latex : Bool} {v : Text} : InsideC latex [.word v] := fun d rest => by
  rw [List.singleton_append, firstCmp, find_none (by simp)]
  rfl

theorem InsideC.join {latex : Bool} {v : Text} : ∀ {l : List (List Tok)}, (∀ ts ∈ l, InsideC latex ts) → InsideC latex (joinToks v l)
  | [], _ => fun d rest => by simp [joinToks]
  | [x], h => h x (by simp)
  | x :: y :: l, h => by
    have h1 : joinToks v (x :: y :: l) = x ++ ([.word v] ++ joinToks v (y :: l)) := rfl
    rw [h1]
    exact (h x (by simp)).append (InsideC.word.append (InsideC.join fun ts hts => h ts (by simp [List.mem_cons.1 hts])))

theorem InsideC.group {latex : Bool} {ts : List Tok} (h : InsideC latex ts) : NoCmp latex (.opening :: ts ++ [.closing]) := fun d rest => by
  simp only [List.cons_append, List.append_assoc, List.nil_append]
  rw [firstCmp, find_none (by simp), deep]
  simp only
  rw [h, firstCmp, find_none (by simp), deep, Nat.add_sub_cancel]
  simp only [Option.map_map]
  congr 1

theorem toks_insideC {latex : Bool} : ∀ e : Expr, InsideC latex (toks latex e)
  | .leaf name => .word
  | .op o n args => fun d rest => (InsideC.join fun ts hts => by obtain ⟨i, rfl⟩ := List.mem_ofFn.1 hts; exact toks_insideC (args i)).group (d + 1) rest
  | .cmp r a b => by
    have : toks latex (.cmp r a b) = toks latex a ++ ([.word (r.text latex)] ++ toks latex b) := rfl
    rw [this]
    exact (toks_insideC a).append (InsideC.word.append (toks_insideC b))

theorem toks_noCmp {latex : Bool} {e : Expr} (hp : Proper latex e) (h : ¬ e.isCmp) : NoCmp latex (toks latex e) := by
  cases e with
  | leaf name =>
    rw [Proper] at hp
    exact .word fun r e => hp.2.2 (.inr ⟨r, e⟩)
  | op o n args => exact (InsideC.join fun ts hts => by obtain ⟨i, rfl⟩ := List.mem_ofFn.1 hts; exact toks_insideC (args i)).group
  | cmp r a b => exact absurd trivial h

theorem NoCmp.first {latex : Bool} {ts : List Tok} (h : NoCmp latex ts) : firstCmp latex 0 ts = none := by
  have := h 0 []
  rw [List.append_nil] at this
  simpa [firstCmp] using this

theorem NoCmp.sign {latex : Bool} {ts : List Tok} (h : NoCmp latex ts) (r : Cmp) (rest : List Tok) : firstCmp latex 0 (ts ++ .word (r.text latex) :: rest) = some (ts, r, rest) := by
  rw [h, firstCmp, find_cmp]
  simp

theorem NoCmp.join {latex : Bool} {v : Text} (hv : ∀ r : Cmp, v ≠ r.text latex) : ∀ {l : List (List Tok)}, (∀ ts ∈ l, NoCmp latex ts) → NoCmp latex (joinToks v l)
  | [], _ => .nil
  | [x], h => h x (by simp)
  | x :: y :: l, h => by
    have h1 : joinToks v (x :: y :: l) = x ++ ([.word v] ++ joinToks v (y :: l)) := rfl
    rw [h1]
    exact (h x (by simp)).append ((NoCmp.word hv).append (NoCmp.join hv fun ts hts => h ts (by simp [List.mem_cons.1 hts])))

/-! ## Parentheses -/

def Through (ts : List Tok) : Prop := ∀ d rest, matching d (ts ++ rest) = (matching d rest).map fun q => (ts ++ q.1, q.2)

theorem Through.append {s t : List Tok} (hs : Through s) (ht : Through t) : Through (s ++ t) := fun d rest => by
  rw [List.append_assoc, hs, ht, Option.map_map]
  congr 1
  funext q
  simp

theorem Through.word {v : Text} : Through [.word v] := fun d rest => by
  cases d <;> simp [matching, deep]

theorem Through.join {v : Text} : ∀ {l : List (List Tok)}, (∀ ts ∈ l, Through ts) → Through (joinToks v l)
  | [], _ => fun d rest => by simp [joinToks]
  | [x], h => h x (by simp)
  | x :: y :: l, h => by
    have h1 : joinToks v (x :: y :: l) = x ++ ([.word v] ++ joinToks v (y :: l)) := rfl
    rw [h1]
    exact (h x (by simp)).append (Through.word.append (Through.join fun ts hts => h ts (by simp [List.mem_cons.1 hts])))

theorem Through.group {ts : List Tok} (h : Through ts) : Through (.opening :: ts ++ [.closing]) := fun d rest => by
  simp only [List.cons_append, List.append_assoc, List.nil_append]
  have h1 : ∀ r, matching d (.opening :: r) = (matching (d + 1) r).map fun q => (.opening :: q.1, q.2) := fun r => by cases d <;> simp [matching, deep]
  have h2 : matching (d + 1) (.closing :: rest) = (matching d rest).map fun q => (.closing :: q.1, q.2) := by simp [matching, deep]
  rw [h1, h, h2]
  simp only [Option.map_map]
  congr 1

theorem toks_through {latex : Bool} : ∀ e : Expr, Through (toks latex e)
  | .leaf name => .word
  | .op o n args => (Through.join fun ts hts => by obtain ⟨i, rfl⟩ := List.mem_ofFn.1 hts; exact toks_through (args i)).group
  | .cmp r a b => by
    have : toks latex (.cmp r a b) = toks latex a ++ ([.word (r.text latex)] ++ toks latex b) := rfl
    rw [this]
    exact (toks_through a).append (Through.word.append (toks_through b))

theorem matching_inside {latex : Bool} (o : Op) {n : ℕ} (args : Fin n → Expr) (rest : List Tok) :
    matching 0 (joinToks (o.text latex) (List.ofFn fun i => toks latex (args i)) ++ .closing :: rest) = some (joinToks (o.text latex) (List.ofFn fun i => toks latex (args i)), rest) := by
  rw [Through.join fun ts hts => by obtain ⟨i, rfl⟩ := List.mem_ofFn.1 hts; exact toks_through (args i)]
  simp [matching]

/-! ## Reading -/

variable {latex : Bool}

theorem readAtom_more (inner : List Tok → Option Expr) : ∀ (e : Expr) (v : Text) (ts : List Tok), readAtom latex inner (toks latex e ++ .word v :: ts) = none
  | .leaf name, v, ts => rfl
  | .op o n args, v, ts => by
    rw [toks]
    simp only [List.cons_append, List.append_assoc, List.nil_append]
    rw [readAtom, matching_inside]
  | .cmp r a b, v, ts => by
    rw [toks]
    simp only [List.cons_append, List.append_assoc]
    exact readAtom_more inner a _ _

theorem readAtom_op (inner : List Tok → Option Expr) (o : Op) {n : ℕ} (args : Fin n → Expr) :
    readAtom latex inner (toks latex (.op o n args)) = inner (joinToks (o.text latex) (List.ofFn fun i => toks latex (args i))) := by
  rw [toks]
  simp only [List.cons_append]
  rw [readAtom, matching_inside]

theorem readAt_pass (inner : List Tok → Option Expr) {o : Op} (ls : List Level) {ts : List Tok} (h : Whole (o.text latex) ts) : readAt latex inner (.op o :: ls) ts = readAt latex inner ls ts := by
  rw [readAt, h.split]

theorem readAt_noCmp (inner : List Tok → Option Expr) (ls : List Level) {ts : List Tok} (h : firstCmp latex 0 ts = none) : readAt latex inner (.cmp :: ls) ts = readAt latex inner ls ts := by
  rw [readAt, h]

theorem readAt_someCmp (inner : List Tok → Option Expr) (ls : List Level) {ts : List Tok} {q} (h : firstCmp latex 0 ts = some q) (o : Op) (n : ℕ) (args : Fin n → Expr) : readAt latex inner (.cmp :: ls) ts ≠ some (.op o n args) := by
  rw [readAt, h]
  simp only
  split <;> simp

theorem readAt_arith (inner : List Tok → Option Expr) {e : Expr} (he : Proper latex e) : readAt latex inner [.op .add, .op .mul, .op .dot] (toks latex e) = readAtom latex inner (toks latex e) := by
  rw [readAt_pass _ _ (toks_whole ⟨_, rfl⟩ he), readAt_pass _ _ (toks_whole ⟨_, rfl⟩ he), readAt_pass _ _ (toks_whole ⟨_, rfl⟩ he), readAt]

/-- The first sign in a row of comparisons. -/
theorem firstCmp_cmp : ∀ {e : Expr}, Proper latex e → e.isCmp → ∀ rest, ∃ l r e', Proper latex e' ∧ firstCmp latex 0 (toks latex e ++ rest) = some (l, r, toks latex e' ++ rest)
  | .leaf _, _, h, _ => absurd h (by simp [Expr.isCmp])
  | .op _ _ _, _, h, _ => absurd h (by simp [Expr.isCmp])
  | .cmp r a b, hp, _, rest => by
    rw [Proper] at hp
    simp only [toks, List.append_assoc, List.cons_append]
    by_cases ha : a.isCmp
    · obtain ⟨l, r', e', he', h⟩ := firstCmp_cmp hp.1 ha (.word (r.text latex) :: (toks latex b ++ rest))
      refine ⟨l, r', .cmp r e' b, by rw [Proper]; exact ⟨he', hp.2⟩, ?_⟩
      rw [h]
      simp [toks]
    · exact ⟨_, _, b, hp.2, (toks_noCmp hp.1 ha).sign r _⟩

theorem mapM_some {α β : Type} {f : α → Option β} : ∀ {l : List α} {l' : List β}, l.mapM f = some l' ↔ List.Forall₂ (fun a b => f a = some b) l l'
  | [], l' => by simp [eq_comm]
  | a :: l, l' => by
    simp only [List.mapM_cons, Option.bind_eq_bind, Option.bind_eq_some_iff, Option.pure_def, Option.some.injEq]
    constructor
    · rintro ⟨b, hb, bs, hbs, rfl⟩
      exact .cons hb (mapM_some.1 hbs)
    · intro h
      cases h with
      | cons hb h => exact ⟨_, hb, _, mapM_some.2 h, rfl⟩

theorem ofList_ofFn (o : Op) {n : ℕ} (args : Fin n → Expr) : ofList o (List.ofFn args) = .op o n args := by
  have h : (List.ofFn args).length = n := List.length_ofFn
  rw [ofList]
  have h2 : ∀ {k : ℕ} (hk : k = n) (g : Fin k → Expr), (∀ i, g i = args (Fin.cast hk i)) → Expr.op o k g = .op o n args := by
    rintro k rfl g hg
    congr 1
    funext i
    exact hg i
  exact h2 h _ fun i => by simp; rfl

theorem ofList_inj {o : Op} {l : List Expr} {n : ℕ} {args : Fin n → Expr} (h : ofList o l = .op o n args) : l = List.ofFn args := by
  rw [ofList] at h
  cases h
  simp

/-- The pieces of an operation are read one by one. -/
theorem pieces_iff {g : List Tok → Option Expr} {o : Op} {n : ℕ} {args : Fin n → Expr} :
    ((List.ofFn fun i => toks latex (args i)).mapM g).map (ofList o) = some (.op o n args) ↔ ∀ i, g (toks latex (args i)) = some (args i) := by
  rw [Option.map_eq_some_iff]
  constructor
  · rintro ⟨l, h1, h2⟩
    rw [ofList_inj h2, mapM_some, List.forall₂_iff_get] at h1
    intro i
    simpa using h1.2 i (by simp) (by simp)
  · intro h
    refine ⟨List.ofFn args, mapM_some.2 (List.forall₂_iff_get.2 ⟨by simp, fun i h1 h2 => ?_⟩), ofList_ofFn o args⟩
    simpa using h ⟨i, by simpa using h1⟩

theorem readAt_op (inner : List Tok → Option Expr) (o : Op) (ls : List Level) {n : ℕ} (hn : 2 ≤ n) {args : Fin n → Expr} (hp : ∀ i, Proper latex (args i)) :
    readAt latex inner (.op o :: ls) (joinToks (o.text latex) (List.ofFn fun i => toks latex (args i))) = ((List.ofFn fun i => toks latex (args i)).mapM (readAt latex inner ls)).map (ofList o) := by
  have hlen : (List.ofFn fun i => toks latex (args i)).length = n := List.length_ofFn
  rw [readAt, split_join (by intro h; rw [h] at hlen; simp at hlen; omega) fun ts hts => by obtain ⟨i, rfl⟩ := List.mem_ofFn.1 hts; exact toks_whole ⟨o, rfl⟩ (hp i)]
  generalize (List.ofFn fun i => toks latex (args i)) = l at hlen ⊢
  match l, hlen with
  | [], h => simp at h; omega
  | [x], h => simp at h; omega
  | x :: y :: l, _ => rfl

theorem readAt_skip (inner : List Tok → Option Expr) {o o' : Op} (hne : o ≠ o') (ls : List Level) {n : ℕ} (hn : 2 ≤ n) {args : Fin n → Expr} (hp : ∀ i, Proper latex (args i)) :
    readAt latex inner (.op o' :: ls) (joinToks (o.text latex) (List.ofFn fun i => toks latex (args i))) = readAt latex inner ls (joinToks (o.text latex) (List.ofFn fun i => toks latex (args i))) :=
  readAt_pass _ _ (Whole.join (fun h => hne (op_text_inj h)) (by intro h; have := congrArg List.length h; simp at this; omega)
    fun ts hts => by obtain ⟨i, rfl⟩ := List.mem_ofFn.1 hts; exact toks_whole ⟨o', rfl⟩ (hp i))

theorem firstCmp_join {o : Op} : ∀ {l : List Expr}, (∀ e ∈ l, Proper latex e) → (∃ e ∈ l, e.isCmp) → ∀ rest, ∃ q, firstCmp latex 0 (joinToks (o.text latex) (l.map (toks latex)) ++ rest) = some q
  | [], _, h, _ => by simp at h
  | [x], hp, h, rest => by
    obtain ⟨e, he, hc⟩ := h
    simp only [List.mem_singleton] at he
    subst he
    obtain ⟨l, r, e', -, h⟩ := firstCmp_cmp (hp e (by simp)) hc rest
    exact ⟨_, h⟩
  | x :: y :: l, hp, h, rest => by
    have h1 : joinToks (o.text latex) ((x :: y :: l).map (toks latex)) ++ rest = toks latex x ++ (.word (o.text latex) :: (joinToks (o.text latex) ((y :: l).map (toks latex)) ++ rest)) := by
      simp [joinToks]
    rw [h1]
    by_cases hx : x.isCmp
    · obtain ⟨l, r, e', -, h⟩ := firstCmp_cmp (hp x (by simp)) hx (.word (o.text latex) :: (joinToks (o.text latex) ((y :: l).map (toks latex)) ++ rest))
      exact ⟨_, h⟩
    · obtain ⟨e, he, hc⟩ := h
      have he' : e ∈ y :: l := by
        rcases List.mem_cons.1 he with rfl | he
        · exact absurd hc hx
        · exact he
      obtain ⟨q, hq⟩ := firstCmp_join (o := o) (l := y :: l) (fun e he => hp e (List.mem_cons_of_mem _ he)) ⟨e, he', hc⟩ rest
      rw [toks_noCmp (hp x (by simp)) hx, firstCmp, find_none fun _ r => by simpa using op_ne_cmp latex o r]
      simp only [deep, hq, Option.map_some]
      exact ⟨_, rfl⟩

/-- Fuel is enough. -/
def Fits : ℕ → Expr → Prop
  | _, .leaf _ => True
  | 0, .op _ _ _ => False
  | k + 1, .op _ _ args => ∀ i, Fits k (args i)
  | k, .cmp _ a b => Fits k a ∧ Fits k b

theorem read_iff : ∀ (e : Expr) (k : ℕ), Proper latex e → Fits k e →
    (readAt latex (readToks latex k) [.cmp, .op .add, .op .mul, .op .dot] (toks latex e) = some e ↔ Plain e)
  | .leaf name, k, hp, _ => by
    rw [readAt, (toks_noCmp hp (by simp [Expr.isCmp])).first]
    simp only
    rw [readAt_arith _ hp]
    rw [Proper] at hp
    simp [toks, readAtom, hp.2.2, Plain]
  | .cmp r a b, k, hp, hf => by
    have hp' := hp
    rw [Proper] at hp
    have hf' : Fits k a ∧ Fits k b := by
      cases k <;> exact hf
    have iha := read_iff a k hp.1 hf'.1
    have ihb := read_iff b k hp.2 hf'.2
    rw [Plain]
    by_cases ha : a.isCmp
    · refine iff_of_false ?_ fun h => h.2.2.1 ha
      obtain ⟨l, r', e', he', h⟩ := firstCmp_cmp hp.1 ha (.word (r.text latex) :: toks latex b)
      have h' : firstCmp latex 0 (toks latex (.cmp r a b)) = some (l, r', toks latex (.cmp r e' b)) := h
      rw [readAt, h']
      simp only
      rw [readAt_arith _ (by rw [Proper]; exact ⟨he', hp.2⟩), show toks latex (.cmp r e' b) = toks latex e' ++ .word (r.text latex) :: toks latex b from rfl, readAtom_more]
      cases readAt latex (readToks latex k) [.op .add, .op .mul, .op .dot] l <;> simp
    · have h' : firstCmp latex 0 (toks latex (.cmp r a b)) = some (toks latex a, r, toks latex b) := (toks_noCmp hp.1 ha).sign r _
      rw [readAt, h']
      simp only
      rw [readAt_arith _ hp.1, readAt_arith _ hp.2]
      rw [readAt, (toks_noCmp hp.1 ha).first] at iha
      simp only at iha
      rw [readAt_arith _ hp.1] at iha
      by_cases hb : b.isCmp
      · refine iff_of_false ?_ fun h => h.2.2.2 hb
        cases b with
        | cmp r2 b1 b2 =>
          rw [show toks latex (.cmp r2 b1 b2) = toks latex b1 ++ .word (r2.text latex) :: toks latex b2 from rfl, readAtom_more]
          cases readAtom latex (readToks latex k) (toks latex a) <;> simp
        | leaf _ => exact absurd hb (by simp [Expr.isCmp])
        | op _ _ _ => exact absurd hb (by simp [Expr.isCmp])
      · rw [readAt, (toks_noCmp hp.2 hb).first] at ihb
        simp only at ihb
        rw [readAt_arith _ hp.2] at ihb
        rw [← iha, ← ihb]
        cases readAtom latex (readToks latex k) (toks latex a) <;> cases readAtom latex (readToks latex k) (toks latex b) <;> simp [ha, hb]
  | .op o n args, 0, hp, hf => absurd hf (by simp [Fits])
  | .op o n args, k + 1, hp, hf => by
    have hp' := hp
    rw [Proper] at hp
    rw [Fits] at hf
    have ih := fun i => read_iff (args i) k (hp.2 i) (hf i)
    rw [readAt, (toks_noCmp hp' (by simp [Expr.isCmp])).first]
    simp only
    rw [readAt_arith _ hp', readAtom_op, readToks, levels, Plain]
    have hlow : ∀ i, ¬ (args i).isCmp → readAtom latex (readToks latex k) (toks latex (args i)) = readAt latex (readToks latex k) [.cmp, .op .add, .op .mul, .op .dot] (toks latex (args i)) := fun i hi => by
      rw [readAt, (toks_noCmp (hp.2 i) hi).first]
      simp only
      rw [readAt_arith _ (hp.2 i)]
    have harith : ∀ o' : Op, o ≠ .or → o ≠ .and → ((readAt latex (readToks latex k) [.op .or, .op .and, .cmp, .op .add, .op .mul, .op .dot] (joinToks (o.text latex) (List.ofFn fun i => toks latex (args i))) = some (.op o n args)) ↔
        (∀ i, ¬ (args i).isCmp) ∧ readAt latex (readToks latex k) [.op .add, .op .mul, .op .dot] (joinToks (o.text latex) (List.ofFn fun i => toks latex (args i))) = some (.op o n args)) := fun _ h1 h2 => by
      rw [readAt_skip _ h1 _ hp.1 hp.2, readAt_skip _ h2 _ hp.1 hp.2]
      by_cases hc : ∀ i, ¬ (args i).isCmp
      · have : NoCmp latex (joinToks (o.text latex) (List.ofFn fun i => toks latex (args i))) :=
          .join (fun r => op_ne_cmp latex o r) fun ts hts => by obtain ⟨i, rfl⟩ := List.mem_ofFn.1 hts; exact toks_noCmp (hp.2 i) (hc i)
        rw [readAt_noCmp _ _ this.first]
        simp only [hc, not_false_eq_true, implies_true, true_and]
      · simp only [hc, false_and, iff_false]
        push Not at hc
        obtain ⟨i, hi⟩ := hc
        obtain ⟨q, hq⟩ := firstCmp_join (latex := latex) (o := o) (l := List.ofFn args) (fun e he => by obtain ⟨i, rfl⟩ := List.mem_ofFn.1 he; exact hp.2 i) ⟨args i, List.mem_ofFn.2 ⟨i, rfl⟩, hi⟩ []
        rw [List.append_nil, List.map_ofFn] at hq
        exact readAt_someCmp _ _ hq o n args
    cases o with
    | or =>
      rw [readAt_op _ _ _ hp.1 hp.2, pieces_iff]
      simp only [ne_eq, reduceCtorEq, not_true_eq_false, false_imp_iff, not_false_eq_true, true_imp_iff, and_true]
      refine forall_congr' fun i => ?_
      rw [readAt_pass _ _ (toks_whole ⟨_, rfl⟩ (hp.2 i)), ih i]
    | and =>
      rw [readAt_skip _ (by simp) _ hp.1 hp.2, readAt_op _ _ _ hp.1 hp.2, pieces_iff]
      simp only [ne_eq, not_true_eq_false, false_imp_iff, and_true]
      exact forall_congr' fun i => ih i
    | add =>
      rw [harith .add (by simp) (by simp), readAt_op _ _ _ hp.1 hp.2, pieces_iff, ← forall_and]
      refine forall_congr' fun i => ?_
      rw [readAt_pass _ _ (toks_whole ⟨_, rfl⟩ (hp.2 i)), readAt_pass _ _ (toks_whole ⟨_, rfl⟩ (hp.2 i)), readAt]
      by_cases hc : (args i).isCmp
      · simp [hc]
      · rw [hlow i hc, ih i]; simp [hc]
    | mul =>
      rw [harith .add (by simp) (by simp), readAt_skip _ (by simp) _ hp.1 hp.2, readAt_op _ _ _ hp.1 hp.2, pieces_iff, ← forall_and]
      refine forall_congr' fun i => ?_
      rw [readAt_pass _ _ (toks_whole ⟨_, rfl⟩ (hp.2 i)), readAt]
      by_cases hc : (args i).isCmp
      · simp [hc]
      · rw [hlow i hc, ih i]; simp [hc]
    | dot =>
      rw [harith .add (by simp) (by simp), readAt_skip _ (by simp) _ hp.1 hp.2, readAt_skip _ (by simp) _ hp.1 hp.2, readAt_op _ _ _ hp.1 hp.2, pieces_iff, ← forall_and]
      refine forall_congr' fun i => ?_
      rw [readAt]
      by_cases hc : (args i).isCmp
      · simp [hc]
      · rw [hlow i hc, ih i]; simp [hc]

theorem le_joinText {sep : Text} : ∀ {l : List Text} {t : Text}, t ∈ l → t.length ≤ (joinText sep l).length
  | [x], t, h => by rw [List.mem_singleton.1 h, joinText]
  | x :: y :: l, t, h => by
    simp only [joinText, List.length_append]
    rcases List.mem_cons.1 h with rfl | h
    · omega
    · have := le_joinText (sep := sep) h
      omega

theorem fits_render : ∀ (e : Expr) (k : ℕ), (render latex e).length ≤ k → Fits k e
  | .leaf _, _, _ => by simp [Fits]
  | .cmp r a b, k, h => by
    simp only [render, List.length_append, List.length_cons] at h
    have h1 := fits_render a k (by omega)
    have h2 := fits_render b k (by omega)
    cases k <;> exact ⟨h1, h2⟩
  | .op o n args, 0, h => by simp [render] at h
  | .op o n args, k + 1, h => by
    rw [Fits]
    intro i
    refine fits_render (args i) k ?_
    have := le_joinText (sep := ' ' :: o.text latex ++ [' ']) (List.mem_ofFn.2 ⟨i, rfl⟩ : render latex (args i) ∈ List.ofFn fun i => render latex (args i))
    simp only [render, List.length_append, List.length_cons, List.length_nil] at h this
    omega

/-- **C127** The text printed for an expression of operators and comparisons, read with the usual precedences, stands for that expression exactly if no comparison is an operand of a comparison or of an arithmetic operator. -/
theorem C127_reading_iff_partial {e : Expr} (he : Proper latex e) : reading latex (render latex e) = some e ↔ Plain e := by
  have h := lex_render he [] (.inl rfl)
  simp only [List.append_nil] at h
  rw [reading, h, show lex [] [] = [] from rfl, List.append_nil, readToks, levels, readAt_pass _ _ (toks_whole ⟨_, rfl⟩ he), readAt_pass _ _ (toks_whole ⟨_, rfl⟩ he)]
  exact read_iff e _ he (fits_render e _ le_rfl)

/-- **C127** (no ambiguity) Expressions without comparisons inside comparisons or arithmetic operators that are printed alike are the same. -/
theorem C127_injective {e e' : Expr} (he : Proper latex e) (he' : Proper latex e') (hp : Plain e) (hp' : Plain e') (h : render latex e = render latex e') : e = e' := by
  have h1 := (C127_reading_iff_partial he).2 hp
  rw [h, (C127_reading_iff_partial he').2 hp'] at h1
  exact (Option.some.inj h1).symm

/-- **C127** (wrong) `(a > b) > c` and `a > (b > c)` are printed alike, and so are all rows of comparisons, whatever their operands. -/
theorem C127_row_wrong (r r' : Cmp) (a b c : Expr) : render latex (.cmp r' (.cmp r a b) c) = render latex (.cmp r a (.cmp r' b c)) ∧ Expr.cmp r' (.cmp r a b) c ≠ .cmp r a (.cmp r' b c) := by
  refine ⟨by simp [render], fun h => ?_⟩
  have h1 := (Expr.cmp.inj h).2.1
  have := congrArg sizeOf h1
  simp at this
  omega

/-! ## Examples -/

def demoLeaf (c : Char) : Expr := .leaf [c]

/-- `(a > b) + c` -/
def demoSum : Expr := .op .add 2 ![.cmp .gt (demoLeaf 'a') (demoLeaf 'b'), demoLeaf 'c']

/-- **C127** (wrong) The sum `(a > b) + c` of an indicator and a number is printed as `(a > b + c)`, which is read as `a > (b + c)`. -/
theorem C127_sum_wrong : render false demoSum = "(a > b + c)".toList ∧
    reading false "(a > b + c)".toList = some (.cmp .gt (demoLeaf 'a') (ofList .add [demoLeaf 'b', demoLeaf 'c'])) := by
  constructor
  · simp [demoSum, demoLeaf, render, joinText, Op.text, Cmp.text, List.ofFn_succ]
  · rfl

/-- `((a + b) * c) >= d and (a == c)`, which is read back, as text and in LaTeX. -/
def demoPlain : Expr := .op .and 2 ![.cmp .ge (.op .mul 2 ![.op .add 2 ![demoLeaf 'a', demoLeaf 'b'], demoLeaf 'c']) (demoLeaf 'd'), .cmp .eq (demoLeaf 'a') (demoLeaf 'c')]

theorem demoLeaf_proper (latex : Bool) (c : Char) (h : c ∈ ['a', 'b', 'c', 'd']) : Proper latex (demoLeaf c) := by
  simp only [List.mem_cons, List.not_mem_nil, or_false] at h
  rcases h with rfl | rfl | rfl | rfl <;> cases latex <;> simp [demoLeaf, Proper] <;> decide

theorem demoPlain_proper (latex : Bool) : Proper latex demoPlain := by
  simp only [demoPlain, Proper, Fin.forall_fin_two, Matrix.cons_val_zero, Matrix.cons_val_one, le_refl, true_and]
  refine ⟨⟨⟨⟨?_, ?_⟩, ?_⟩, ?_⟩, ?_, ?_⟩ <;> exact demoLeaf_proper latex _ (by decide)

theorem demoPlain_plain : Plain demoPlain := by
  simp [demoPlain, Plain, demoLeaf, Expr.isCmp, Fin.forall_fin_two]

example (latex : Bool) : reading latex (render latex demoPlain) = some demoPlain := (C127_reading_iff_partial (demoPlain_proper latex)).2 demoPlain_plain
example : demoPlain = demoPlain := C127_injective (latex := true) (demoPlain_proper true) (demoPlain_proper true) demoPlain_plain demoPlain_plain rfl
example : render true (.cmp .gt (.cmp .gt (demoLeaf 'a') (demoLeaf 'b')) (demoLeaf 'c')) = "a \\gt b \\gt c".toList := by
  simp [demoLeaf, render, Cmp.text]

end Verif.PrintExpr
