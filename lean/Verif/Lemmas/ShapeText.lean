import Verif.Spec.ShapeText
import Verif.Spec.Definitions

/-! # Words of the shape information -/

namespace Verif.Defs
open Verif

/-- The parts between blanks. -/
def blankWords : Text → List Text
  | [] => [[]]
  | c :: cs => if c = ' ' then [] :: blankWords cs else
    match blankWords cs with
    | [] => [[c]]
    | w :: ws => (c :: w) :: ws

theorem blankWords_append (b : Text) : ∀ a : Text, blankWords (a ++ ' ' :: b) = blankWords a ++ blankWords b
  | [] => by simp [blankWords]
  | c :: a => by
    have hne : ∀ l : Text, blankWords l ≠ [] := fun l => by
      cases l with
      | nil => simp [blankWords]
      | cons c l => simp only [blankWords]; split_ifs; · simp
                    split <;> simp
    rw [List.cons_append, blankWords, blankWords, blankWords_append b a]
    split_ifs
    · simp
    · cases h : blankWords a with
      | nil => exact absurd h (hne a)
      | cons w ws => simp

theorem blankWords_word : ∀ {a : Text}, ' ' ∉ a → blankWords a = [a]
  | [], _ => rfl
  | c :: a, h => by
    simp only [List.mem_cons, not_or] at h
    rw [blankWords, if_neg (fun hc => h.1 hc.symm), blankWords_word h.2]

theorem blankWords_inj : ∀ {a b : Text}, blankWords a = blankWords b → a = b := by
  have key : ∀ a : Text, joinText [' '] (blankWords a) = a := fun a => by
    induction a with
    | nil => rfl
    | cons c a ih =>
      rw [blankWords]
      split_ifs with hc
      · cases h : blankWords a with
        | nil => rw [h] at ih; simp [joinText] at ih ⊢; exact absurd h (by subst ih; simp [blankWords])
        | cons w ws => rw [joinText, ← h, ih, hc]; rfl
      · cases h : blankWords a with
        | nil => rw [h] at ih; simp [joinText] at ih ⊢; exact ih
        | cons w ws =>
          rw [h] at ih
          cases ws with
          | nil => simpa [joinText] using ih
          | cons w' ws => simpa [joinText] using ih
  intro a b h
  rw [← key a, h, key b]

/-- Words joined by a word. -/
def between (w : Text) : List Text → List Text
  | [] => []
  | [x] => [x]
  | x :: y :: l => x :: w :: between w (y :: l)

theorem blankWords_join {w : Text} (hw : ' ' ∉ w) : ∀ {l : List Text}, l ≠ [] → (∀ x ∈ l, ' ' ∉ x) → blankWords (joinText (' ' :: (w ++ [' '])) l) = between w l
  | [x], _, h => by rw [joinText, between, blankWords_word (h x (by simp))]
  | x :: y :: l, _, h => by
    have e : x ++ (' ' :: (w ++ [' '])) ++ joinText (' ' :: (w ++ [' '])) (y :: l) = x ++ ' ' :: (w ++ ' ' :: joinText (' ' :: (w ++ [' '])) (y :: l)) := by simp
    rw [joinText, e, blankWords_append, blankWords_append, blankWords_word (h x (by simp)), blankWords_word hw, blankWords_join hw (by simp) (fun z hz => h z (List.mem_cons_of_mem _ hz)), between]
    rfl

theorem between_inj {w : Text} : ∀ {l l' : List Text}, between w l = between w l' → l = l'
  | [], [], _ => rfl
  | [], [_], h => by simp [between] at h
  | [], _ :: _ :: _, h => by simp [between] at h
  | [_], [], h => by simp [between] at h
  | [_], [_], h => by simpa [between] using h
  | [_], _ :: _ :: _, h => by simp [between] at h
  | _ :: _ :: _, [], h => by simp [between] at h
  | _ :: _ :: _, [_], h => by simp [between] at h
  | x :: y :: l, x' :: y' :: l', h => by
    simp only [between, List.cons.injEq, true_and] at h
    rw [h.1, between_inj h.2]

theorem join_inj {w : Text} (hw : ' ' ∉ w) {l l' : List Text} (h : ∀ x ∈ l, ' ' ∉ x) (h' : ∀ x ∈ l', ' ' ∉ x) (hne : l ≠ []) (hne' : l' ≠ [])
    (e : joinText (' ' :: (w ++ [' '])) l = joinText (' ' :: (w ++ [' '])) l') : l = l' := by
  have := congrArg blankWords e
  rw [blankWords_join hw hne h, blankWords_join hw hne' h'] at this
  exact between_inj this

/-! ## Axes -/

theorem digits_blank (n : ℕ) {c : Char} (h : c.isDigit = false) : c ∉ Nat.toDigits 10 n := fun hc => by
  rw [Nat.isDigit_of_mem_toDigits (by omega) (by omega) hc] at h
  cases h

theorem digits_inj {m n : ℕ} (h : Nat.toDigits 10 m = Nat.toDigits 10 n) : m = n := by
  rw [← Nat.ofDigitChars_ten_toDigits (n := m), h, Nat.ofDigitChars_ten_toDigits]

theorem dimText_blank {latex : Bool} {name : Text} (h : ' ' ∉ name) (i : ℕ) (d : Dim) : ' ' ∉ dimText latex name i d := by
  have hd := fun n => digits_blank n (c := ' ') rfl
  cases d with
  | known n => exact hd n
  | unknown => cases latex <;> simp [dimText, h, hd i]

theorem dimText_ne {latex : Bool} {name : Text} (i : ℕ) (d : Dim) : dimText latex name i d ≠ [] := by
  cases d with
  | known n => exact Nat.toDigits_ne_nil
  | unknown => cases latex <;> simp [dimText]

theorem dimText_inj {latex : Bool} {name : Text} {i : ℕ} {d d' : Dim} (h : dimText latex name i d = dimText latex name i d') : d = d' := by
  have key : ∀ n, dimText latex name i (.known n) ≠ dimText latex name i .unknown := fun n e => by
    refine digits_blank n (c := 'N') rfl ?_
    rw [dimText] at e
    rw [e]
    cases latex <;> simp [dimText]
  cases d with
  | known n =>
    cases d' with
    | known m => rw [digits_inj h]
    | unknown => exact absurd h (key n)
  | unknown =>
    cases d' with
    | known m => exact absurd h.symm (key m)
    | unknown => rfl

theorem dimTexts_blank {latex : Bool} {name : Text} (h : ' ' ∉ name) : ∀ (i : ℕ) (ds : List Dim), ∀ x ∈ dimTexts latex name i ds, ' ' ∉ x
  | i, d :: ds, x, hx => by
    rcases List.mem_cons.1 hx with rfl | hx
    · exact dimText_blank h i d
    · exact dimTexts_blank h _ ds x hx

theorem dimTexts_inj {latex : Bool} {name : Text} : ∀ {i : ℕ} {ds ds' : List Dim}, dimTexts latex name i ds = dimTexts latex name i ds' → ds = ds'
  | _, [], [], _ => rfl
  | _, [], _ :: _, h => by simp [dimTexts] at h
  | _, _ :: _, [], h => by simp [dimTexts] at h
  | i, d :: ds, d' :: ds', h => by
    simp only [dimTexts, List.cons.injEq] at h
    rw [dimText_inj h.1, dimTexts_inj h.2]

theorem join_ne {sep : Text} {latex : Bool} {name : Text} {i : ℕ} : ∀ {ds : List Dim}, joinText sep (dimTexts latex name i ds) = [] ↔ ds = []
  | [] => by simp [dimTexts, joinText]
  | [d] => by simp [dimTexts, joinText, dimText_ne]
  | d :: d' :: ds => by simp [dimTexts, joinText, dimText_ne]

theorem spaceChar_kind {a b : DType} : spaceChar a = spaceChar b ↔ a.kind = b.kind := by
  cases a <;> cases b <;> simp [spaceChar, DType.kind]

/-- Everything after the symbol of the space. -/
def axesText (latex : Bool) (name : Text) (dims : List Dim) : Text :=
  match dims with
  | [] => []
  | _ => if latex then '^' :: '{' :: (joinText " \\times ".toList (dimTexts true name 0 dims) ++ ['}']) else '*' :: '*' :: '(' :: (joinText " x ".toList (dimTexts false name 0 dims) ++ [')'])

theorem spaceText_eq (latex : Bool) (ty : DType) (dims : List Dim) (name : Text) :
    spaceText latex ty dims name = (if latex then "\\in".toList else "in".toList) ++ ' ' :: ((if latex then "\\mathbb{".toList else []) ++ spaceChar ty :: ((if latex then ['}'] else []) ++ axesText latex name dims)) := by
  cases latex
  · cases dims <;> simp [spaceText, axesText]
  · simp only [spaceText, if_true, join_ne]
    cases dims <;> simp [axesText]

theorem axesText_inj {latex : Bool} {name : Text} (h : ' ' ∉ name) {ds ds' : List Dim} (e : axesText latex name ds = axesText latex name ds') : ds = ds' := by
  cases ds with
  | nil =>
    cases ds' with
    | nil => rfl
    | cons d' ds' => cases latex <;> simp [axesText] at e
  | cons d ds =>
    cases ds' with
    | nil => cases latex <;> simp [axesText] at e
    | cons d' ds' =>
      cases latex
      · simp only [axesText, Bool.false_eq_true, if_false, List.cons.injEq, true_and, List.append_cancel_right_eq] at e
        exact dimTexts_inj (join_inj (w := ['x']) (by decide) (dimTexts_blank h _ _) (dimTexts_blank h _ _) (by simp [dimTexts]) (by simp [dimTexts]) e)
      · simp only [axesText, if_true, List.cons.injEq, true_and, List.append_cancel_right_eq] at e
        exact dimTexts_inj (join_inj (w := "\\times".toList) (by decide) (dimTexts_blank h _ _) (dimTexts_blank h _ _) (by simp [dimTexts]) (by simp [dimTexts]) e)

theorem spaceText_inj {latex : Bool} {name : Text} (h : ' ' ∉ name) {ty ty' : DType} {ds ds' : List Dim} (e : spaceText latex ty ds name = spaceText latex ty' ds' name) : ty.kind = ty'.kind ∧ ds = ds' := by
  rw [spaceText_eq, spaceText_eq, List.append_cancel_left_eq, List.cons.injEq, List.append_cancel_left_eq, List.cons.injEq, List.append_cancel_left_eq] at e
  exact ⟨spaceChar_kind.1 e.2.1, axesText_inj h e.2.2⟩

theorem spaceText_kind {latex : Bool} {name : Text} {ty ty' : DType} {ds : List Dim} (h : ty.kind = ty'.kind) : spaceText latex ty ds name = spaceText latex ty' ds name := by
  rw [spaceText_eq, spaceText_eq, spaceChar_kind.2 h]

theorem split_blank {a b x y : Text} (ha : ' ' ∉ a) (hb : ' ' ∉ b) (h : a ++ ' ' :: x = b ++ ' ' :: y) : a = b ∧ x = y := by
  have := congrArg blankWords h
  rw [blankWords_append, blankWords_append, blankWords_word ha, blankWords_word hb] at this
  simp only [List.cons_append, List.nil_append, List.cons.injEq] at this
  exact ⟨this.1, blankWords_inj this.2⟩

/-! ## The shape information at the end of a definition -/

theorem last_eq {α : Type} {w : α} : ∀ {a b x y : List α}, a ++ w :: x = b ++ w :: y → w ∉ x → w ∉ y → x = y
  | [], [], _, _, h, _, _ => by simpa using h
  | [], _ :: b, x, y, h, hx, _ => by
    simp only [List.nil_append, List.cons_append, List.cons.injEq] at h
    exact absurd (h.2 ▸ by simp) hx
  | _ :: a, [], x, y, h, _, hy => by
    simp only [List.nil_append, List.cons_append, List.cons.injEq] at h
    exact absurd (h.2 ▸ by simp) hy
  | _ :: a, _ :: b, x, y, h, hx, hy => by
    simp only [List.cons_append, List.cons.injEq] at h
    exact last_eq h.2 hx hy

theorem blankWords_ne (l : Text) : blankWords l ≠ [] := by
  cases l with
  | nil => simp [blankWords]
  | cons c l =>
    simp only [blankWords]
    split_ifs
    · simp
    · split <;> simp

theorem words_prefix {x s : Text} : ∀ {p : Text}, ' ' ∉ p → x ∈ blankWords (p ++ s) → (∃ r, x = p ++ r) ∨ x ∈ blankWords s := by
  have key : ∀ p : Text, ' ' ∉ p → ∃ w ws, blankWords s = w :: ws ∧ blankWords (p ++ s) = (p ++ w) :: ws := fun p => by
    induction p with
    | nil =>
      intro _
      cases h : blankWords s with
      | nil => exact absurd h (blankWords_ne s)
      | cons w ws => exact ⟨w, ws, rfl, by simp [h]⟩
    | cons c p ih =>
      intro hp
      simp only [List.mem_cons, not_or] at hp
      obtain ⟨w, ws, h1, h2⟩ := ih hp.2
      refine ⟨w, ws, h1, ?_⟩
      rw [List.cons_append, blankWords, if_neg fun hc => hp.1 hc.symm, h2]
      rfl
  intro p hp hx
  obtain ⟨w, ws, h1, h2⟩ := key p hp
  rw [h2] at hx
  rcases List.mem_cons.1 hx with rfl | hx
  · exact .inl ⟨w, rfl⟩
  · exact .inr (h1 ▸ List.mem_cons_of_mem _ hx)

theorem words_suffix {x q : Text} (hq : ' ' ∉ q) {s : Text} (hx : x ∈ blankWords (s ++ q)) : x ∈ blankWords s ∨ ∃ y ∈ blankWords s, x = y ++ q := by
  have key : ∀ s : Text, ∃ l y, blankWords s = l ++ [y] ∧ blankWords (s ++ q) = l ++ [y ++ q] := fun s => by
    induction s with
    | nil => exact ⟨[], [], rfl, by simp [blankWords_word hq]⟩
    | cons c s ih =>
      obtain ⟨l, y, h1, h2⟩ := ih
      rw [List.cons_append, blankWords, blankWords, h1, h2]
      split_ifs
      · exact ⟨[] :: l, y, rfl, rfl⟩
      · cases l with
        | nil => exact ⟨[], c :: y, rfl, rfl⟩
        | cons w l => exact ⟨(c :: w) :: l, y, rfl, rfl⟩
  obtain ⟨l, y, h1, h2⟩ := key s
  rw [h2, List.mem_append, List.mem_singleton] at hx
  rw [h1]
  rcases hx with hx | rfl
  · exact .inl (by simp [hx])
  · exact .inr ⟨y, by simp, rfl⟩

theorem mem_between {w x : Text} : ∀ {l : List Text}, x ∈ between w l → x = w ∨ x ∈ l
  | [_], h => .inr h
  | y :: z :: l, h => by
    rcases List.mem_cons.1 h with rfl | h
    · exact .inr (by simp)
    rcases List.mem_cons.1 h with rfl | h
    · exact .inl rfl
    · exact (mem_between h).imp id (List.mem_cons_of_mem _)

theorem mem_dimTexts {latex : Bool} {name x : Text} : ∀ {i : ℕ} {ds : List Dim}, x ∈ dimTexts latex name i ds → ∃ j d, x = dimText latex name j d
  | i, d :: ds, h => by
    rcases List.mem_cons.1 h with rfl | h
    · exact ⟨i, d, rfl⟩
    · exact mem_dimTexts h

theorem dimText_head {latex : Bool} {name : Text} (i : ℕ) (d : Dim) : ∃ c r, dimText latex name i d = c :: r ∧ c ≠ 'i' ∧ c ≠ '\\' := by
  cases d with
  | known n =>
    cases h : Nat.toDigits 10 n with
    | nil => exact absurd h Nat.toDigits_ne_nil
    | cons c r =>
      refine ⟨c, r, h, ?_, ?_⟩ <;> rintro rfl
      · exact digits_blank n (c := 'i') rfl (h ▸ by simp)
      · exact digits_blank n (c := '\\') rfl (h ▸ by simp)
  | unknown => cases latex <;> exact ⟨'N', _, rfl, by decide, by decide⟩

/-- The word before the symbol of the space. -/
def inWord (latex : Bool) : Text := if latex then "\\in".toList else "in".toList

/-- What follows it. -/
def afterIn (latex : Bool) (ty : DType) (dims : List Dim) (name : Text) : Text := (if latex then "\\mathbb{".toList else []) ++ spaceChar ty :: ((if latex then ['}'] else []) ++ axesText latex name dims)

theorem spaceText_words (latex : Bool) (ty : DType) (dims : List Dim) (name : Text) : spaceText latex ty dims name = inWord latex ++ ' ' :: afterIn latex ty dims name := spaceText_eq latex ty dims name

theorem space_ne (ty : DType) : spaceChar ty ≠ ' ' ∧ spaceChar ty ≠ 'i' ∧ spaceChar ty ≠ '\\' := by cases ty <;> simp [spaceChar]

theorem inWord_after {latex : Bool} {ty : DType} {dims : List Dim} {name : Text} (h : ' ' ∉ name) : inWord latex ∉ blankWords (afterIn latex ty dims name) := by
  obtain ⟨s1, s2, s3⟩ := space_ne ty
  intro hx
  cases dims with
  | nil =>
    cases latex
    · rw [afterIn, axesText, blankWords_word (by simpa using fun h => s1 h.symm)] at hx
      simp [inWord] at hx
    · rw [afterIn, axesText, blankWords_word (by simpa using fun h => s1 h.symm)] at hx
      simp [inWord] at hx
  | cons d ds =>
    cases latex
    · have e : afterIn false ty (d :: ds) name = [spaceChar ty, '*', '*', '('] ++ (joinText (' ' :: (['x'] ++ [' '])) (dimTexts false name 0 (d :: ds)) ++ [')']) := by simp [afterIn, axesText]
      rw [e] at hx
      rcases words_prefix (by simpa using fun h => s1 h.symm) hx with ⟨r, hr⟩ | hx
      · simp [inWord] at hr
      · have hj := blankWords_join (w := ['x']) (by decide) (l := dimTexts false name 0 (d :: ds)) (by simp [dimTexts]) (dimTexts_blank h _ _)
        rcases words_suffix (by decide) hx with hx | ⟨y, hy, hx⟩
        · rw [hj] at hx
          rcases mem_between hx with hx | hx
          · simp [inWord] at hx
          · obtain ⟨j, d, hd⟩ := mem_dimTexts hx
            obtain ⟨c, r, hc, c1, -⟩ := dimText_head (latex := false) (name := name) j d
            rw [hc] at hd
            simp only [inWord, Bool.false_eq_true, if_false] at hd
            exact c1 (List.cons.inj hd).1.symm
        · have := congrArg List.getLast? hx
          simp [inWord] at this
    · have e : afterIn true ty (d :: ds) name = ("\\mathbb{".toList ++ [spaceChar ty, '}', '^', '{']) ++ (joinText (' ' :: ("\\times".toList ++ [' '])) (dimTexts true name 0 (d :: ds)) ++ ['}']) := by simp [afterIn, axesText]
      rw [e] at hx
      rcases words_prefix (by simpa using fun h => s1 h.symm) hx with ⟨r, hr⟩ | hx
      · simp [inWord] at hr
      · have hj := blankWords_join (w := "\\times".toList) (by decide) (l := dimTexts true name 0 (d :: ds)) (by simp [dimTexts]) (dimTexts_blank h _ _)
        rcases words_suffix (by decide) hx with hx | ⟨y, hy, hx⟩
        · rw [hj] at hx
          rcases mem_between hx with hx | hx
          · simp [inWord] at hx
          · obtain ⟨j, d, hd⟩ := mem_dimTexts hx
            obtain ⟨c, r, hc, -, c1⟩ := dimText_head (latex := true) (name := name) j d
            rw [hc] at hd
            simp only [inWord, if_true] at hd
            exact c1 (List.cons.inj hd).1.symm
        · have := congrArg List.getLast? hx
          simp [inWord] at this

theorem inWord_blank (latex : Bool) : ' ' ∉ inWord latex := by cases latex <;> decide

/-- The shape information at the end of a line. -/
theorem space_end {latex : Bool} {ty ty' : DType} {dims dims' : List Dim} {name a b : Text} (h : ' ' ∉ name) (e : a ++ ' ' :: spaceText latex ty dims name = b ++ ' ' :: spaceText latex ty' dims' name) :
    ty.kind = ty'.kind ∧ dims = dims' := by
  have hw := congrArg blankWords e
  rw [spaceText_words, spaceText_words, blankWords_append, blankWords_append, blankWords_append, blankWords_append, blankWords_word (inWord_blank latex)] at hw
  have := blankWords_inj (last_eq hw (inWord_after h) (inWord_after h))
  exact spaceText_inj h (by rw [spaceText_words, spaceText_words, this])

theorem line_split (latex : Bool) (name op params space : Text) : ∃ x a, lineText latex name op params space = name ++ ' ' :: x ∧ lineText latex name op params space = a ++ ' ' :: space := by
  cases latex
  · exact ⟨"~ ".toList ++ op ++ "(".toList ++ params ++ ") ".toList ++ space, name ++ " ~ ".toList ++ op ++ "(".toList ++ params ++ ")".toList, by simp [lineText], by simp [lineText]⟩
  · exact ⟨"\\sim ".toList ++ op ++ "\\left(".toList ++ params ++ "\\right)\\,  ".toList ++ space, name ++ " \\sim ".toList ++ op ++ "\\left(".toList ++ params ++ "\\right)\\, ".toList, by simp [lineText],
      by simp [lineText]⟩

theorem mem_join {c : Char} {sep : Text} : ∀ {l : List Text}, c ∈ joinText sep l → c ∈ sep ∨ ∃ x ∈ l, c ∈ x
  | [x], h => .inr ⟨x, by simp, h⟩
  | x :: y :: l, h => by
    rw [joinText, List.mem_append, List.mem_append] at h
    rcases h with (h | h) | h
    · exact .inr ⟨x, by simp, h⟩
    · exact .inl h
    · exact (mem_join h).imp id fun ⟨z, hz, hc⟩ => ⟨z, List.mem_cons_of_mem _ hz, hc⟩

theorem space_percent {latex : Bool} {ty : DType} {dims : List Dim} {name : Text} (h : '%' ∉ name) : '%' ∉ spaceText latex ty dims name := by
  have hs : '%' ≠ spaceChar ty := by cases ty <;> simp [spaceChar]
  have hd : ∀ {l : Bool} {i : ℕ} {ds : List Dim}, ∀ x ∈ dimTexts l name i ds, '%' ∉ x := fun {l i ds} x hx => by
    obtain ⟨j, d, rfl⟩ := mem_dimTexts hx
    have hn := fun n => digits_blank n (c := '%') rfl
    cases d with
    | known n => exact hn n
    | unknown => cases l <;> simp [dimText, h, hn j]
  have hj : ∀ {l : Bool} {sep : Text}, '%' ∉ sep → '%' ∉ joinText sep (dimTexts l name 0 dims) := fun {l sep} hsep hc => by
    rcases mem_join hc with hc | ⟨x, hx, hc⟩
    · exact hsep hc
    · exact hd x hx hc
  rw [spaceText_eq]
  cases dims with
  | nil => cases latex <;> simp [axesText, hs]
  | cons d ds =>
    cases latex
    · have := hj (l := false) (sep := " x ".toList) (by decide)
      simp only [axesText, Bool.false_eq_true, if_false, List.mem_append, List.mem_cons, this]
      simp [hs]
    · have := hj (l := true) (sep := " \\times ".toList) (by decide)
      simp only [axesText, if_true, List.mem_append, List.mem_cons, this]
      simp [hs]

end Verif.Defs
