import Verif.Grammar.Rendering

/-! How expressions start, and what can follow them. -/

namespace Verif.Grammar

/-! ## Identifiers in front of the input -/

theorem sign_cases (t s : List Char) : (∃ r, sign t s = .ok () r) ∨ sign t s = .error := by
  by_cases ht : t.any isOperator = true
  · rw [sign_operator ht]
    rcases tag_cases t (blank s) with ⟨r, _, h⟩ | h
    · rw [h]
      simp only [R.bind, notNext]
      split
      · exact .inr rfl
      · exact .inl ⟨r, rfl⟩
    · rw [h]; exact .inr rfl
  · rw [sign_plain (by simpa using ht)]
    rcases tag_cases t (blank s) with ⟨r, _, h⟩ | h
    · exact .inl ⟨r, h⟩
    · exact .inr h

theorem identifier_cases (s : List Char) :
    (∃ x r, identifier s = .ok x r) ∨ identifier s = .error := by
  unfold identifier token rawIdentifier verify
  cases blank s with
  | nil => exact .inr rfl
  | cons c s =>
    by_cases h : (c.isAlpha || decide (c = '_')) = true
    · simp only [uncheckedIdentifier, h, if_true]
      split
      · exact .inl ⟨_, _, rfl⟩
      · exact .inr rfl
    · simp only [Bool.not_eq_true] at h
      exact .inr (by simp [uncheckedIdentifier, h])

theorem identifier_error {c : Char} {s r : List Char} (hb : blank s = c :: r)
    (hc : c.isAlpha = false) (h : c ≠ '_') : identifier s = .error := by
  unfold identifier token
  rw [hb]
  exact rawIdentifier_error hc h

/-- If there is an identifier in front, neither `=` nor `:` follows it. -/
def Free (s : List Char) : Prop :=
  ∀ x r, identifier s = .ok x r → sign "=".toList r = .error ∧ sign ":".toList r = .error

theorem free_error {s : List Char} (h : identifier s = .error) : Free s := by
  intro x r h'
  rw [h] at h'
  cases h'

/-- Neither an identifier nor `=` nor `:` goes on. -/
structure Lead (rest : List Char) : Prop where
  word : WordEnd rest
  equal : sign "=".toList rest = .error
  colon : sign ":".toList rest = .error

theorem lead_of {c : Char} {rest r : List Char} (hw : WordEnd rest) (hb : blank rest = c :: r)
    (h1 : c ≠ '=') (h2 : c ≠ ':') : Lead rest :=
  ⟨hw, sign_error rfl hb (Ne.symm h1), sign_error rfl hb (Ne.symm h2)⟩

theorem lead_cons {c : Char} {r : List Char} (hw : isWord c = false) (hs : Solid c)
    (h1 : c ≠ '=') (h2 : c ≠ ':') : Lead (c :: r) :=
  lead_of hw (blank_solid hs r) h1 h2

theorem free_identifier {x rest : List Char} (hx : IsIdentifier x) (hr : Lead rest) :
    Free (x ++ rest) := by
  intro y r h
  rw [identifier_ok hx hr.word] at h
  cases h
  exact ⟨hr.equal, hr.colon⟩

theorem free_qualified {x rest : List Char} (hx : IsQualified x) (hr : Lead rest) :
    Free (x ++ rest) := by
  rcases hx with hx | ⟨a, b, rfl, ha, hb⟩
  · exact free_identifier hx hr
  · rw [List.append_assoc]
    exact free_identifier ha (lead_cons (by decide) (by decide) (by decide) (by decide))

theorem keyword_qualified {k x s : List Char} (hk : k ∈ keywords) (hx : IsQualified x)
    (hs : WordEnd s) : keyword k (x ++ s) = .error := by
  rcases hx with hx | ⟨a, b, rfl, ha, hb⟩
  · exact keyword_identifier hk hx hs
  · rw [List.append_assoc]
    exact keyword_identifier hk ha (wordEnd_quote _)

/-! ## How expressions start -/

/-- How a text starts. -/
def Starts : Opening → List Char → Prop
  | .parenthesis, s => ∃ r, s = '(' :: r
  | .bang, s => ∃ c r, s = '!' :: c :: r ∧ c ≠ '='
  | .bracket, s => ∃ r, s = '[' :: r
  | .brace, s => ∃ r, s = '{' :: r
  | .sign, s => ∃ c d r, s = c :: d :: r ∧ (c = '+' ∨ c = '-' ∨ (c = '.' ∧ d ≠ '.'))
  | .other, s => ∃ c r, s = c :: r ∧ (isWord c = true ∨ c = '\\' ∨ c = '"')

theorem Starts.append {o : Opening} {s : List Char} (h : Starts o s) (rest : List Char) :
    Starts o (s ++ rest) := by
  cases o with
  | parenthesis => obtain ⟨r, rfl⟩ := h; exact ⟨_, rfl⟩
  | bang => obtain ⟨c, r, rfl, h⟩ := h; exact ⟨c, _, rfl, h⟩
  | bracket => obtain ⟨r, rfl⟩ := h; exact ⟨_, rfl⟩
  | brace => obtain ⟨r, rfl⟩ := h; exact ⟨_, rfl⟩
  | sign => obtain ⟨c, d, r, rfl, h⟩ := h; exact ⟨c, d, _, rfl, h⟩
  | other => obtain ⟨c, r, rfl, h⟩ := h; exact ⟨c, _, rfl, h⟩

theorem word_solid {c : Char} (h : isWord c = true) : Solid c := by
  refine ⟨?_, ?_⟩
  · cases hh : isSpace c with
    | false => rfl
    | true =>
      simp [isSpace] at hh
      rcases hh with ((rfl | rfl) | rfl) | rfl <;> revert h <;> decide
  · rintro rfl; revert h; decide

theorem word_ne {c d : Char} (h : isWord c = true) (hd : isWord d = false) : c ≠ d := by
  rintro rfl
  rw [h] at hd
  cases hd

/-- The first character of an expression. -/
theorem Starts.head {o : Opening} {s : List Char} (h : Starts o s) :
    ∃ c r, s = c :: r ∧ Solid c ∧ c ≠ '=' ∧ c ≠ ':' ∧ c ≠ '|' ∧ c ≠ ',' ∧ c ≠ ')' ∧ c ≠ ']' ∧
      c ≠ '}' ∧ c ≠ '?' ∧ c ≠ '\'' ∧ c ≠ '*' ∧ c ≠ '/' ∧ c ≠ '<' ∧ c ≠ '>' ∧ c ≠ '&' := by
  cases o with
  | parenthesis => obtain ⟨r, rfl⟩ := h; exact ⟨_, _, rfl, by decide⟩
  | bang => obtain ⟨c, r, rfl, h⟩ := h; exact ⟨_, _, rfl, by decide⟩
  | bracket => obtain ⟨r, rfl⟩ := h; exact ⟨_, _, rfl, by decide⟩
  | brace => obtain ⟨r, rfl⟩ := h; exact ⟨_, _, rfl, by decide⟩
  | sign =>
    obtain ⟨c, d, r, rfl, h⟩ := h
    rcases h with rfl | rfl | ⟨rfl, _⟩ <;> exact ⟨_, _, rfl, by decide⟩
  | other =>
    obtain ⟨c, r, rfl, h⟩ := h
    rcases h with h | rfl | rfl
    · exact ⟨_, _, rfl, word_solid h, word_ne h (by decide), word_ne h (by decide),
        word_ne h (by decide), word_ne h (by decide), word_ne h (by decide), word_ne h (by decide),
        word_ne h (by decide), word_ne h (by decide), word_ne h (by decide), word_ne h (by decide),
        word_ne h (by decide), word_ne h (by decide), word_ne h (by decide), word_ne h (by decide)⟩
    · exact ⟨_, _, rfl, by decide⟩
    · exact ⟨_, _, rfl, by decide⟩

theorem Starts.dots {o : Opening} {s : List Char} (h : Starts o s) :
    sign "...".toList s = .error := by
  by_cases ho : o = .sign
  · subst ho
    obtain ⟨c, d, r, rfl, h⟩ := h
    rcases h with rfl | rfl | ⟨rfl, h⟩
    · exact sign_error rfl (blank_solid (by decide) _) (by decide)
    · exact sign_error rfl (blank_solid (by decide) _) (by decide)
    · rw [sign_plain (by decide), blank_solid (by decide)]
      simp [tag, Ne.symm h]
  · have : ∃ c r, s = c :: r ∧ Solid c ∧ c ≠ '.' := by
      cases o with
      | sign => exact absurd rfl ho
      | parenthesis => obtain ⟨r, rfl⟩ := h; exact ⟨_, _, rfl, by decide, by decide⟩
      | bang => obtain ⟨c, r, rfl, h⟩ := h; exact ⟨_, _, rfl, by decide, by decide⟩
      | bracket => obtain ⟨r, rfl⟩ := h; exact ⟨_, _, rfl, by decide, by decide⟩
      | brace => obtain ⟨r, rfl⟩ := h; exact ⟨_, _, rfl, by decide, by decide⟩
      | other =>
        obtain ⟨c, r, rfl, h⟩ := h
        rcases h with h | rfl | rfl
        · exact ⟨_, _, rfl, word_solid h, word_ne h (by decide)⟩
        · exact ⟨_, _, rfl, by decide, by decide⟩
        · exact ⟨_, _, rfl, by decide, by decide⟩
    obtain ⟨c, r, rfl, hs, hc⟩ := this
    exact sign_error rfl (blank_solid hs _) (Ne.symm hc)

/-- How an expression starts, and what its start is not. -/
structure Start (o : Opening) (s : List Char) : Prop where
  starts : Starts o s
  free : Free s
  noElse : keyword "else".toList s = .error

theorem startsOther_alpha {c : Char} {r : List Char} (h : c.isAlpha = true ∨ c = '_') :
    Starts .other (c :: r) := by
  refine ⟨c, r, rfl, .inl ?_⟩
  rcases h with h | rfl
  · simp [isWord, Char.isAlphanum, h]
  · decide

theorem start_qualified {x rest : List Char} (hx : IsQualified x) (hr : Lead rest) :
    Start .other (x ++ rest) := by
  refine ⟨?_, free_qualified hx hr, keyword_qualified (by decide) hx hr.word⟩
  obtain ⟨c, t, rfl, hc⟩ := hx.head
  exact startsOther_alpha hc

theorem start_char {o : Opening} {c : Char} {s r : List Char} (e : s = c :: r) (h : Starts o s)
    (hs : Solid c) (ha : c.isAlpha = false) (h1 : c ≠ '_') : Start o s := by
  have hb : blank s = c :: r := by rw [e]; exact blank_solid hs _
  refine ⟨h, free_error (identifier_error hb ha h1), keyword_error rfl hb ?_⟩
  rintro rfl
  revert ha
  decide

theorem keyword_if_error {c : Char} {s r : List Char} (hb : blank s = c :: r) (h : c ≠ 'i') :
    keyword "if".toList s = .error := keyword_error rfl hb (Ne.symm h)

theorem start_if {rest : List Char} (hr : WordEnd rest) :
    Start .other ("if".toList ++ rest) := by
  refine ⟨⟨'i', _, rfl, by decide⟩, free_error ?_, keyword_error rfl (blank_solid (by decide) _)
    (by decide)⟩
  unfold identifier token
  rw [show blank ("if".toList ++ rest) = _ from blank_solid (by decide) _]
  exact identifier_keyword (k := "if".toList) (by decide) hr

theorem numberText_second {n : Number} (h : IsNumber n)
    (hs : startsWith (fun c => c = '+' || c = '-' || c = '.') (numberText n) = true) :
    ∃ c d r, numberText n = c :: d :: r ∧ (c = '+' ∨ c = '-' ∨ (c = '.' ∧ d ≠ '.')) := by
  cases n with
  | binary d => simp [numberText, startsWith] at hs
  | hexadecimal d => simp [numberText, startsWith] at hs
  | floatingPoint t =>
    obtain ⟨sgn, m, e, rfl, hsgn, hm, he⟩ := h
    simp only [numberText] at hs ⊢
    have hne : ∃ c r, m ++ e = c :: r := by
      cases m with
      | nil =>
        rcases hm with hm | ⟨d, h, hd⟩ | ⟨d, f, h, hd, hf⟩ | ⟨f, h, hf⟩
        · exact absurd rfl hm.1
        · simp at h
        · simp at h
        · simp at h
      | cons c m => exact ⟨c, _, rfl⟩
    rcases hsgn with rfl | rfl | rfl
    · have hdig : ∀ d r : List Char, IsDigits d → startsWith (fun c => c = '+' || c = '-' || c = '.')
          (d ++ r) = false := fun d r hd => startsWith_digits hd fun c hc => by
        have := digit_not hc; simp [this]
      rcases hm with hm | ⟨d, rfl, hd⟩ | ⟨d, f, rfl, hd, hf⟩ | ⟨f, rfl, hf⟩
      · rw [List.nil_append, hdig m e hm] at hs; cases hs
      · rw [List.nil_append, List.append_assoc, hdig d _ hd] at hs; cases hs
      · rw [List.nil_append, List.append_assoc, hdig d _ hd] at hs; cases hs
      · cases f with
        | nil => exact absurd rfl hf.1
        | cons d f =>
          exact ⟨'.', d, _, rfl, .inr (.inr ⟨rfl, (digit_not (hf.2 d (by simp))).2.2.1⟩)⟩
    · obtain ⟨c, r, h⟩ := hne
      exact ⟨'+', c, r, by simp [h], by simp⟩
    · obtain ⟨c, r, h⟩ := hne
      exact ⟨'-', c, r, by simp [h], by simp⟩

theorem start_number {n : Number} {rest : List Char} (h : IsNumber n) :
    Start (opening (.number n)) (numberText n ++ rest) := by
  simp only [opening]
  split
  · rename_i hs
    obtain ⟨c, d, r, e, hc⟩ := numberText_second h hs
    refine start_char (c := c) (r := d :: r ++ rest) (by rw [e]; rfl) ?_ ?_ ?_ ?_
    · exact ⟨c, d, r ++ rest, by rw [e]; rfl, hc⟩
    · rcases hc with rfl | rfl | ⟨rfl, _⟩ <;> decide
    · rcases hc with rfl | rfl | ⟨rfl, _⟩ <;> decide
    · rcases hc with rfl | rfl | ⟨rfl, _⟩ <;> decide
  · rename_i hs
    obtain ⟨c, t, e, hc⟩ := numberText_head h
    rw [e] at hs ⊢
    simp [startsWith] at hs
    have hd : c.isDigit = true := by
      rcases hc with hc | rfl | rfl | rfl
      · exact hc
      all_goals simp at hs
    have ha : c.isAlpha = false := by
      have h3 : c.toNat < 65 := by
        simp [Char.isDigit, UInt32.le_iff_toNat_le] at hd
        have : c.toNat = c.val.toNat := rfl
        omega
      simp [Char.isAlpha, Char.isUpper, Char.isLower, UInt32.le_iff_toNat_le]
      have : c.toNat = c.val.toNat := rfl
      omega
    refine start_char rfl ⟨c, _, rfl, .inl (isDigit_word c hd)⟩ (word_solid (isDigit_word c hd)) ha
      ?_
    rintro rfl
    revert hd
    decide

theorem operatorText_head (o : BinOp) : ∃ c r, operatorText o = c :: r ∧
    c ∈ "+-*/=!<>&|".toList := by cases o <;> exact ⟨_, _, rfl, by decide⟩

theorem lead_operator {b : List Char} (hb : Blank b ∧ b ≠ []) (o : BinOp) (r : List Char) :
    Lead (b ++ (operatorText o ++ r)) := by
  refine ⟨wordEnd_gap hb, ?_, ?_⟩
  · rw [(skips_sign _).append hb.1]
    cases o <;> first
      | rfl
      | exact sign_error rfl (blank_solid (by decide) _) (by decide)
  · rw [(skips_sign _).append hb.1]
    cases o <;> exact sign_error rfl (blank_solid (by decide) _) (by decide)

theorem lower_isBinary {o : BinOp} {e : Expr} (h : lower o e = true) : e.isBinary = true := by
  cases e <;> simp_all [lower, Expr.isBinary]

theorem elements_nil : elements [] = [] := rfl

theorem start_paren {ps : List Piece} {s rest : List Char} (h : Fills (paren true ps) s) :
    Start .parenthesis (s ++ rest) := by
  simp only [paren_true, List.cons_append, fills_txt] at h
  obtain ⟨r, rfl, _⟩ := h
  exact start_char rfl ⟨_, rfl⟩ (by decide) (by decide) (by decide)

theorem wordEnd_append {b s : List Char} (h : Blank b ∧ b ≠ []) : WordEnd (b ++ s) := wordEnd_gap h

/-- How the text of a plain expression starts. -/
theorem start_ok : ∀ (e : Expr) (s rest : List Char), e.Plain → Fills (print e) s → Lead rest →
    Start (opening e) (s ++ rest)
  | .binary o l r, s, rest, h, hs, hr => by
    simp only [Expr.Plain] at h
    simp only [print, fills_append, List.append_assoc, List.cons_append, List.nil_append,
      fills_gap, fills_txt] at hs
    obtain ⟨s1, _, rfl, h1, b, _, rfl, hb, s2, rfl, _⟩ := hs
    simp only [opening, List.append_assoc]
    cases hl : lower o l with
    | true => rw [hl] at h1; simpa using start_paren h1
    | false =>
      rw [hl, paren_false] at h1
      simpa using start_ok l s1 _ h.1 h1 (lead_operator hb o _)
  | .call f as, s, rest, h, hs, hr => by
    simp only [Expr.Plain] at h
    simp only [print, List.append_assoc, fills_append, List.cons_append, List.nil_append,
      fills_txt] at hs
    obtain ⟨s1, _, rfl, h1, s2, rfl, _⟩ := hs
    simp only [opening, List.append_assoc]
    exact start_ok f s1 _ h.1 h1 (lead_cons (by decide) (by decide) (by decide) (by decide))
  | .if_ bs e, s, rest, h, hs, hr => by
    simp only [Expr.Plain] at h
    cases bs with
    | nil => exact absurd h.1 (by simp [FirstCondition])
    | cons b bs =>
      cases b with
      | mk c b =>
        simp only [print, printBranches, List.append_assoc, List.cons_append, List.nil_append,
          fills_txt, fills_gap] at hs
        obtain ⟨_, rfl, b, _, rfl, hb, _⟩ := hs
        simp only [opening, List.append_assoc]
        exact start_if (wordEnd_gap hb)
  | .ifList l x y t e, s, rest, h, hs, hr => by
    simp only [print, List.append_assoc, List.cons_append, List.nil_append,
      fills_txt, fills_gap] at hs
    obtain ⟨_, rfl, b, _, rfl, hb, _⟩ := hs
    simp only [opening, List.append_assoc]
    exact start_if (wordEnd_gap hb)
  | .ifMap x m k t e, s, rest, h, hs, hr => by
    simp only [print, List.append_assoc, List.cons_append, List.nil_append,
      fills_txt, fills_gap] at hs
    obtain ⟨_, rfl, b, _, rfl, hb, _⟩ := hs
    simp only [opening, List.append_assoc]
    exact start_if (wordEnd_gap hb)
  | .ifType x e bs f, s, rest, h, hs, hr => by
    simp only [print, List.append_assoc, List.cons_append, List.nil_append,
      fills_txt, fills_gap] at hs
    obtain ⟨_, rfl, b, _, rfl, hb, _⟩ := hs
    simp only [opening, List.append_assoc]
    exact start_if (wordEnd_gap hb)
  | .lambda as t b, s, rest, h, hs, hr => by
    simp only [print, printSignature, List.append_assoc, List.cons_append, List.nil_append,
      fills_txt] at hs
    obtain ⟨r, rfl, _⟩ := hs
    exact start_char rfl ⟨_, _, rfl, by decide⟩ (by decide) (by decide) (by decide)
  | .list t es, s, rest, h, hs, hr => by
    simp only [print, List.append_assoc, List.cons_append, fills_txt] at hs
    obtain ⟨r, rfl, _⟩ := hs
    exact start_char rfl ⟨_, rfl⟩ (by decide) (by decide) (by decide)
  | .comprehension t e bs, s, rest, h, hs, hr => by
    simp only [print, List.append_assoc, List.cons_append, fills_txt] at hs
    obtain ⟨r, rfl, _⟩ := hs
    exact start_char rfl ⟨_, rfl⟩ (by decide) (by decide) (by decide)
  | .map k v es, s, rest, h, hs, hr => by
    simp only [print, List.append_assoc, List.cons_append, fills_txt] at hs
    obtain ⟨r, rfl, _⟩ := hs
    exact start_char rfl ⟨_, rfl⟩ (by decide) (by decide) (by decide)
  | .number n, s, rest, h, hs, hr => by
    simp only [Expr.Plain] at h
    simp only [print, fills_txt, fills_nil] at hs
    obtain ⟨_, rfl, rfl⟩ := hs
    rw [List.append_nil]
    exact start_number h
  | .record x r fs, s, rest, h, hs, hr => by
    simp only [Expr.Plain] at h
    simp only [print, List.append_assoc, List.cons_append, List.nil_append, fills_txt] at hs
    obtain ⟨_, rfl, _, rfl, _⟩ := hs
    simp only [opening, List.append_assoc]
    exact start_qualified h.1 (lead_cons (by decide) (by decide) (by decide) (by decide))
  | .field r x, s, rest, h, hs, hr => by
    simp only [Expr.Plain] at h
    simp only [print, fills_append, fills_txt] at hs
    obtain ⟨s1, _, rfl, h1, _, rfl, _⟩ := hs
    simp only [opening, List.append_assoc]
    exact start_ok r s1 _ h.1 h1 (lead_cons (by decide) (by decide) (by decide) (by decide))
  | .string t, s, rest, h, hs, hr => by
    simp only [print, fills_txt] at hs
    obtain ⟨_, rfl, _⟩ := hs
    exact start_char rfl ⟨_, _, rfl, by decide⟩ (by decide) (by decide) (by decide)
  | .unary .not e, s, rest, h, hs, hr => by
    simp only [Expr.Plain] at h
    simp only [print, fills_txt] at hs
    obtain ⟨s1, rfl, h1⟩ := hs
    have : ∃ o, Start o (s1 ++ rest) := by
      cases hb : e.isBinary with
      | true => rw [hb] at h1; exact ⟨_, start_paren h1⟩
      | false =>
        rw [hb, paren_false] at h1
        exact ⟨_, start_ok e s1 rest h h1 hr⟩
    obtain ⟨o, ho⟩ := this
    obtain ⟨c, r, e', hc⟩ := ho.starts.head
    refine start_char rfl ⟨c, r, ?_, hc.2.1⟩ (by decide) (by decide) (by decide)
    rw [← e']; rfl
  | .unary .try_ e, s, rest, h, hs, hr => by
    simp only [Expr.Plain] at h
    simp only [print, fills_append, fills_txt] at hs
    obtain ⟨s1, _, rfl, h1, _, rfl, _⟩ := hs
    simp only [opening, List.append_assoc]
    cases hb : e.isBinary with
    | true => rw [hb] at h1; simpa using start_paren h1
    | false =>
      rw [hb, paren_false] at h1
      simpa using
        start_ok e s1 _ h.1 h1 (lead_cons (by decide) (by decide) (by decide) (by decide))
  | .variable x, s, rest, h, hs, hr => by
    simp only [Expr.Plain] at h
    simp only [print, fills_txt, fills_nil] at hs
    obtain ⟨_, rfl, rfl⟩ := hs
    rw [List.append_nil]
    exact start_qualified h hr

end Verif.Grammar
