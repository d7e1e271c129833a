import Verif.Grammar.Starts

/-! What can follow expressions. -/

namespace Verif.Grammar

/-- There is no field of a record in front. -/
def NoField (s : List Char) : Prop :=
  ∀ x r, identifier s = .ok x r → sign ":".toList r = .error

theorem Free.noField {s : List Char} (h : Free s) : NoField s := fun x r h' => (h x r h').2

/-- The input does not make a record of a name in front of it. -/
def NotRecord (rest : List Char) : Prop :=
  ∀ r, sign "{".toList rest = .ok () r →
    sign "...".toList r = .error ∧ sign "}".toList r = .error ∧ NoField r

theorem notRecord_of {rest : List Char} (h : sign "{".toList rest = .error) : NotRecord rest := by
  intro r h'
  rw [h] at h'
  cases h'

theorem NotRecord.append {b rest : List Char} (hb : Blank b) (h : NotRecord rest) :
    NotRecord (b ++ rest) := by
  intro r h'
  rw [(skips_sign _).append hb] at h'
  exact h r h'

/-- Characters that would go on with a name, a number, a call or an operator. -/
def goesOn (c : Char) : Bool := isWord c || c = '\'' || c = '.' || c = '(' || c = '='

/-- What can follow an operand. -/
structure Stop (rest : List Char) : Prop where
  head : startsWith goesOn rest = false
  dot : sign ".".toList rest = .error
  question : sign "?".toList rest = .error
  noElse : keyword "else".toList rest = .error

/-- What can follow an expression. -/
structure ExprEnd (e : Expr) (rest : List Char) : Prop where
  stop : Stop rest
  operator : binaryOperator rest = .error
  record : endsWithName e = true → NotRecord rest

theorem binaryOperator_error {c : Char} {s r : List Char} (hb : blank s = c :: r)
    (h : c ∉ "+-*/=<>&|".toList) (h' : c = '!' → startsWith (· = '=') r = false) :
    binaryOperator s = .error := by
  have hne : ∀ (o : BinOp) (t t' : List Char) (d : Char), t = d :: t' → d ≠ c →
      operatorSign o t s = .error := fun o t t' d e hd => bind_error (sign_error e hb hd)
  have hmem : ∀ d ∈ "+-*/=<>&|".toList, d ≠ c := by
    rintro d hd rfl
    exact h hd
  unfold binaryOperator
  refine (alt_error (hne _ _ _ '+' rfl (hmem _ (by decide)))).trans ?_
  refine (alt_error (hne _ _ _ '-' rfl (hmem _ (by decide)))).trans ?_
  refine (alt_error (hne _ _ _ '*' rfl (hmem _ (by decide)))).trans ?_
  refine (alt_error (hne _ _ _ '/' rfl (hmem _ (by decide)))).trans ?_
  refine (alt_error (hne _ _ _ '=' rfl (hmem _ (by decide)))).trans ?_
  refine (alt_error ?_).trans ?_
  · refine bind_error ?_
    by_cases hc : c = '!'
    · subst hc
      rw [sign_operator (by decide), hb]
      have := h' rfl
      cases r with
      | nil => rfl
      | cons d r =>
        simp [startsWith] at this
        simp [tag, Ne.symm this, R.bind]
    · exact sign_error rfl hb (Ne.symm hc)
  refine (alt_error (hne _ _ _ '<' rfl (hmem _ (by decide)))).trans ?_
  refine (alt_error (hne _ _ _ '<' rfl (hmem _ (by decide)))).trans ?_
  refine (alt_error (hne _ _ _ '>' rfl (hmem _ (by decide)))).trans ?_
  refine (alt_error (hne _ _ _ '>' rfl (hmem _ (by decide)))).trans ?_
  refine (alt_error (hne _ _ _ '&' rfl (hmem _ (by decide)))).trans ?_
  exact (alt_error (hne _ _ _ '|' rfl (hmem _ (by decide)))).trans alt_nil

theorem exprEnd_of {e : Expr} {c : Char} {rest r : List Char}
    (hh : startsWith goesOn rest = false) (hb : blank rest = c :: r)
    (h : c ∉ "+-*/=<>&|.?".toList) (h' : c = '!' → startsWith (· = '=') r = false)
    (hn : keyword "else".toList rest = .error) (hr : endsWithName e = true → NotRecord rest) :
    ExprEnd e rest := by
  have hne : ∀ d ∈ "+-*/=<>&|.?".toList, d ≠ c := by
    rintro d hd rfl
    exact h hd
  refine ⟨⟨hh, sign_error rfl hb (hne _ (by decide)), sign_error rfl hb (hne _ (by decide)), hn⟩,
    binaryOperator_error hb ?_ h', hr⟩
  intro hc
  refine h ?_
  have : ∀ d ∈ "+-*/=<>&|".toList, d ∈ "+-*/=<>&|.?".toList := by decide
  exact this c hc

/-- A character that ends expressions. -/
def ends (c : Char) : Bool := c = ',' || c = ')' || c = ']' || c = '}' || c = '[' || c = ':'

theorem ends_cases {c : Char} (h : ends c = true) :
    c = ',' ∨ c = ')' ∨ c = ']' ∨ c = '}' ∨ c = '[' ∨ c = ':' := by
  simp [ends] at h
  rcases h with ((((h | h) | h) | h) | h) | h <;> simp [h]

theorem exprEnd_blank {e : Expr} {b r : List Char} {c : Char} (hb : Blank b) (h : ends c = true) :
    ExprEnd e (b ++ c :: r) := by
  have hs : Solid c := by rcases ends_cases h with rfl | rfl | rfl | rfl | rfl | rfl <;> decide
  have hbl : blank (b ++ c :: r) = c :: r := by rw [blank_append hb, blank_solid hs]
  refine exprEnd_of ?_ hbl ?_ ?_ ?_ fun _ => notRecord_of (sign_error rfl hbl ?_)
  · cases b with
    | nil => rcases ends_cases h with rfl | rfl | rfl | rfl | rfl | rfl <;> rfl
    | cons d b =>
      refine gap_start ⟨hb, by simp⟩ fun d hd => ?_
      have := space_word hd
      simp only [goesOn]
      simp [this]
  · rcases ends_cases h with rfl | rfl | rfl | rfl | rfl | rfl <;> decide
  · rintro rfl; exact absurd h (by decide)
  · refine keyword_error rfl hbl ?_
    rcases ends_cases h with rfl | rfl | rfl | rfl | rfl | rfl <;> decide
  · rcases ends_cases h with rfl | rfl | rfl | rfl | rfl | rfl <;> decide

theorem exprEnd_char {e : Expr} {r : List Char} {c : Char} (h : ends c = true) :
    ExprEnd e (c :: r) := exprEnd_blank (b := []) .nil h

theorem goesOn_gap {b s : List Char} (hb : Blank b ∧ b ≠ []) : startsWith goesOn (b ++ s) = false := by
  refine gap_start hb fun d hd => ?_
  have := space_word hd
  simp only [goesOn]
  simp [this]

/-- A gap and a keyword other than `else`. -/
theorem exprEnd_keyword {e : Expr} {b r : List Char} {c : Char} (hb : Blank b ∧ b ≠ [])
    (h : isWord c = true) (he : c ≠ 'e') : ExprEnd e (b ++ c :: r) := by
  have hbl : blank (b ++ c :: r) = c :: r := by rw [blank_append hb.1, blank_solid (word_solid h)]
  refine exprEnd_of (goesOn_gap hb) hbl ?_ ?_ (keyword_error rfl hbl (Ne.symm he))
    fun _ => notRecord_of (sign_error rfl hbl (Ne.symm (word_ne h (by decide))))
  · have : ∀ d ∈ "+-*/=<>&|.?".toList, isWord d = false := by decide
    intro hc
    rw [this c hc] at h
    cases h
  · rintro rfl; exact absurd h (by decide)

theorem goesOn_word {s : List Char} (h : startsWith goesOn s = false) : WordEnd s :=
  startsWith_mono h fun c hc => by simp [goesOn, hc]

theorem goesOn_name {s : List Char} (h : startsWith goesOn s = false) : NameEnd s :=
  startsWith_mono h fun c hc => by
    simp at hc
    rcases hc with hc | hc <;> simp [goesOn, hc]

theorem goesOn_number {s : List Char} (h : startsWith goesOn s = false) : NumberEnd s :=
  startsWith_mono h fun c hc => by
    simp at hc
    rcases hc with hc | hc <;> simp [goesOn, hc]

theorem goesOn_equal {s : List Char} (h : startsWith goesOn s = false) :
    startsWith (· = '=') s = false :=
  startsWith_mono h fun c hc => by simp at hc; simp [goesOn, hc]

theorem goesOn_paren {s : List Char} (h : startsWith goesOn s = false) :
    startsWith (· = '(') s = false :=
  startsWith_mono h fun c hc => by simp at hc; simp [goesOn, hc]

/-- A gap and a statement with a name. -/
theorem exprEnd_identifier {e : Expr} {b x r : List Char} (hb : Blank b ∧ b ≠ [])
    (hx : IsIdentifier x) (hr : WordEnd r) : ExprEnd e (b ++ (x ++ r)) := by
  obtain ⟨c, t, ex, hc⟩ := hx.head
  have hw : isWord c = true := hx.words c (by rw [ex]; simp)
  have hbl : blank (b ++ (x ++ r)) = c :: (t ++ r) := by
    rw [blank_append hb.1, ex]; exact blank_solid (word_solid hw) _
  refine exprEnd_of (goesOn_gap hb) hbl ?_ ?_ ?_
    fun _ => notRecord_of (sign_error rfl hbl (Ne.symm (word_ne hw (by decide))))
  · have : ∀ d ∈ "+-*/=<>&|.?".toList, isWord d = false := by decide
    intro hc
    rw [this c hc] at hw
    cases hw
  · rintro rfl; exact absurd hw (by decide)
  · rw [(skips_keyword _).append hb.1]
    exact keyword_identifier (by decide) hx hr

/-- A gap and an expression that stays apart. -/
theorem exprEnd_start {e f : Expr} {b s : List Char} (hb : Blank b ∧ b ≠ [])
    (hs : Start (opening f) s) (ha : Apart e f) : ExprEnd e (b ++ s) := by
  obtain ⟨c, r, rfl, hc⟩ := hs.starts.head
  have hbl : blank (b ++ c :: r) = c :: r := by rw [blank_append hb.1, blank_solid hc.1]
  have hsign : c ≠ '+' ∧ c ≠ '-' ∧ c ≠ '.' := by
    have := ha.1
    have hst := hs.starts
    revert hst this
    cases opening f with
    | sign => intro h; exact absurd rfl h
    | parenthesis => rintro - ⟨_, h⟩; cases h; decide
    | bang => rintro - ⟨_, _, h, _⟩; cases h; decide
    | bracket => rintro - ⟨_, h⟩; cases h; decide
    | brace => rintro - ⟨_, h⟩; cases h; decide
    | other =>
      rintro - ⟨_, _, h, h'⟩
      cases h
      rcases h' with h' | rfl | rfl
      · exact ⟨word_ne h' (by decide), word_ne h' (by decide), word_ne h' (by decide)⟩
      · decide
      · decide
  refine exprEnd_of (goesOn_gap hb) hbl ?_ ?_ ?_ ?_
  · intro hm
    have hm : c ∈ ['+', '-', '*', '/', '=', '<', '>', '&', '|', '.', '?'] := hm
    simp only [List.mem_cons, List.not_mem_nil, or_false] at hm
    simp_all
  · rintro rfl
    have hst := hs.starts
    revert hst
    cases opening f with
    | bang =>
      rintro ⟨d, r', h, hd⟩
      cases h
      simpa [startsWith] using hd
    | parenthesis => rintro ⟨_, h⟩; cases h
    | bracket => rintro ⟨_, h⟩; cases h
    | brace => rintro ⟨_, h⟩; cases h
    | sign =>
      rintro ⟨_, _, _, h, h'⟩
      cases h
      simp at h'
    | other =>
      rintro ⟨_, _, h, h'⟩
      cases h
      exact absurd h' (by decide)
  · rw [(skips_keyword _).append hb.1]
    exact hs.noElse
  · intro hn
    refine notRecord_of (sign_error (c := '{') rfl hbl ?_)
    rintro rfl
    have hst := hs.starts
    have hbr : opening f ≠ .brace := fun h => ha.2 ⟨hn, h⟩
    revert hst hbr
    cases opening f with
    | brace => intro _ h; exact absurd rfl h
    | bang => rintro ⟨d, r', h, hd⟩; cases h
    | parenthesis => rintro ⟨_, h⟩; cases h
    | bracket => rintro ⟨_, h⟩; cases h
    | sign =>
      rintro ⟨_, _, _, h, h'⟩
      cases h
      simp at h'
    | other =>
      rintro ⟨_, _, h, h'⟩
      cases h
      exact absurd h' (by decide)

/-! ## What the recursive nonterminals do -/

/-- The text of an operand. -/
def printOperand (e : Expr) : List Piece := paren e.isBinary (print e)

/-- Does the text of an operand end with a variable? -/
def operandName (e : Expr) : Bool := !e.isBinary && endsWithName e

/-- Expressions and their errors, for inputs shorter than `n`. -/
structure ExprInv (g : G) (n : Nat) : Prop where
  types : TypeInv g n
  skips : Skips g.expression
  skipsOperand : Skips g.operand
  expression : ∀ e s rest, e.Plain → Fills (print e) s → ExprEnd e rest →
    (s ++ rest).length < n → g.expression (s ++ rest) = .ok e rest
  operand : ∀ e s rest, e.Plain → Fills (printOperand e) s → Stop rest →
    (operandName e = true → NotRecord rest) → (s ++ rest).length < n →
    g.operand (s ++ rest) = .ok e rest
  error : ∀ s, Closes s → s.length < n → g.expression s = .error
  dots : ∀ s r, blank s = '.' :: '.' :: r → s.length < n → g.expression s = .error

end Verif.Grammar
