import Verif.Grammar.Collections

/-! Comprehensions, atomic expressions, suffixes and operators: what is written is read back. -/

namespace Verif.Grammar

/-! ## Comprehensions -/

/-- The text of a branch of a comprehension. -/
def printCompBranch : CompBranch → List Piece
  | .mk xs es c =>
    [text "for", .gap] ++ join comma (xs.map fun x => [.txt x]) ++ [.gap, text "in", .gap] ++
      join comma (es.map print) ++ printCondition c

def PlainCompBranch : CompBranch → Prop
  | .mk xs es c =>
    xs ≠ [] ∧ (∀ x ∈ xs, IsIdentifier x) ∧ es ≠ [] ∧ (∀ e ∈ es, e.Plain) ∧ plainOption c

theorem printCompBranches_map (bs : List CompBranch) :
    printCompBranches bs = bs.map printCompBranch := by
  induction bs with
  | nil => rfl
  | cons b bs ih => cases b; simp [printCompBranches, printCompBranch, ih, printAll_map]

theorem allPlainCompBranches_iff (bs : List CompBranch) :
    allPlainCompBranches bs ↔ ∀ b ∈ bs, PlainCompBranch b := by
  induction bs with
  | nil => simp [allPlainCompBranches]
  | cons b bs ih =>
    cases b
    simp only [allPlainCompBranches, allPlain_iff, ih, List.mem_cons, forall_eq_or_imp,
      PlainCompBranch]
    constructor
    · rintro ⟨h1, h2, h3, h4, h5, h6⟩
      exact ⟨⟨h1, h2, h3, h4, h5⟩, h6⟩
    · rintro ⟨⟨h1, h2, h3, h4, h5⟩, h6⟩
      exact ⟨h1, h2, h3, h4, h5, h6⟩

/-- What follows a branch of a comprehension. -/
def BranchEnd (rest : List Char) : Prop :=
  ∃ b c r, rest = b ++ c :: r ∧ Blank b ∧ (c = ']' ∨ (b ≠ [] ∧ c = 'f'))

theorem BranchEnd.exprEnd {e : Expr} {rest : List Char} (h : BranchEnd rest) : ExprEnd e rest := by
  obtain ⟨b, c, r, rfl, hb, rfl | ⟨hne, rfl⟩⟩ := h
  · exact exprEnd_blank hb (by decide)
  · exact exprEnd_keyword ⟨hb, hne⟩ (by decide) (by decide)

theorem BranchEnd.head {rest : List Char} (h : BranchEnd rest) :
    ∃ c r, blank rest = c :: r ∧ (c = ']' ∨ c = 'f') := by
  obtain ⟨b, c, r, rfl, hb, h⟩ := h
  have hc : c = ']' ∨ c = 'f' := h.imp id And.right
  refine ⟨c, r, ?_, hc⟩
  rw [blank_append hb, blank_solid (by rcases hc with rfl | rfl <;> decide)]

theorem skips_list1 {α : Type} {p : Parser α} (h : Skips p) :
    Skips (list1 (sign ",".toList) p) := (separated1_skips h _).bind _

theorem compBranch_ok {g : G} {n : Nat} (ih : ExprInv g n) {x : CompBranch}
    (h : PlainCompBranch x) {b s rest : List Char} (hb : Blank b) (hs : Fills (printCompBranch x) s)
    (hr : BranchEnd rest) (hn : (s ++ rest).length < n) :
    compBranch g (b ++ (s ++ rest)) = .ok x rest := by
  cases x with
  | mk xs es c =>
    obtain ⟨hxs, hx, hes, he, hc⟩ := h
    simp only [printCompBranch, List.append_assoc, List.cons_append, List.nil_append, fills_txt,
      fills_gap, fills_append] at hs
    obtain ⟨_, rfl, b1, _, rfl, hb1, s1, _, rfl, h1, b2, _, rfl, hb2, _, rfl, b3, _, rfl, hb3, s2,
      s3, rfl, h2, h3⟩ := hs
    simp only [List.append_assoc] at hn ⊢
    refine (bind_ok (keyword_gap (by decide) hb (wordEnd_gap hb1))).trans (cut_ok ?_)
    cases xs with
    | nil => exact absurd rfl hxs
    | cons y ys =>
    cases es with
    | nil => exact absurd rfl hes
    | cons e es =>
      obtain ⟨b4, hb4, hl1⟩ := list1_ok (el := identifier) (pr := fun x => [Piece.txt x])
        (n := n) (End := fun _ => WordEnd) skips_identifier y ys
        (fun y hy s rest hs he _ => by
          simp only [fills_txt, fills_nil] at hs
          obtain ⟨_, rfl, rfl⟩ := hs
          rw [List.append_nil]
          exact identifier_ok (hx y hy) he)
        (fun y hy r => wordEnd_char (by decide))
        (b2 ++ ("in".toList ++ (b3 ++ (s2 ++ (s3 ++ rest)))))
        (fun y hy => wordEnd_gap hb2)
        (sign_gap_error hb2.1 (sign_error rfl (blank_solid (by decide) _) (by decide)))
        s1 ⟨s1, [], by simp, h1, .inl rfl⟩ (by simp at hn ⊢; omega)
      refine (bind_ok ((skips_list1 skips_identifier).append hb1.1 _ |>.trans hl1)).trans ?_
      refine (bind_ok (a := ()) (r := b3 ++ (s2 ++ (s3 ++ rest))) ?_).trans ?_
      · rw [← List.append_assoc]
        exact keyword_gap (by decide) (hb4.append hb2.1) (wordEnd_gap hb3)
      have hend : (∀ y ∈ e :: es, ExprEnd y (s3 ++ rest)) ∧
          sign ",".toList (s3 ++ rest) = .error := by
        cases c with
        | none =>
          have : s3 = [] := h3
          subst this
          refine ⟨fun y _ => hr.exprEnd, ?_⟩
          obtain ⟨c, r, hbl, hc⟩ := hr.head
          exact sign_error rfl hbl (by rcases hc with rfl | rfl <;> decide)
        | some c =>
          simp only [printCondition, List.cons_append, List.nil_append, fills_txt, fills_gap] at h3
          obtain ⟨b5, _, rfl, hb5, _, rfl, b6, s4, rfl, hb6, h4⟩ := h3
          simp only [List.append_assoc]
          exact ⟨fun y _ => exprEnd_keyword hb5 (by decide) (by decide),
            sign_gap_error hb5.1 (sign_error rfl (blank_solid (by decide) _) (by decide))⟩
      obtain ⟨b5, hb5, hl2⟩ := list1_ok (el := g.expression) (pr := print) (n := n)
        (End := ExprEnd) ih.skips e es
        (fun y hy s rest hs he' hn => ih.expression y s rest (he y hy) hs he' hn)
        (fun y hy r => exprEnd_char (by decide)) (s3 ++ rest) hend.1 hend.2 s2
        ⟨s2, [], by simp, h2, .inl rfl⟩ (by simp at hn ⊢; omega)
      refine (bind_ok ((skips_list1 ih.skips).append hb3.1 _ |>.trans hl2)).trans ?_
      cases c with
      | none =>
        have : s3 = [] := h3
        subst this
        obtain ⟨c, r, hbl, hc'⟩ := hr.head
        have hk : keyword "if".toList rest = .error :=
          keyword_error rfl hbl (by rcases hc' with rfl | rfl <;> decide)
        have hb5' : b5 = [] := by
          -- `list1` stops in front of the white space
          have := hend.2
          cases b5 with
          | nil => rfl
          | cons d b5 =>
            exfalso
            have hl := separated_ok (el := g.expression) (pr := print) (n := n)
              (End := ExprEnd) ih.skips e es
              (fun y hy s rest hs he' hn => ih.expression y s rest (he y hy) hs he' hn)
              (fun y hy r => exprEnd_char (by decide)) ([] ++ rest) hend.1 (bind_error hend.2) s2
              h2 (by simp at hn ⊢; omega)
            have hl' : list1 (sign ",".toList) g.expression (s2 ++ ([] ++ rest)) =
                .ok (e :: es) ([] ++ rest) :=
              (bind_ok hl).trans ((bind_ok (opt_error hend.2)).trans rfl)
            rw [hl'] at hl2
            have := congrArg (fun r => match r with | R.ok _ r => r.length | _ => 0) hl2
            simp at this
            omega
        subst hb5'
        exact (bind_ok (opt_error (bind_error hk))).trans rfl
      | some c =>
        simp only [printCondition, List.cons_append, List.nil_append, fills_txt, fills_gap] at h3
        obtain ⟨b6, _, rfl, hb6, _, rfl, b7, s4, rfl, hb7, h4⟩ := h3
        simp only [List.append_assoc] at hn ⊢
        refine (bind_ok (opt_ok (a := c) (r := rest) ?_)).trans rfl
        refine (bind_ok (a := ()) (r := b7 ++ (s4 ++ rest)) ?_).trans ?_
        · rw [← List.append_assoc]
          exact keyword_gap (by decide) (hb5.append hb6.1) (wordEnd_gap hb7)
        · rw [ih.skips.append hb7.1]
          exact ih.expression c s4 rest hc h4 hr.exprEnd (by simp at hn ⊢; omega)

theorem moreCompBranches_ok {g : G} {n : Nat} (ih : ExprInv g n) : ∀ (bs : List CompBranch)
    (s b r : List Char), (∀ x ∈ bs, PlainCompBranch x) → Blank b →
    Fills (bs.map fun x => Piece.gap :: printCompBranch x).flatten s →
    (s ++ (b ++ ']' :: r)).length < n →
    BranchEnd (s ++ (b ++ ']' :: r)) ∧ Many (compBranch g) (s ++ (b ++ ']' :: r)) bs (b ++ ']' :: r)
  | [], s, b, r, _, hb, hs, hn => by
    have : s = [] := hs
    subst this
    refine ⟨⟨b, ']', r, rfl, hb, .inl rfl⟩, .nil (bind_error ?_)⟩
    exact keyword_error rfl (by rw [List.nil_append, blank_append hb]; exact blank_solid (by decide) _)
      (by decide)
  | x :: bs, s, b, r, h, hb, hs, hn => by
    simp only [List.map_cons, List.flatten_cons, List.cons_append, fills_gap, fills_append] at hs
    obtain ⟨b1, _, rfl, hb1, s1, s2, rfl, h1, h2⟩ := hs
    simp only [List.append_assoc] at hn ⊢
    obtain ⟨i1, i2⟩ := moreCompBranches_ok ih bs s2 b r (fun y hy => h y (by simp [hy])) hb h2
      (by simp at hn ⊢; omega)
    refine ⟨?_, .cons (compBranch_ok ih (h x (by simp)) hb1.1 h1 i1 (by simp at hn ⊢; omega)) ?_ i2⟩
    · cases x with
      | mk xs es c =>
        simp only [printCompBranch, List.append_assoc, List.cons_append, fills_txt] at h1
        obtain ⟨_, rfl, _⟩ := h1
        exact ⟨b1, 'f', _, rfl, hb1.1, .inr ⟨hb1.2, rfl⟩⟩
    · have : 0 < b1.length := List.length_pos_iff.2 hb1.2
      simp; omega

/-- Comprehensions are read back. -/
theorem comprehension_ok {g : G} {n : Nat} (ih : ExprInv g n) {t : Ty} {e : Expr}
    {bs : List CompBranch} (h : (Expr.comprehension t e bs).Plain) {s rest : List Char}
    (hs : Fills (print (.comprehension t e bs)) s) (hn : (s ++ rest).length ≤ n) :
    comprehension g (s ++ rest) = .ok (.comprehension t e bs) rest := by
  simp only [Expr.Plain, allPlainCompBranches_iff] at h
  obtain ⟨ht, he, hne, hbs⟩ := h
  cases bs with
  | nil => exact absurd rfl hne
  | cons x bs =>
    have e1 : print (.comprehension t e (x :: bs)) = text "[" :: (printType t ++ (.gap :: (print e ++
        (((x :: bs).map fun x => Piece.gap :: printCompBranch x).flatten ++
          [.soft, text "]"])))) := by
      simp [print, printCompBranches_map, join_cons, Function.comp_def]
    rw [e1] at hs
    simp only [fills_txt, fills_gap, fills_append, fills_soft, fills_nil] at hs
    obtain ⟨_, rfl, s1, _, rfl, h1, b1, _, rfl, hb1, s2, _, rfl, h2, s3, _, rfl, h3, b2, _, rfl, hb2,
      _, rfl, rfl⟩ := hs
    simp only [List.append_assoc, List.append_nil] at hn ⊢
    obtain ⟨i1, i2⟩ := moreCompBranches_ok ih (x :: bs) s3 b2 rest hbs hb2 h3
      (by simp at hn ⊢; omega)
    have hst : ∃ c r, s2 ++ (s3 ++ (b2 ++ ("]".toList ++ rest))) = c :: r ∧ Solid c ∧ c ≠ '|' := by
      obtain ⟨c, r, e', hc⟩ := (start_ok e s2 [] he h2 ⟨rfl, rfl, rfl⟩).starts.head
      rw [List.append_nil] at e'
      rw [e']
      exact ⟨c, _, rfl, hc.1, hc.2.2.2.1⟩
    refine (bind_ok (sign_ok _ rfl (by decide) (by decide))).trans ?_
    refine (bind_ok (ih.types.type t s1 _ ht h1 ?_ (by simp at hn ⊢; omega))).trans ?_
    · obtain ⟨c, r, e', hc⟩ := hst
      rw [e']
      exact typeEnd_gap hb1 hc.1 hc.2
    refine (bind_ok (a := e) (r := s3 ++ (b2 ++ ("]".toList ++ rest))) ?_).trans ?_
    · rw [ih.skips.append hb1.1]
      exact ih.expression e s2 _ he h2 i1.exprEnd (by simp at hn ⊢; omega)
    refine (bind_ok i2.many1).trans ?_
    exact (bind_ok (sign_blank hb2 (sign_open' ']' rest (by decide) (by decide)))).trans rfl

/-! ## Atomic expressions -/

theorem atomic_skip {g : G} {s r : List Char} {c : Char} (hb : blank s = c :: r) (hc : c ≠ '\\')
    (hi : keyword "if".toList s = .error) : atomic g s = alt [record g, comprehension g,
      listLiteral g, mapLiteral g, numberExpression, stringExpression, variableExpression,
      parenthesized g] s := by
  refine (alt_error (bind_error (bind_error (sign_error rfl hb (Ne.symm hc))))).trans ?_
  refine (alt_error (bind_error hi)).trans ?_
  refine (alt_error (bind_error hi)).trans ?_
  refine (alt_error (bind_error hi)).trans ?_
  exact alt_error (bind_error hi)

theorem qualified_error {s r : List Char} {c : Char} (hb : blank s = c :: r)
    (ha : c.isAlpha = false) (hu : c ≠ '_') : token qualifiedIdentifier s = .error := by
  unfold token
  rw [hb]
  exact bind_error (rawIdentifier_error ha hu)

theorem if_char {s r : List Char} {c : Char} (hb : blank s = c :: r) (ha : c.isAlpha = false) :
    keyword "if".toList s = .error := by
  refine keyword_error (c := 'i') rfl hb ?_
  rintro rfl
  revert ha
  decide

theorem atomic_name {g : G} {x s : List Char} (hx : IsQualified x) (hs : WordEnd s) :
    atomic g (x ++ s) = alt [record g, comprehension g,
      listLiteral g, mapLiteral g, numberExpression, stringExpression, variableExpression,
      parenthesized g] (x ++ s) := by
  obtain ⟨c, t, e, hc⟩ := hx.head
  have hw : isWord c = true := by
    rcases hc with hc | rfl
    · simp [isWord, Char.isAlphanum, hc]
    · decide
  have hb : blank (x ++ s) = c :: (t ++ s) := by
    rw [e]; exact blank_solid (word_solid hw) _
  exact atomic_skip hb (word_ne hw (by decide)) (keyword_qualified (by decide) hx hs)

theorem atomic_skip_char {g : G} {s r : List Char} {c : Char} (hb : blank s = c :: r)
    (hc : c ≠ '\\') (ha : c.isAlpha = false) (hu : c ≠ '_') : atomic g s = alt [comprehension g,
      listLiteral g, mapLiteral g, numberExpression, stringExpression, variableExpression,
      parenthesized g] s :=
  (atomic_skip hb hc (if_char hb ha)).trans (alt_error (bind_error (qualified_error hb ha hu)))

theorem brackets_skip {g : G} {s r : List Char} {c : Char} (hb : blank s = c :: r)
    (h1 : c ≠ '[') (h2 : c ≠ '{') (ps : List (Parser Expr)) :
    alt (comprehension g :: listLiteral g :: mapLiteral g :: ps) s = alt ps s := by
  refine (alt_error (bind_error (sign_error rfl hb (Ne.symm h1)))).trans ?_
  refine (alt_error (bind_error (sign_error rfl hb (Ne.symm h1)))).trans ?_
  exact alt_error (bind_error (sign_error rfl hb (Ne.symm h2)))

theorem parenthesized_ok {g : G} {n : Nat} (ih : ExprInv g n) {e : Expr} (h : e.Plain)
    {s rest : List Char} (hs : Fills (paren true (print e)) s) (hn : (s ++ rest).length ≤ n) :
    atomic g (s ++ rest) = .ok e rest := by
  simp only [paren_true, List.cons_append, fills_txt, fills_append, fills_nil] at hs
  obtain ⟨_, rfl, s1, _, rfl, h1, _, rfl, rfl⟩ := hs
  simp only [List.append_assoc, List.append_nil] at hn ⊢
  have hb : blank ("(".toList ++ (s1 ++ (")".toList ++ rest))) =
      '(' :: (s1 ++ (")".toList ++ rest)) := blank_solid (by decide) _
  rw [atomic_skip_char hb (by decide) (by decide) (by decide),
    brackets_skip hb (by decide) (by decide)]
  refine (alt_error (bind_error (number_error hb (by decide) (by decide) (by decide)
    (.inl (by decide))))).trans ?_
  refine (alt_error (bind_error (stringLiteral_error hb (by decide)))).trans ?_
  refine (alt_error (bind_error (qualified_error hb (by decide) (by decide)))).trans (alt_ok ?_)
  refine (bind_ok (sign_ok _ rfl (by decide) (by decide))).trans ?_
  refine (bind_ok (ih.expression e s1 _ h h1 (exprEnd_char (by decide))
    (by simp at hn ⊢; omega))).trans ?_
  exact (bind_ok (sign_ok _ rfl (by decide) (by decide))).trans rfl

theorem atomic_error {g : G} {s r : List Char} {c : Char} (hb : blank s = c :: r)
    (h : c = ')' ∨ c = ']' ∨ c = '}' ∨ (c = '.' ∧ startsWith (· = '.') r = true)) :
    atomic g s = .error := by
  have hc : c = ')' ∨ c = ']' ∨ c = '}' ∨ c = '.' := h.imp id (.imp id (.imp id And.left))
  have hn : c ≠ '.' ∨ startsWith Char.isDigit r = false := by
    rcases h with rfl | rfl | rfl | ⟨rfl, h⟩
    · exact .inl (by decide)
    · exact .inl (by decide)
    · exact .inl (by decide)
    · right
      cases r with
      | nil => rfl
      | cons d r =>
        simp [startsWith] at h
        subst h
        rfl
  have hd : ∀ p : Char → Prop, p ')' → p ']' → p '}' → p '.' → p c := by
    intro p h1 h2 h3 h4
    rcases hc with rfl | rfl | rfl | rfl
    · exact h1
    · exact h2
    · exact h3
    · exact h4
  rw [atomic_skip_char hb (hd (· ≠ '\\') (by decide) (by decide) (by decide) (by decide))
      (hd (fun c => c.isAlpha = false) (by decide) (by decide) (by decide) (by decide))
      (hd (· ≠ '_') (by decide) (by decide) (by decide) (by decide)),
    brackets_skip hb (hd (· ≠ '[') (by decide) (by decide) (by decide) (by decide))
      (hd (· ≠ '{') (by decide) (by decide) (by decide) (by decide))]
  refine (alt_error (bind_error (number_error hb
    (hd (fun c => c.isDigit = false) (by decide) (by decide) (by decide) (by decide))
    (hd (· ≠ '+') (by decide) (by decide) (by decide) (by decide))
    (hd (· ≠ '-') (by decide) (by decide) (by decide) (by decide)) hn))).trans ?_
  refine (alt_error (bind_error (stringLiteral_error hb
    (hd (· ≠ '"') (by decide) (by decide) (by decide) (by decide))))).trans ?_
  refine (alt_error (bind_error (qualified_error hb
      (hd (fun c => c.isAlpha = false) (by decide) (by decide) (by decide) (by decide))
      (hd (· ≠ '_') (by decide) (by decide) (by decide) (by decide))))).trans ?_
  exact (alt_error (bind_error (sign_error rfl hb
    (hd (fun c => '(' ≠ c) (by decide) (by decide) (by decide) (by decide))))).trans alt_nil

/-- What can follow an expression with suffixes. -/
structure SuffixEnd (e : Expr) (rest : List Char) : Prop where
  name : NameEnd rest
  equal : startsWith (· = '=') rest = false
  number : e.isNumber = true → NumberEnd rest
  record : endsWithName e = true → NotRecord rest
  noElse : keyword "else".toList rest = .error

theorem suffixEnd_char {e : Expr} {c : Char} {r : List Char}
    (hc : c = '(' ∨ c = '?' ∨ (c = '.' ∧ e.isNumber = false)) : SuffixEnd e (c :: r) := by
  have hb : blank (c :: r) = c :: r := blank_solid (by rcases hc with rfl | rfl | ⟨rfl, _⟩ <;> decide) r
  refine ⟨?_, ?_, ?_, fun _ => notRecord_of (sign_error rfl hb ?_), keyword_error rfl hb ?_⟩
  · rcases hc with rfl | rfl | ⟨rfl, _⟩ <;> exact nameEnd_cons (by decide)
  · rcases hc with rfl | rfl | ⟨rfl, _⟩ <;> rfl
  · intro hn
    rcases hc with rfl | rfl | ⟨rfl, h⟩
    · rfl
    · rfl
    · rw [h] at hn; cases hn
  · rcases hc with rfl | rfl | ⟨rfl, _⟩ <;> decide
  · rcases hc with rfl | rfl | ⟨rfl, _⟩ <;> decide

/-- Is it read by `atomic_expression`, without suffixes? -/
def Expr.isAtomic : Expr → Bool
  | .binary .. => false
  | .call .. => false
  | .field .. => false
  | .unary .. => false
  | _ => true

theorem digit_alpha {c : Char} (h : c.isDigit = true) : c.isAlpha = false ∧ c ≠ '_' := by
  refine ⟨?_, ?_⟩
  · have h3 : c.toNat < 65 := by
      simp [Char.isDigit, UInt32.le_iff_toNat_le] at h
      have : c.toNat = c.val.toNat := rfl
      omega
    simp [Char.isAlpha, Char.isUpper, Char.isLower, UInt32.le_iff_toNat_le]
    have : c.toNat = c.val.toNat := rfl
    omega
  · rintro rfl
    revert h
    decide

theorem atomic_ok {g : G} {n : Nat} (ih : ExprInv g n) {e : Expr} (h : e.Plain)
    (ha : e.isAtomic = true) {s rest : List Char} (hs : Fills (print e) s) (hr : SuffixEnd e rest)
    (hn : (s ++ rest).length ≤ n) : atomic g (s ++ rest) = .ok e rest := by
  have hif : ∀ r : List Char, s ++ rest = 'i' :: r → lambdaExpression g (s ++ rest) = .error := by
    intro r e
    rw [e]
    exact bind_error (bind_error (sign_error rfl (blank_solid (by decide) _) (by decide)))
  cases e with
  | binary => simp [Expr.isAtomic] at ha
  | call => simp [Expr.isAtomic] at ha
  | field => simp [Expr.isAtomic] at ha
  | unary => simp [Expr.isAtomic] at ha
  | if_ bs e =>
    obtain ⟨h1, h2, h3, h4⟩ := if_ok ih h hs hn (rest := rest)
    have hl : lambdaExpression g (s ++ rest) = .error := by
      simp only [Expr.Plain] at h
      cases bs with
      | nil => exact absurd h.1 (by simp [FirstCondition])
      | cons b bs =>
        cases b with
        | mk c b =>
          simp only [print, printBranches, List.append_assoc, List.cons_append, List.nil_append,
            fills_txt, fills_gap] at hs
          obtain ⟨_, rfl, b, _, rfl, hb, _⟩ := hs
          exact hif _ rfl
    exact (alt_error hl).trans ((alt_error h1).trans ((alt_error h2).trans ((alt_error h3).trans
      (alt_ok h4))))
  | ifList l x y t e =>
    obtain ⟨h1, h2⟩ := ifList_ok ih h hs hn (rest := rest)
    have hl : lambdaExpression g (s ++ rest) = .error := by
      simp only [print, List.append_assoc, List.cons_append, List.nil_append,
        fills_txt, fills_gap] at hs
      obtain ⟨_, rfl, b, _, rfl, hb, _⟩ := hs
      exact hif _ rfl
    exact (alt_error hl).trans ((alt_error h1).trans (alt_ok h2))
  | ifMap x m k t e =>
    obtain ⟨h1, h2, h3⟩ := ifMap_ok ih h hs hn (rest := rest)
    have hl : lambdaExpression g (s ++ rest) = .error := by
      simp only [print, List.append_assoc, List.cons_append, List.nil_append,
        fills_txt, fills_gap] at hs
      obtain ⟨_, rfl, b, _, rfl, hb, _⟩ := hs
      exact hif _ rfl
    exact (alt_error hl).trans ((alt_error h1).trans ((alt_error h2).trans (alt_ok h3)))
  | ifType x e bs f =>
    have h1 := ifType_ok ih h hs hr.noElse hn
    have hl : lambdaExpression g (s ++ rest) = .error := by
      simp only [print, List.append_assoc, List.cons_append, List.nil_append,
        fills_txt, fills_gap] at hs
      obtain ⟨_, rfl, b, _, rfl, hb, _⟩ := hs
      exact hif _ rfl
    exact (alt_error hl).trans (alt_ok h1)
  | lambda as t b => exact alt_ok ((bind_ok (lambda_ok ih h hs hn)).trans rfl)
  | list t es =>
    obtain ⟨h1, h2⟩ := list_ok ih h hs hn (rest := rest)
    have hb : ∃ r, blank (s ++ rest) = '[' :: r := by
      simp only [print, List.append_assoc, List.cons_append, fills_txt] at hs
      obtain ⟨_, rfl, _⟩ := hs
      exact ⟨_, blank_solid (by decide) _⟩
    obtain ⟨r, hb⟩ := hb
    rw [atomic_skip_char hb (by decide) (by decide) (by decide)]
    exact (alt_error h1).trans (alt_ok h2)
  | comprehension t e bs =>
    have h1 := comprehension_ok ih h hs hn
    have hb : ∃ r, blank (s ++ rest) = '[' :: r := by
      simp only [print, List.append_assoc, List.cons_append, fills_txt] at hs
      obtain ⟨_, rfl, _⟩ := hs
      exact ⟨_, blank_solid (by decide) _⟩
    obtain ⟨r, hb⟩ := hb
    rw [atomic_skip_char hb (by decide) (by decide) (by decide)]
    exact alt_ok h1
  | map k v es =>
    have h1 := map_ok ih h hs hn
    have hb : ∃ r, blank (s ++ rest) = '{' :: r := by
      simp only [print, List.append_assoc, List.cons_append, fills_txt] at hs
      obtain ⟨_, rfl, _⟩ := hs
      exact ⟨_, blank_solid (by decide) _⟩
    obtain ⟨r, hb⟩ := hb
    rw [atomic_skip_char hb (by decide) (by decide) (by decide)]
    refine (alt_error (bind_error (sign_error rfl hb (by decide)))).trans ?_
    exact (alt_error (bind_error (sign_error rfl hb (by decide)))).trans (alt_ok h1)
  | number m =>
    simp only [Expr.Plain] at h
    simp only [print, fills_txt, fills_nil] at hs
    obtain ⟨_, rfl, rfl⟩ := hs
    rw [List.append_nil]
    obtain ⟨c, t, e, hc⟩ := numberText_head h
    have hb : blank (numberText m ++ rest) = c :: (t ++ rest) := by
      rw [e]
      refine blank_solid (decimal_solid ?_) _
      rcases hc with hc | hc | hc | hc <;> simp [hc]
    have h' : c ≠ '\\' ∧ c.isAlpha = false ∧ c ≠ '_' ∧ c ≠ '[' ∧ c ≠ '{' := by
      rcases hc with hc | rfl | rfl | rfl
      · have hw := isDigit_word c hc
        exact ⟨word_ne hw (by decide), (digit_alpha hc).1, (digit_alpha hc).2,
          word_ne hw (by decide), word_ne hw (by decide)⟩
      all_goals decide
    rw [atomic_skip_char hb h'.1 h'.2.1 h'.2.2.1, brackets_skip hb h'.2.2.2.1 h'.2.2.2.2]
    exact alt_ok ((bind_ok (number_ok h (hr.number rfl))).trans rfl)
  | record x r fs =>
    have h1 := record_ok ih h hs hn
    simp only [Expr.Plain] at h
    simp only [print, List.append_assoc, List.cons_append, List.nil_append, fills_txt] at hs
    obtain ⟨_, rfl, _, rfl, _⟩ := hs
    simp only [List.append_assoc] at h1 ⊢
    exact (atomic_name h.1 (wordEnd_char (c := '{') (by decide))).trans (alt_ok h1)
  | string t =>
    simp only [Expr.Plain] at h
    simp only [print, fills_txt, fills_nil] at hs
    obtain ⟨_, rfl, _, rfl, _, rfl, rfl⟩ := hs
    simp only [List.append_assoc, List.append_nil]
    have hb : blank ("\"".toList ++ (t ++ ("\"".toList ++ rest))) =
        '"' :: (t ++ ("\"".toList ++ rest)) := blank_solid (by decide) _
    rw [atomic_skip_char hb (by decide) (by decide) (by decide),
      brackets_skip hb (by decide) (by decide)]
    refine (alt_error (bind_error (number_error hb (by decide) (by decide) (by decide)
      (.inl (by decide))))).trans ?_
    exact alt_ok ((bind_ok (stringLiteral_ok h rest)).trans rfl)
  | «variable» x =>
    simp only [Expr.Plain] at h
    simp only [print, fills_txt, fills_nil] at hs
    obtain ⟨_, rfl, rfl⟩ := hs
    rw [List.append_nil]
    obtain ⟨c, t, e, hc⟩ := h.head
    have hw : isWord c = true := by
      rcases hc with hc | rfl
      · simp [isWord, Char.isAlphanum, hc]
      · decide
    have hb : blank (x ++ rest) = c :: (t ++ rest) := by
      rw [e]; exact blank_solid (word_solid hw) _
    have hd : c.isDigit = false := by
      cases hd : c.isDigit with
      | false => rfl
      | true =>
        have := digit_alpha hd
        rcases hc with hc | hc
        · rw [this.1] at hc; cases hc
        · exact absurd hc this.2
    rw [atomic_skip hb (word_ne hw (by decide)) (keyword_qualified (by decide) h hr.name.word)]
    refine (alt_error (record_error h hr.name (hr.record rfl))).trans ?_
    rw [brackets_skip hb (word_ne hw (by decide)) (word_ne hw (by decide))]
    refine (alt_error (bind_error (number_error hb hd (word_ne hw (by decide))
      (word_ne hw (by decide)) (.inl (word_ne hw (by decide)))))).trans ?_
    refine (alt_error (bind_error (stringLiteral_error hb (word_ne hw (by decide))))).trans ?_
    exact alt_ok ((bind_ok (qualified_ok h hr.name)).trans rfl)

end Verif.Grammar
