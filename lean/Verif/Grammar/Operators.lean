import Verif.Grammar.Expressions

/-! Suffixes, operators and whole expressions: what is written is read back. -/

namespace Verif.Grammar

/-- Successful steps of `many0`. -/
inductive Steps {α : Type} (p : Parser α) : List Char → List α → List Char → Prop where
  | nil {s} : Steps p s [] s
  | cons {s a r as r'} : p s = .ok a r → r.length < s.length → Steps p r as r' →
      Steps p s (a :: as) r'

theorem Steps.append {α : Type} {p : Parser α} {s r r' : List Char} {as bs : List α}
    (h : Steps p s as r) (h' : Steps p r bs r') : Steps p s (as ++ bs) r' := by
  induction h with
  | nil => exact h'
  | cons h1 h2 _ ih => exact .cons h1 h2 (ih h')

theorem Steps.snoc {α : Type} {p : Parser α} {s r r' : List Char} {as : List α} {a : α}
    (h : Steps p s as r) (h1 : p r = .ok a r') (h2 : r'.length < r.length) :
    Steps p s (as ++ [a]) r' := h.append (.cons h1 h2 .nil)

theorem Steps.many {α : Type} {p : Parser α} {s r : List Char} {as : List α}
    (h : Steps p s as r) (h' : p r = .error) : Many p s as r := by
  induction h with
  | nil => exact .nil h'
  | cons h1 h2 _ ih => exact .cons h1 h2 (ih h')

/-! ## Suffixes -/

/-- The result of reading an atomic expression and its suffixes. -/
def ReadsSuffixes (g : G) (e : Expr) (s rest : List Char) : Prop :=
  ∃ a r ss, atomic g s = .ok a r ∧ Steps (suffixOperator g) r ss rest ∧
    ss.foldl Suffix.apply a = e

theorem readsSuffixes_atomic {g : G} {n : Nat} (ih : ExprInv g n) {e : Expr} (h : e.Plain)
    (ha : e.isAtomic = true) {s rest : List Char} (hs : Fills (print e) s) (hr : SuffixEnd e rest)
    (hn : (s ++ rest).length ≤ n) : ReadsSuffixes g e (s ++ rest) rest :=
  ⟨e, rest, [], atomic_ok ih h ha hs hr hn, .nil, rfl⟩

theorem ReadsSuffixes.snoc {g : G} {e : Expr} {s r rest : List Char} {x : Suffix}
    (h : ReadsSuffixes g e s r) (h1 : suffixOperator g r = .ok x rest)
    (h2 : rest.length < r.length) : ReadsSuffixes g (x.apply e) s rest := by
  obtain ⟨a, r', ss, h3, h4, rfl⟩ := h
  exact ⟨a, r', ss ++ [x], h3, h4.snoc h1 h2, by simp⟩

theorem call_ok {g : G} {n : Nat} (ih : ExprInv g n) {as : List Expr} (h : ∀ a ∈ as, a.Plain)
    {b s rest : List Char} (hb : Blank b) (hs : Fills (elements (as.map print)) s)
    (hn : (s ++ (")".toList ++ rest)).length < n) :
    suffixOperator g ("(".toList ++ (b ++ (s ++ (")".toList ++ rest)))) = .ok (.call as) rest := by
  refine alt_ok ((bind_ok (tag_append _ _)).trans (cut_ok ?_))
  obtain ⟨b', hb', hl⟩ := elements_ok (el := g.expression) (pr := print) (n := n)
    (End := ExprEnd) ih.skips as
    (fun y hy s rest hs he hn => ih.expression y s rest (h y hy) hs he hn)
    (fun y hy r => exprEnd_char (by decide)) (")".toList ++ rest)
    (fun y hy => exprEnd_char (by decide))
    (sign_error rfl (blank_solid (by decide) _) (by decide))
    (ih.error _ ⟨')', rest, blank_solid (by decide) _, .inl rfl⟩ (by simp at hn ⊢; omega))
    b s hb hs hn
  refine (bind_ok hl).trans ?_
  exact (bind_ok (sign_blank hb' (sign_ok _ rfl (by decide) (by decide)))).trans rfl

theorem callOperator_error {g : G} {c : Char} {r : List Char} (h : c ≠ '(') :
    callOperator g (c :: r) = .error := by
  refine bind_error ?_
  show tag ['('] (c :: r) = .error
  simp [tag, Ne.symm h]

theorem try_ok {g : G} {rest : List Char} (hr : startsWith (· = '=') rest = false) :
    suffixOperator g ("?".toList ++ rest) = .ok .try_ rest := by
  refine (alt_error (callOperator_error (by decide))).trans ?_
  refine (alt_error (bind_error (sign_error rfl (blank_solid (by decide) _) (by decide)))).trans ?_
  exact alt_ok ((bind_ok (sign_operator_ok _ rfl (by decide) (by decide) hr)).trans rfl)

theorem field_ok {g : G} {x rest : List Char} (hx : IsIdentifier x) (hr : WordEnd rest) :
    suffixOperator g (".".toList ++ (x ++ rest)) = .ok (.field x) rest := by
  refine (alt_error (callOperator_error (by decide))).trans (alt_ok ?_)
  refine (bind_ok (sign_ok _ rfl (by decide) (by decide))).trans ?_
  exact (bind_ok (cut_ok (identifier_ok hx hr))).trans rfl

theorem suffix_ok {g : G} {n : Nat} (ih : ExprInv g n) : ∀ (e : Expr) (s rest : List Char),
    e.Plain → e.suffixable = true → Fills (print e) s → SuffixEnd e rest →
    (s ++ rest).length ≤ n → ReadsSuffixes g e (s ++ rest) rest
  | .binary .., _, _, _, hx, _, _, _ => by simp [Expr.suffixable] at hx
  | .unary .not _, _, _, _, hx, _, _, _ => by simp [Expr.suffixable] at hx
  | .call f as, s, rest, h, _, hs, hr, hn => by
    simp only [Expr.Plain, allPlain_iff] at h
    simp only [print, printAll_map, List.append_assoc, fills_append, List.cons_append,
      List.nil_append, fills_txt, fills_soft, fills_nil] at hs
    obtain ⟨s1, _, rfl, h1, _, rfl, b, _, rfl, hb, s2, _, rfl, h2, _, rfl, rfl⟩ := hs
    simp only [List.append_assoc, List.append_nil] at hn ⊢
    refine (suffix_ok ih f s1 _ h.1 h.2.1 h1 (suffixEnd_char (.inl rfl)) hn).snoc
      (call_ok ih h.2.2 hb h2 (by simp at hn ⊢; omega)) (by simp; omega)
  | .field r x, s, rest, h, _, hs, hr, hn => by
    simp only [Expr.Plain] at h
    simp only [print, fills_append, fills_txt, fills_nil] at hs
    obtain ⟨s1, _, rfl, h1, _, rfl, _, rfl, rfl⟩ := hs
    simp only [List.append_assoc, List.append_nil] at hn ⊢
    exact (suffix_ok ih r s1 _ h.1 h.2.1 h1 (suffixEnd_char (.inr (.inr ⟨rfl, h.2.2.1⟩))) hn).snoc
      (field_ok h.2.2.2 hr.name.word) (by simp; omega)
  | .unary .try_ e, s, rest, h, _, hs, hr, hn => by
    simp only [Expr.Plain] at h
    simp only [print, fills_append, fills_txt, fills_nil] at hs
    obtain ⟨s1, _, rfl, h1, _, rfl, rfl⟩ := hs
    simp only [List.append_assoc, List.append_nil] at hn ⊢
    have h3 : ReadsSuffixes g e (s1 ++ ("?".toList ++ rest)) ("?".toList ++ rest) := by
      cases hbin : e.isBinary with
      | true =>
        rw [hbin] at h1
        exact ⟨e, _, [], parenthesized_ok ih h.1 h1 hn, .nil, rfl⟩
      | false =>
        rw [hbin, paren_false] at h1
        refine suffix_ok ih e s1 _ h.1 ?_ h1 (suffixEnd_char (.inr (.inl rfl))) hn
        exact h.2.resolve_left (by simp [hbin])
    exact h3.snoc (try_ok hr.equal) (by simp)
  | .if_ .., _, _, h, _, hs, hr, hn => readsSuffixes_atomic ih h rfl hs hr hn
  | .ifList .., _, _, h, _, hs, hr, hn => readsSuffixes_atomic ih h rfl hs hr hn
  | .ifMap .., _, _, h, _, hs, hr, hn => readsSuffixes_atomic ih h rfl hs hr hn
  | .ifType .., _, _, h, _, hs, hr, hn => readsSuffixes_atomic ih h rfl hs hr hn
  | .lambda .., _, _, h, _, hs, hr, hn => readsSuffixes_atomic ih h rfl hs hr hn
  | .list .., _, _, h, _, hs, hr, hn => readsSuffixes_atomic ih h rfl hs hr hn
  | .comprehension .., _, _, h, _, hs, hr, hn => readsSuffixes_atomic ih h rfl hs hr hn
  | .map .., _, _, h, _, hs, hr, hn => readsSuffixes_atomic ih h rfl hs hr hn
  | .number .., _, _, h, _, hs, hr, hn => readsSuffixes_atomic ih h rfl hs hr hn
  | .record .., _, _, h, _, hs, hr, hn => readsSuffixes_atomic ih h rfl hs hr hn
  | .string .., _, _, h, _, hs, hr, hn => readsSuffixes_atomic ih h rfl hs hr hn
  | .variable .., _, _, h, _, hs, hr, hn => readsSuffixes_atomic ih h rfl hs hr hn

/-! ## Operands -/

theorem suffix_stop {g : G} {rest : List Char} (hr : Stop rest) :
    suffixOperator g rest = .error := by
  have h1 : callOperator g rest = .error := by
    have := goesOn_paren hr.head
    cases rest with
    | nil => rfl
    | cons c r =>
      simp [startsWith] at this
      exact callOperator_error this
  exact (alt_error h1).trans ((alt_error (bind_error hr.dot)).trans
    ((alt_error (bind_error hr.question)).trans alt_nil))

theorem Stop.suffixEnd {e : Expr} {rest : List Char} (h : Stop rest)
    (hr : endsWithName e = true → NotRecord rest) : SuffixEnd e rest :=
  ⟨goesOn_name h.head, goesOn_equal h.head, fun _ => goesOn_number h.head, hr, h.noElse⟩

theorem ReadsSuffixes.suffixLike {g : G} {e : Expr} {s rest : List Char}
    (h : ReadsSuffixes g e s rest) (hr : Stop rest) : suffixLike g s = .ok e rest := by
  obtain ⟨a, r, ss, h1, h2, rfl⟩ := h
  exact (bind_ok h1).trans ((bind_ok (h2.many (suffix_stop hr)).many0).trans rfl)

theorem opening_suffixable : ∀ e : Expr, e.Plain → e.suffixable = true → opening e ≠ .bang
  | .binary .., _, hx => by simp [Expr.suffixable] at hx
  | .unary .not _, _, hx => by simp [Expr.suffixable] at hx
  | .call f as, h, _ => by
    simp only [Expr.Plain] at h
    exact opening_suffixable f h.1 h.2.1
  | .field r x, h, _ => by
    simp only [Expr.Plain] at h
    exact opening_suffixable r h.1 h.2.1
  | .unary .try_ e, h, _ => by
    simp only [Expr.Plain] at h
    simp only [opening]
    cases hbin : e.isBinary with
    | true => simp
    | false => exact opening_suffixable e h.1 (h.2.resolve_left (by simp [hbin]))
  | .number m, _, _ => by
    simp only [opening]
    split <;> simp
  | .if_ .., _, _ => by simp [opening]
  | .ifList .., _, _ => by simp [opening]
  | .ifMap .., _, _ => by simp [opening]
  | .ifType .., _, _ => by simp [opening]
  | .lambda .., _, _ => by simp [opening]
  | .list .., _, _ => by simp [opening]
  | .comprehension .., _, _ => by simp [opening]
  | .map .., _, _ => by simp [opening]
  | .record .., _, _ => by simp [opening]
  | .string .., _, _ => by simp [opening]
  | .variable .., _, _ => by simp [opening]

theorem Starts.notBang {o : Opening} {s : List Char} (h : Starts o s) (ho : o ≠ .bang) :
    sign "!".toList s = .error := by
  have : ∃ c r, s = c :: r ∧ Solid c ∧ c ≠ '!' := by
    cases o with
    | bang => exact absurd rfl ho
    | parenthesis => obtain ⟨r, rfl⟩ := h; exact ⟨_, _, rfl, by decide, by decide⟩
    | bracket => obtain ⟨r, rfl⟩ := h; exact ⟨_, _, rfl, by decide, by decide⟩
    | brace => obtain ⟨r, rfl⟩ := h; exact ⟨_, _, rfl, by decide, by decide⟩
    | sign =>
      obtain ⟨c, d, r, rfl, h⟩ := h
      rcases h with rfl | rfl | ⟨rfl, _⟩ <;> exact ⟨_, _, rfl, by decide, by decide⟩
    | other =>
      obtain ⟨c, r, rfl, h⟩ := h
      rcases h with h | rfl | rfl
      · exact ⟨_, _, rfl, word_solid h, word_ne h (by decide)⟩
      · exact ⟨_, _, rfl, by decide, by decide⟩
      · exact ⟨_, _, rfl, by decide, by decide⟩
  obtain ⟨c, r, rfl, hs, hc⟩ := this
  exact sign_error rfl (blank_solid hs _) (Ne.symm hc)

/-- The first character of an operand. -/
theorem operand_start {e : Expr} (h : e.Plain) {s : List Char} (hs : Fills (printOperand e) s)
    (rest : List Char) : ∃ o, Starts o (s ++ rest) ∧
      (o = .bang → e.isBinary = false ∧ opening e = .bang) := by
  cases hbin : e.isBinary with
  | true =>
    rw [printOperand, hbin] at hs
    exact ⟨_, (start_paren hs (rest := rest)).starts, by simp⟩
  | false =>
    rw [printOperand, hbin, paren_false] at hs
    have := (start_ok e s [] h hs ⟨rfl, rfl, rfl⟩).starts
    rw [List.append_nil] at this
    exact ⟨_, this.append rest, fun h => ⟨rfl, h⟩⟩

theorem operand_ok {g : G} {n : Nat} (ih : ExprInv g n) {e : Expr} (h : e.Plain)
    {s rest : List Char} (hs : Fills (printOperand e) s) (hr : Stop rest)
    (hrec : operandName e = true → NotRecord rest) (hn : (s ++ rest).length ≤ n) :
    operand g (s ++ rest) = .ok e rest := by
  obtain ⟨o, ho, hbang⟩ := operand_start h hs rest
  cases hbin : e.isBinary with
  | true =>
    have : o ≠ .bang := fun h => by simpa [hbin] using (hbang h).1
    refine (orElse_error (bind_error (ho.notBang this))).trans ?_
    rw [printOperand, hbin] at hs
    exact ReadsSuffixes.suffixLike ⟨e, rest, [], parenthesized_ok ih h hs hn, .nil, rfl⟩ hr
  | false =>
    have hrec' : endsWithName e = true → NotRecord rest := by
      intro h
      exact hrec (by simp [operandName, hbin, h])
    rw [printOperand, hbin, paren_false] at hs
    cases hx : e.suffixable with
    | true =>
      have : o ≠ .bang := fun h' => opening_suffixable e h hx (hbang h').2
      refine (orElse_error (bind_error (ho.notBang this))).trans ?_
      exact (suffix_ok ih e s rest h hx hs (hr.suffixEnd hrec') hn).suffixLike hr
    | false =>
      match e, hbin, hx, h, hs, hrec' with
      | .unary .not e, _, _, h, hs, hrec' =>
        simp only [Expr.Plain] at h
        simp only [print, fills_txt] at hs
        obtain ⟨s1, rfl, h1⟩ := hs
        have h1 : Fills (printOperand e) s1 := h1
        simp only [List.append_assoc] at hn ⊢
        obtain ⟨o', ho', _⟩ := operand_start h h1 rest
        refine orElse_ok ?_
        refine (bind_ok (sign_operator_ok _ rfl (by decide) (by decide) ?_)).trans ?_
        · obtain ⟨c, r, e', hc⟩ := ho'.head
          rw [e']
          simp [startsWith, hc.2.1]
        · refine (bind_ok (cut_ok (ih.operand e s1 rest h h1 hr ?_ (by simp at hn ⊢; omega)))).trans rfl
          intro hname
          refine hrec' ?_
          simp only [operandName, Bool.and_eq_true, Bool.not_eq_true'] at hname
          simp [endsWithName, hname.1, hname.2]

/-! ## Binary operators -/

theorem skips_binaryOperator : Skips binaryOperator := by
  refine skips_alt fun p hp => ?_
  simp only [List.mem_cons, List.not_mem_nil, or_false] at hp
  rcases hp with rfl | rfl | rfl | rfl | rfl | rfl | rfl | rfl | rfl | rfl | rfl | rfl <;>
    exact (skips_sign _).bind _

theorem binaryOperator_ok {o : BinOp} {b b' s : List Char} (hb : Blank b)
    (hb' : Blank b' ∧ b' ≠ []) :
    binaryOperator (b ++ (operatorText o ++ (b' ++ s))) = .ok o (b' ++ s) := by
  rw [skips_binaryOperator.append hb]
  obtain ⟨hb', hne⟩ := hb'
  cases b' with
  | nil => exact absurd rfl hne
  | cons c b' =>
    rcases space_cases hb'.head with rfl | rfl | rfl | rfl | rfl <;> cases o <;> rfl

/-- The tree of operators and operands that is written without parentheses. -/
def tree : Expr → Tree Expr
  | .binary o l r =>
    .node o (if lower o l then .leaf l else tree l) (if lower o r then .leaf r else tree r)
  | e => .leaf e

theorem tree_leaf {e : Expr} (h : e.isBinary = false) : tree e = .leaf e := by
  cases e <;> first | rfl | simp [Expr.isBinary] at h | simp [tree]

/-- The text of a tree. -/
def printTree : Tree Expr → List Piece
  | .leaf e => printOperand e
  | .node o l r => printTree l ++ ([.gap, .txt (operatorText o), .gap] ++ printTree r)

theorem binary_of {e : Expr} (h : e.isBinary = true) : ∃ o l r, e = .binary o l r := by
  cases e <;> simp [Expr.isBinary] at h
  exact ⟨_, _, _, rfl⟩

theorem tree_ok : ∀ e : Expr, print e = printTree (tree e) ∧
    (tree e).expression .binary = e ∧ (e.Plain → (tree e).Grouped)
  | .binary o l r => by
    obtain ⟨l1, l2, l3⟩ := tree_ok l
    obtain ⟨r1, r2, r3⟩ := tree_ok r
    have hp : ∀ e : Expr, print e = printTree (tree e) → paren (lower o e) (print e) =
        printTree (if lower o e then .leaf e else tree e) := by
      intro e he
      cases hl : lower o e with
      | true => simp [printTree, printOperand, lower_isBinary hl]
      | false => simpa [paren_false] using he
    have he : ∀ e : Expr, (tree e).expression .binary = e →
        (if lower o e then Tree.leaf e else tree e).expression .binary = e := by
      intro e he
      split
      · rfl
      · exact he
    refine ⟨?_, ?_, fun h => ?_⟩
    · simp only [print, tree, printTree, hp l l1, hp r r1, List.append_assoc]
    · simp only [tree, Tree.expression, he l l2, he r r2]
    · simp only [Expr.Plain] at h
      simp only [tree, Tree.Grouped]
      have hg : ∀ e : Expr, (tree e).Grouped → (if lower o e then Tree.leaf e else tree e).Grouped := by
        intro e he
        split
        · trivial
        · exact he
      have hn : ∀ (e : Expr) o' l' r',
          (if lower o e then Tree.leaf e else tree e) = .node o' l' r' →
          o.priority ≤ o'.priority ∧ ∃ a b, e = .binary o' a b := by
        intro e o' l' r' he
        cases hl : lower o e with
        | true => simp [hl] at he
        | false =>
          simp only [hl, Bool.false_eq_true, if_false] at he
          cases hbin : e.isBinary with
          | false => rw [tree_leaf hbin] at he; cases he
          | true =>
            obtain ⟨o'', a, b, rfl⟩ := binary_of hbin
            simp only [tree, Tree.node.injEq] at he
            obtain ⟨rfl, _⟩ := he
            simp only [lower, decide_eq_false_iff_not] at hl
            exact ⟨by omega, a, b, rfl⟩
      refine ⟨hg l (l3 h.1), hg r (r3 h.2.1), fun o' l' r' e => (hn l o' l' r' e).1,
        fun o' l' r' e => ?_⟩
      obtain ⟨h1, a, b, h2⟩ := hn r o' l' r' e
      have := h.2.2 o' a b h2
      omega
  | .unary .not _ => by simp [tree, printTree, printOperand, Expr.isBinary, paren_false,
      Tree.expression, Tree.Grouped]
  | .unary .try_ _ => by simp [tree, printTree, printOperand, Expr.isBinary, paren_false,
      Tree.expression, Tree.Grouped]
  | .call .. => by simp [tree, printTree, printOperand, Expr.isBinary, paren_false, Tree.expression,
      Tree.Grouped]
  | .field .. => by simp [tree, printTree, printOperand, Expr.isBinary, paren_false, Tree.expression,
      Tree.Grouped]
  | .if_ .. => by simp [tree, printTree, printOperand, Expr.isBinary, paren_false, Tree.expression,
      Tree.Grouped]
  | .ifList .. => by simp [tree, printTree, printOperand, Expr.isBinary, paren_false,
      Tree.expression, Tree.Grouped]
  | .ifMap .. => by simp [tree, printTree, printOperand, Expr.isBinary, paren_false,
      Tree.expression, Tree.Grouped]
  | .ifType .. => by simp [tree, printTree, printOperand, Expr.isBinary, paren_false,
      Tree.expression, Tree.Grouped]
  | .lambda .. => by simp [tree, printTree, printOperand, Expr.isBinary, paren_false,
      Tree.expression, Tree.Grouped]
  | .list .. => by simp [tree, printTree, printOperand, Expr.isBinary, paren_false, Tree.expression,
      Tree.Grouped]
  | .comprehension .. => by simp [tree, printTree, printOperand, Expr.isBinary, paren_false,
      Tree.expression, Tree.Grouped]
  | .map .. => by simp [tree, printTree, printOperand, Expr.isBinary, paren_false, Tree.expression,
      Tree.Grouped]
  | .number .. => by simp [tree, printTree, printOperand, Expr.isBinary, paren_false,
      Tree.expression, Tree.Grouped]
  | .record .. => by simp [tree, printTree, printOperand, Expr.isBinary, paren_false,
      Tree.expression, Tree.Grouped]
  | .string .. => by simp [tree, printTree, printOperand, Expr.isBinary, paren_false,
      Tree.expression, Tree.Grouped]
  | .variable .. => by simp [tree, printTree, printOperand, Expr.isBinary, paren_false,
      Tree.expression, Tree.Grouped]

/-- All operands of a tree are plain. -/
def PlainTree : Tree Expr → Prop
  | .leaf e => e.Plain
  | .node _ l r => PlainTree l ∧ PlainTree r

/-- Does the text of a tree end with a variable? -/
def treeName : Tree Expr → Bool
  | .leaf e => operandName e
  | .node _ _ r => treeName r

theorem tree_plain : ∀ t : Tree Expr, (t.expression .binary).Plain → PlainTree t
  | .leaf _, h => h
  | .node o l r, h => by
    simp only [Tree.expression, Expr.Plain] at h
    exact ⟨tree_plain l h.1, tree_plain r h.2.1⟩

theorem treeName_leaf {e : Expr} (h : e.isBinary = false) : treeName (tree e) = endsWithName e := by
  rw [tree_leaf h]
  simp [treeName, operandName, h]

theorem treeName_eq : ∀ e : Expr, treeName (tree e) = endsWithName e
  | .binary o l r => by
    simp only [tree, treeName, endsWithName]
    cases hl : lower o r with
    | true => simp [treeName, operandName, lower_isBinary hl]
    | false => simpa using treeName_eq r
  | .unary .. => treeName_leaf rfl
  | .call .. => treeName_leaf rfl
  | .field .. => treeName_leaf rfl
  | .if_ .. => treeName_leaf rfl
  | .ifList .. => treeName_leaf rfl
  | .ifMap .. => treeName_leaf rfl
  | .ifType .. => treeName_leaf rfl
  | .lambda .. => treeName_leaf rfl
  | .list .. => treeName_leaf rfl
  | .comprehension .. => treeName_leaf rfl
  | .map .. => treeName_leaf rfl
  | .number .. => treeName_leaf rfl
  | .record .. => treeName_leaf rfl
  | .string .. => treeName_leaf rfl
  | .variable .. => treeName_leaf rfl

/-! ## Expressions -/

theorem skips_atomic {g : G} : Skips (atomic g) := by
  refine skips_alt fun p hp => ?_
  simp only [List.mem_cons, List.not_mem_nil, or_false] at hp
  rcases hp with rfl | rfl | rfl | rfl | rfl | rfl | rfl | rfl | rfl | rfl | rfl | rfl | rfl
  · exact ((skips_sign _).bind _).bind _
  · exact (skips_keyword _).bind _
  · exact (skips_keyword _).bind _
  · exact (skips_keyword _).bind _
  · exact (skips_keyword _).bind _
  · exact (skips_token _).bind _
  · exact (skips_sign _).bind _
  · exact (skips_sign _).bind _
  · exact (skips_sign _).bind _
  · exact (skips_token _).bind _
  · exact (skips_token _).bind _
  · exact (skips_token _).bind _
  · exact (skips_sign _).bind _

theorem skips_operand {g : G} : Skips (operand g) :=
  Skips.orElse ((skips_sign _).bind _) (skips_atomic.bind _)

theorem stop_operator {o : BinOp} {b s : List Char} (hb : Blank b ∧ b ≠ []) :
    Stop (b ++ (operatorText o ++ s)) ∧ NotRecord (b ++ (operatorText o ++ s)) := by
  obtain ⟨c, r, e, hc⟩ := operatorText_head o
  have all : ∀ c ∈ "+-*/=!<>&|".toList, Solid c ∧ '.' ≠ c ∧ '?' ≠ c ∧ 'e' ≠ c ∧ '{' ≠ c := by
    decide
  obtain ⟨h1, h2, h3, h4, h5⟩ := all c hc
  have hbl : blank (b ++ (operatorText o ++ s)) = c :: (r ++ s) := by
    rw [blank_append hb.1, e]
    exact blank_solid h1 _
  exact ⟨⟨goesOn_gap hb, sign_error rfl hbl h2, sign_error rfl hbl h3, keyword_error rfl hbl h4⟩,
    notRecord_of (sign_error rfl hbl h5)⟩

theorem chain_ok {g : G} {n : Nat} (ih : ExprInv g n) : ∀ (t : Tree Expr) (s rest : List Char),
    PlainTree t → Fills (printTree t) s → Stop rest → (treeName t = true → NotRecord rest) →
    (s ++ rest).length ≤ n → ∃ r, operand g (s ++ rest) = .ok t.first r ∧
      Steps (operatorAndOperand g) r t.pairs rest ∧ r.length ≤ (s ++ rest).length
  | .leaf e, s, rest, h, hs, hr, hrec, hn =>
    ⟨rest, operand_ok ih h hs hr hrec hn, .nil, by simp⟩
  | .node o l r, s, rest, h, hs, hr, hrec, hn => by
    simp only [printTree, List.cons_append, List.nil_append, fills_append, fills_gap,
      fills_txt] at hs
    obtain ⟨s1, _, rfl, h1, b, _, rfl, hb, _, rfl, b', s2, rfl, hb', h2⟩ := hs
    simp only [List.append_assoc] at hn ⊢
    have hst := stop_operator (o := o) (s := b' ++ (s2 ++ rest)) hb
    obtain ⟨r1, i1, i2, i3⟩ := chain_ok ih l s1 _ h.1 h1 hst.1 (fun _ => hst.2) hn
    obtain ⟨r2, j1, j2, j3⟩ := chain_ok ih r s2 rest h.2 h2 hr hrec (by simp at hn ⊢; omega)
    refine ⟨r1, i1, i2.append (.cons (r := r2) ?_ ?_ j2), i3⟩
    · refine (bind_ok (binaryOperator_ok hb.1 hb')).trans ?_
      refine (bind_ok (cut_ok (a := r.first) (r := r2) ?_)).trans rfl
      rw [skips_operand.append hb'.1]
      exact j1
    · have : 0 < b.length := List.length_pos_iff.2 hb.2
      simp at j3 ⊢
      omega

/-- Expressions are read back. -/
theorem expression_ok {g : G} {n : Nat} (ih : ExprInv g n) {e : Expr} (h : e.Plain)
    {s rest : List Char} (hs : Fills (print e) s) (hr : ExprEnd e rest)
    (hn : (s ++ rest).length ≤ n) : expression g (s ++ rest) = .ok e rest := by
  obtain ⟨h1, h2, h3⟩ := tree_ok e
  rw [h1] at hs
  obtain ⟨r, i1, i2, _⟩ := chain_ok ih (tree e) s rest (tree_plain _ (by rw [h2]; exact h)) hs hr.stop
    (fun h => hr.record (by rw [← treeName_eq]; exact h)) hn
  refine (bind_ok i1).trans ((bind_ok (i2.many (bind_error hr.operator)).many0).trans ?_)
  have := reduceOperations_tree .binary (tree e) (h3 h)
  rw [h2] at this
  show R.ok (reduceOperations .binary (tree e).first (tree e).pairs) rest = .ok e rest
  rw [this]

theorem expression_error {g : G} {s r : List Char} {c : Char} (hb : blank s = c :: r)
    (h : c = ')' ∨ c = ']' ∨ c = '}' ∨ (c = '.' ∧ startsWith (· = '.') r = true)) :
    expression g s = .error := by
  refine bind_error ((orElse_error (bind_error (sign_error rfl hb ?_))).trans
    (bind_error (atomic_error hb h)))
  rcases h with rfl | rfl | rfl | ⟨rfl, _⟩ <;> decide

theorem exprInv : ∀ n, ExprInv (grammar n) n
  | 0 => ⟨typeInv 0, fun _ => rfl, fun _ => rfl, fun _ _ _ _ _ _ h => absurd h (by omega),
      fun _ _ _ _ _ _ _ h => absurd h (by omega), fun _ _ h => absurd h (by omega),
      fun _ _ _ h => absurd h (by omega)⟩
  | n + 1 =>
    ⟨typeInv _, skips_operand.bind _, skips_operand,
      fun _ _ _ h hs hr hn => expression_ok (exprInv n) h hs hr (by omega),
      fun _ _ _ h hs hr hrec hn => operand_ok (exprInv n) h hs hr hrec (by omega),
      fun s h _ => by
        obtain ⟨c, r, hb, hc⟩ := h
        exact expression_error hb (by rcases hc with h | h | h <;> simp [h]),
      fun s r hb _ => expression_error hb (by simp [startsWith])⟩

end Verif.Grammar
