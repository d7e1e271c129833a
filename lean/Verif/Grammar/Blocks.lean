import Verif.Grammar.Ends

/-! Blocks: what is written is read back. -/

namespace Verif.Grammar

theorem allPlainStatements_iff (ss : List Statement) :
    allPlainStatements ss ↔ ∀ s ∈ ss, (∀ x e y, s = .mk x e → x = some y → IsIdentifier y) ∧
      s.expr.Plain := by
  induction ss with
  | nil => simp [allPlainStatements]
  | cons s ss ih =>
    cases s with
    | mk x e =>
      simp only [allPlainStatements, ih, List.mem_cons, forall_eq_or_imp, Statement.expr]
      constructor
      · rintro ⟨h1, h2, h3⟩
        exact ⟨⟨fun x' e' y h h' => by cases h; exact h1 y h', h2⟩, h3⟩
      · rintro ⟨⟨h1, h2⟩, h3⟩
        exact ⟨fun y h => h1 x e y rfl h, h2, h3⟩

theorem allPlainStatements_append (ss ts : List Statement) :
    allPlainStatements (ss ++ ts) ↔ allPlainStatements ss ∧ allPlainStatements ts := by
  simp only [allPlainStatements_iff, List.mem_append]
  constructor
  · intro h
    exact ⟨fun s hs => h s (.inl hs), fun s hs => h s (.inr hs)⟩
  · rintro ⟨h1, h2⟩ s (hs | hs)
    · exact h1 s hs
    · exact h2 s hs

/-- Each statement stays apart from the next one. -/
def Consecutive : List Statement → Prop
  | [] => True
  | [_] => True
  | s :: t :: ss => ApartStatement s.expr t ∧ Consecutive (t :: ss)

theorem consecutive_of : ∀ (ss : List Statement) (e : Expr), AllApart ss e →
    Consecutive (ss ++ [.mk none e])
  | [], _, _ => trivial
  | [_], _, h => ⟨h, trivial⟩
  | _ :: t :: ss, e, h => ⟨h.1, consecutive_of (t :: ss) e h.2⟩

theorem printStatements_append (ss : List Statement) (e : Expr) :
    printStatements (ss ++ [.mk none e]) = printStatements ss ++ (.soft :: print e ++ [.gap]) := by
  induction ss with
  | nil => simp [printStatements]
  | cons s ss ih =>
    cases s with
    | mk x e' =>
      cases x with
      | none => simp [printStatements, ih]
      | some x => simp [printStatements, ih]

theorem printBlock_eq (ss : List Statement) (e : Expr) :
    printBlock (.mk ss e) =
      text "{" :: .gap :: (printStatements (ss ++ [.mk none e]) ++ [text "}"]) := by
  rw [printStatements_append]
  simp [printBlock]

/-- The statement before stays apart from these. -/
def ApartFrom (e : Expr) : List Statement → Prop
  | [] => True
  | t :: _ => ApartStatement e t

/-- What the rest of a block looks like. -/
structure Rest (ts : List Statement) (t : List Char) : Prop where
  head : ∃ c r, blank t = c :: r ∧ c ≠ '=' ∧ c ≠ ':'
  noField : NoField t
  dots : sign "...".toList t = .error
  close : ts ≠ [] → sign "}".toList t = .error
  ends : ∀ e b, ApartFrom e ts → Blank b ∧ b ≠ [] → ExprEnd e (b ++ t)

theorem noField_blank {b s : List Char} (hb : Blank b) (h : NoField s) : NoField (b ++ s) := by
  intro x r h'
  rw [skips_identifier.append hb] at h'
  exact h x r h'

theorem blank_append_ne {a b : List Char} (ha : Blank a ∧ a ≠ []) (hb : Blank b) :
    Blank (a ++ b) ∧ a ++ b ≠ [] :=
  ⟨ha.1.append hb, by simp [ha.2]⟩

theorem sign_gap_error {t b s : List Char} (hb : Blank b) (h : sign t s = .error) :
    sign t (b ++ s) = .error := by rw [(skips_sign t).append hb, h]

theorem rest_ok : ∀ (ts : List Statement) (s r : List Char), allPlainStatements ts →
    Fills (printStatements ts) s → Rest ts (s ++ '}' :: r)
  | [], s, r, _, hs => by
    have : s = [] := hs
    subst this
    have hb : blank ('}' :: r) = '}' :: r := blank_solid (by decide) _
    refine ⟨⟨'}', r, hb, by decide, by decide⟩, ?_, sign_error rfl hb (by decide),
      fun h => absurd rfl h, fun e b _ hb => exprEnd_blank hb.1 (by decide)⟩
    intro x r' h
    rw [List.nil_append, identifier_error hb (by decide) (by decide)] at h
    cases h
  | .mk none f :: ts, s, r, h, hs => by
    simp only [allPlainStatements] at h
    simp only [printStatements, List.cons_append, List.append_assoc, fills_soft, fills_append,
      List.nil_append, fills_gap] at hs
    obtain ⟨b0, _, rfl, hb0, s1, _, rfl, h1, b1, s2, rfl, hb1, h2⟩ := hs
    have ih := rest_ok ts s2 r h.2.2 h2
    obtain ⟨c, r', hc, hc1, hc2⟩ := ih.head
    have hl : Lead (b1 ++ (s2 ++ '}' :: r)) :=
      lead_of (wordEnd_gap hb1) (by rw [blank_append hb1.1]; exact hc) hc1 hc2
    have hst := start_ok f s1 _ h.2.1 h1 hl
    obtain ⟨d, r'', hd, hsol, hd'⟩ := hst.starts.head
    have hbl : blank (b0 ++ (s1 ++ (b1 ++ (s2 ++ '}' :: r)))) = d :: r'' := by
      rw [blank_append hb0, hd, blank_solid hsol]
    simp only [List.append_assoc]
    refine ⟨⟨d, r'', hbl, hd'.1, hd'.2.1⟩, noField_blank hb0 hst.free.noField,
      sign_gap_error hb0 hst.starts.dots, fun _ => sign_error rfl hbl (Ne.symm hd'.2.2.2.2.2.2.1),
      fun e b ha hb => ?_⟩
    rw [← List.append_assoc]
    exact exprEnd_start (blank_append_ne hb hb0) hst ha
  | .mk (some x) f :: ts, s, r, h, hs => by
    simp only [allPlainStatements] at h
    have hx := h.1 x rfl
    simp only [printStatements, List.cons_append, List.append_assoc, fills_soft, fills_append,
      List.nil_append, fills_gap, fills_txt] at hs
    obtain ⟨b0, _, rfl, hb0, _, rfl, b1, _, rfl, hb1, _, rfl, b2, _, rfl, hb2, _⟩ := hs
    simp only [List.append_assoc]
    obtain ⟨c, t, ex, hc⟩ := hx.head
    have hw : isWord c = true := hx.words c (by rw [ex]; simp)
    have hbl : ∀ s, blank (b0 ++ (x ++ s)) = c :: (t ++ s) := fun s => by
      rw [blank_append hb0, ex]; exact blank_solid (word_solid hw) _
    refine ⟨⟨c, _, hbl _, word_ne hw (by decide), word_ne hw (by decide)⟩, noField_blank hb0 ?_,
      sign_error rfl (hbl _) (Ne.symm (word_ne hw (by decide))),
      fun _ => sign_error rfl (hbl _) (Ne.symm (word_ne hw (by decide))),
      fun e b ha hb => ?_⟩
    · intro y r' h'
      rw [identifier_ok hx (wordEnd_gap hb1)] at h'
      cases h'
      exact sign_gap_error hb1.1 (sign_error rfl (blank_solid (by decide) _) (by decide))
    · rw [← List.append_assoc]
      exact exprEnd_identifier (blank_append_ne hb hb0) hx (wordEnd_gap hb1)

theorem skips_binding_statement {g : G} (hs : Skips g.expression) : Skips (statement g) := by
  intro s
  unfold statement
  rw [bind_apply, bind_apply]
  unfold binding
  have : Skips (do let x ← identifier; sign "=".toList; pure x : Parser Name) :=
    skips_identifier.bind _
  unfold opt
  rw [← this s]
  cases (do let x ← identifier; sign "=".toList; pure x : Parser Name) s with
  | ok a r => rfl
  | error =>
    simp only [R.bind]
    rw [bind_apply, bind_apply, ← hs s]
  | failure => rfl
  | fuel => rfl

theorem statement_error {g : G} {n : Nat} (ih : ExprInv g n) {r : List Char}
    (hn : ('}' :: r).length < n) : statement g ('}' :: r) = .error := by
  have hb : blank ('}' :: r) = '}' :: r := blank_solid (by decide) _
  refine (bind_ok (opt_error (bind_error (identifier_error hb (by decide) (by decide))))).trans ?_
  exact bind_error (ih.error _ ⟨_, _, hb, by simp⟩ hn)

theorem statements_ok {g : G} {n : Nat} (ih : ExprInv g n) : ∀ (ts : List Statement)
    (b0 s r : List Char), allPlainStatements ts → Consecutive ts → Blank b0 →
    Fills (printStatements ts) s → (b0 ++ (s ++ '}' :: r)).length < n →
    ∃ b, Blank b ∧ Many (statement g) (b0 ++ (s ++ '}' :: r)) ts (b ++ '}' :: r)
  | [], b0, s, r, _, _, hb0, hs, hn => by
    have : s = [] := hs
    subst this
    refine ⟨b0, hb0, .nil ?_⟩
    rw [List.nil_append, (skips_binding_statement ih.skips).append hb0]
    exact statement_error ih (by simp at hn ⊢; omega)
  | .mk none f :: ts, b, s, r, h, hc, hb, hs, hn => by
    simp only [allPlainStatements] at h
    simp only [printStatements, List.cons_append, List.append_assoc, fills_soft, fills_append,
      List.nil_append, fills_gap] at hs
    obtain ⟨b0, _, rfl, hb0, s1, _, rfl, h1, b1, s2, rfl, hb1, h2⟩ := hs
    simp only [List.append_assoc] at hn ⊢
    have hrest := rest_ok ts s2 r h.2.2 h2
    have hend : ExprEnd f (b1 ++ (s2 ++ '}' :: r)) := hrest.ends f b1 (by
      cases ts with
      | nil => trivial
      | cons t ts => exact hc.1) hb1
    obtain ⟨c, r', hc', hc1, hc2⟩ := hrest.head
    have hl : Lead (b1 ++ (s2 ++ '}' :: r)) :=
      lead_of (wordEnd_gap hb1) (by rw [blank_append hb1.1]; exact hc') hc1 hc2
    have hst := start_ok f s1 _ h.2.1 h1 hl
    obtain ⟨b', hb', hm⟩ := statements_ok ih ts b1 s2 r h.2.2 (by
      cases ts with
      | nil => trivial
      | cons t ts => exact hc.2) hb1.1 h2 (by simp at hn ⊢; omega)
    refine ⟨b', hb', .cons (r := b1 ++ (s2 ++ '}' :: r)) ?_ ?_ hm⟩
    · rw [← List.append_assoc, (skips_binding_statement ih.skips).append (hb.append hb0)]
      refine (bind_ok (opt_error ?_)).trans ?_
      · rcases identifier_cases (s1 ++ (b1 ++ (s2 ++ '}' :: r))) with ⟨x, r', h'⟩ | h'
        · refine (bind_ok h').trans (bind_error ?_)
          exact (hst.free x r' h').1
        · exact bind_error h'
      · exact (bind_ok (ih.expression f s1 _ h.2.1 h1 hend (by simp at hn ⊢; omega))).trans rfl
    · obtain ⟨d, r'', hd, _⟩ := hst.starts.head
      have := congrArg List.length hd
      have hpos : 0 < s1.length := by
        cases s1 with
        | nil =>
          obtain ⟨d, r'', hd, hd'⟩ := (start_ok f [] [] h.2.1 h1
            ⟨rfl, rfl, rfl⟩).starts.head
          cases hd
        | cons => simp
      simp; omega
  | .mk (some x) f :: ts, b, s, r, h, hc, hb, hs, hn => by
    simp only [allPlainStatements] at h
    have hx := h.1 x rfl
    simp only [printStatements, List.cons_append, List.append_assoc, fills_soft, fills_append,
      List.nil_append, fills_gap, fills_txt] at hs
    obtain ⟨b0, _, rfl, hb0, _, rfl, b1, _, rfl, hb1, _, rfl, b2, _, rfl, hb2, s1, _, rfl, h1,
      b3, s2, rfl, hb3, h2⟩ := hs
    simp only [List.append_assoc] at hn ⊢
    have hrest := rest_ok ts s2 r h.2.2 h2
    have hend : ExprEnd f (b3 ++ (s2 ++ '}' :: r)) := hrest.ends f b3 (by
      cases ts with
      | nil => trivial
      | cons t ts => exact hc.1) hb3
    obtain ⟨b', hb', hm⟩ := statements_ok ih ts b3 s2 r h.2.2 (by
      cases ts with
      | nil => trivial
      | cons t ts => exact hc.2) hb3.1 h2 (by simp at hn ⊢; omega)
    refine ⟨b', hb', .cons (r := b3 ++ (s2 ++ '}' :: r)) ?_ ?_ hm⟩
    · rw [← List.append_assoc, (skips_binding_statement ih.skips).append (hb.append hb0)]
      refine (bind_ok (opt_ok (a := x) (r := b2 ++ (s1 ++ (b3 ++ (s2 ++ '}' :: r)))) ?_)).trans ?_
      · refine (bind_ok (identifier_ok hx (wordEnd_gap hb1))).trans ?_
        exact (bind_ok (sign_blank hb1.1 (sign_operator_ok _ rfl (by decide) (by decide)
          (gap_start hb2 fun c hc => (space_word hc).2.1)))).trans rfl
      · refine (bind_ok (a := f) (r := b3 ++ (s2 ++ '}' :: r)) ?_).trans rfl
        rw [ih.skips.append hb2.1]
        exact ih.expression f s1 _ h.2.1 h1 hend (by simp at hn ⊢; omega)
    · simp; omega

theorem Many.many1 {α : Type} {p : Parser α} {s r : List Char} {a : α} {as : List α}
    (h : Many p s (a :: as) r) : many1 p s = .ok (a :: as) r := by
  cases h with
  | cons h1 _ h2 => exact many1_ok h1 h2

theorem toBlock_append (ss : List Statement) (e : Expr) :
    toBlock (ss ++ [.mk none e]) = .mk ss e := by
  simp [toBlock]

theorem endsWithExpression_append (ss : List Statement) (e : Expr) :
    endsWithExpression (ss ++ [.mk none e]) = true := by
  simp [endsWithExpression]

theorem skips_block (g : G) : Skips (block g) := (skips_sign _).bind _

/-- Blocks are read back. -/
theorem block_ok {g : G} {n : Nat} (ih : ExprInv g n) {b : Block} (h : b.Plain)
    {s rest : List Char} (hs : Fills (printBlock b) s) (hn : (s ++ rest).length ≤ n) :
    block g (s ++ rest) = .ok b rest := by
  cases b with
  | mk ss e =>
    simp only [Block.Plain] at h
    rw [printBlock_eq] at hs
    simp only [fills_txt, fills_gap, fills_append, fills_nil] at hs
    obtain ⟨_, rfl, b, _, rfl, hb, s1, _, rfl, h1, _, rfl, rfl⟩ := hs
    simp only [List.append_assoc, List.append_nil] at hn ⊢
    have hp : allPlainStatements (ss ++ [.mk none e]) := by
      rw [allPlainStatements_append]
      exact ⟨h.1, by simp [allPlainStatements, h.2.1]⟩
    obtain ⟨b', hb', hm⟩ := statements_ok ih _ b s1 rest hp (consecutive_of _ _ h.2.2) hb.1 h1
      (by simp at hn ⊢; omega)
    refine (bind_ok (sign_ok _ rfl (by decide) (by decide))).trans (cut_ok ?_)
    have hm1 : many1 (statement g) (b ++ (s1 ++ ("}".toList ++ rest))) =
        .ok (ss ++ [.mk none e]) (b' ++ '}' :: rest) := by
      cases hts : ss ++ [Statement.mk none e] with
      | nil => simp at hts
      | cons t ts => rw [hts] at hm; exact hm.many1
    refine (bind_ok (verify_ok hm1 (endsWithExpression_append ss e))).trans ?_
    refine (bind_ok (sign_blank hb' (sign_open' '}' rest (by decide) (by decide)))).trans ?_
    rw [toBlock_append]
    rfl

/-- How blocks start. -/
theorem block_start {b : Block} (h : b.Plain) {s : List Char} (hs : Fills (printBlock b) s)
    (rest : List Char) : (∃ r, s ++ rest = '{' :: r) ∧ NotRecord (s ++ rest) := by
  cases b with
  | mk ss e =>
    simp only [Block.Plain] at h
    rw [printBlock_eq] at hs
    simp only [fills_txt, fills_gap, fills_append, fills_nil] at hs
    obtain ⟨_, rfl, b, _, rfl, hb, s1, _, rfl, h1, _, rfl, rfl⟩ := hs
    simp only [List.append_assoc, List.append_nil]
    have hp : allPlainStatements (ss ++ [.mk none e]) := by
      rw [allPlainStatements_append]
      exact ⟨h.1, by simp [allPlainStatements, h.2.1]⟩
    have hr := rest_ok _ s1 rest hp h1
    refine ⟨⟨_, rfl⟩, ?_⟩
    intro r hr'
    rw [sign_ok (t := "{".toList) (c := '{') _ rfl (by decide) (by decide)] at hr'
    cases hr'
    exact ⟨sign_gap_error hb.1 hr.dots, sign_gap_error hb.1 (hr.close (by simp)),
      noField_blank hb.1 hr.noField⟩

/-- A gap and a block end an expression. -/
theorem exprEnd_block {e : Expr} {b : Block} (h : b.Plain) {a s : List Char}
    (hs : Fills (printBlock b) s) (rest : List Char) (ha : Blank a ∧ a ≠ []) :
    ExprEnd e (a ++ (s ++ rest)) := by
  obtain ⟨⟨r, e'⟩, hr⟩ := block_start h hs rest
  have hb : blank (a ++ (s ++ rest)) = '{' :: r := by
    rw [blank_append ha.1, e', blank_solid (by decide)]
  exact exprEnd_of (goesOn_gap ha) hb (by decide) (fun h => absurd h (by decide)) (keyword_error rfl hb (by decide))
    fun _ => hr.append ha.1

theorem lead_block {b : Block} (h : b.Plain) {a s : List Char}
    (hs : Fills (printBlock b) s) (rest : List Char) (ha : Blank a ∧ a ≠ []) :
    Lead (a ++ (s ++ rest)) := by
  obtain ⟨⟨r, e'⟩, hr⟩ := block_start h hs rest
  have hb : blank (a ++ (s ++ rest)) = '{' :: r := by
    rw [blank_append ha.1, e', blank_solid (by decide)]
  exact lead_of (wordEnd_gap ha) hb (by decide) (by decide)

end Verif.Grammar
