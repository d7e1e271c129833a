import Verif.Grammar.Blocks

/-! Functions and conditionals: what is written is read back. -/

namespace Verif.Grammar

theorem join_cons (sep : List Piece) (p : List Piece) (ps : List (List Piece)) :
    join sep (p :: ps) = p ++ (ps.map fun q => sep ++ q).flatten := by
  induction ps generalizing p with
  | nil => simp [join]
  | cons q ps ih => rw [join, ih]; simp

theorem keyword_gap {k b s : List Char} (hk : k ∈ keywords) (hb : Blank b) (hs : WordEnd s) :
    keyword k (b ++ (k ++ s)) = .ok () s := by
  rw [(skips_keyword k).append hb, keyword_ok hk hs]

theorem sign_equal_gap {b b' s : List Char} (hb : Blank b) (hb' : Blank b' ∧ b' ≠ []) :
    sign "=".toList (b ++ ("=".toList ++ (b' ++ s))) = .ok () (b' ++ s) :=
  sign_blank hb (sign_operator_ok _ rfl (by decide) (by decide)
    (gap_start hb' fun _ hc => (space_word hc).2.1))

/-! ## Functions -/

theorem argument_ok {g : G} {n : Nat} (ih : TypeInv g n) {a : Name × Ty}
    (h : IsIdentifier a.1 ∧ a.2.Plain) {s rest : List Char} (hs : Fills (printTyped a) s)
    (hr : TypeEnd rest) (hn : (s ++ rest).length < n) :
    argument g (s ++ rest) = .ok a rest := by
  simp only [printTyped, List.cons_append, List.nil_append, fills_txt, fills_gap] at hs
  obtain ⟨_, rfl, b, s1, rfl, hb, h1⟩ := hs
  simp only [List.append_assoc] at hn ⊢
  refine (bind_ok (identifier_ok h.1 (wordEnd_gap hb))).trans ?_
  refine (bind_ok (cut_ok (a := a.2) (r := rest) ?_)).trans rfl
  rw [ih.skips.append hb.1]
  exact ih.type a.2 s1 rest h.2 h1 hr (by simp at hn ⊢; omega)

theorem typeEnd_block {b : Block} (h : b.Plain) {a s : List Char}
    (hs : Fills (printBlock b) s) (rest : List Char) (ha : Blank a ∧ a ≠ []) :
    TypeEnd (a ++ (s ++ rest)) := by
  obtain ⟨⟨r, e⟩, _⟩ := block_start h hs rest
  rw [e]
  exact typeEnd_gap ha (by decide) (by decide)

theorem lambda_ok {g : G} {n : Nat} (ih : ExprInv g n) {as : List (Name × Ty)} {t : Ty} {b : Block}
    (h : (Expr.lambda as t b).Plain) {s rest : List Char} (hs : Fills (print (.lambda as t b)) s)
    (hn : (s ++ rest).length ≤ n) : lambda g (s ++ rest) = .ok ⟨as, t, b⟩ rest := by
  simp only [Expr.Plain] at h
  simp only [print, printSignature, List.append_assoc, List.cons_append, List.nil_append,
    fills_txt, fills_soft, fills_gap, fills_append] at hs
  obtain ⟨_, rfl, b0, _, rfl, hb0, s1, _, rfl, h1, _, rfl, b1, _, rfl, hb1, s2, _, rfl, h2, b2, s3,
    rfl, hb2, h3⟩ := hs
  simp only [List.append_assoc] at hn ⊢
  refine (bind_ok (sign_ok _ rfl (by decide) (by decide))).trans (cut_ok ?_)
  obtain ⟨b', hb', hl⟩ := elements_ok (el := argument g) (pr := printTyped) (n := n)
    (End := fun _ => TypeEnd) (skips_identifier.bind _) as
    (fun y hy s rest hs he hn => argument_ok ih.types (h.1 y hy) hs he hn)
    (fun y hy r => typeEnd_char (by decide) (by decide) (by decide))
    (")".toList ++ (b1 ++ (s2 ++ (b2 ++ (s3 ++ rest)))))
    (fun y hy => typeEnd_char (by decide) (by decide) (by decide))
    (sign_error rfl (blank_solid (by decide) _) (by decide))
    (bind_error (identifier_error (blank_solid (by decide) _) (by decide) (by decide)))
    b0 s1 hb0 h1 (by simp at hn ⊢; omega)
  refine (bind_ok hl).trans ?_
  refine (bind_ok (sign_blank hb' (sign_ok _ rfl (by decide) (by decide)))).trans ?_
  refine (bind_ok (a := t) (r := b2 ++ (s3 ++ rest)) ?_).trans ?_
  · rw [ih.types.skips.append hb1.1]
    exact ih.types.type t s2 _ h.2.1 h2 (typeEnd_block h.2.2 h3 rest hb2) (by simp at hn ⊢; omega)
  · refine (bind_ok (a := b) (r := rest) ?_).trans rfl
    rw [(skips_block g).append hb2.1]
    exact block_ok ih h.2.2 h3 (by simp at hn ⊢; omega)

/-! ## Conditionals -/

theorem elseIf_ok {α : Type} {p : Parser α} {b1 b2 s r : List Char} {a : α}
    (hb1 : Blank b1) (hb2 : Blank b2 ∧ b2 ≠ []) (hs : WordEnd s) (h : p s = .ok a r) :
    elseIf p (b1 ++ ("else".toList ++ (b2 ++ ("if".toList ++ s)))) = .ok a r := by
  refine (bind_ok (keyword_gap (by decide) hb1 (wordEnd_gap hb2))).trans ?_
  exact (bind_ok (keyword_gap (by decide) hb2.1 hs)).trans (cut_ok h)

/-- Only `else` and a block. -/
theorem elseIf_block {α : Type} {p : Parser α} {b : Block} (h : b.Plain) {s : List Char}
    (hs : Fills (printBlock b) s) {b1 b2 rest : List Char} (hb1 : Blank b1)
    (hb2 : Blank b2 ∧ b2 ≠ []) :
    elseIf p (b1 ++ ("else".toList ++ (b2 ++ (s ++ rest)))) = .error := by
  obtain ⟨⟨r, e⟩, _⟩ := block_start h hs rest
  refine (bind_ok (keyword_gap (by decide) hb1 (wordEnd_gap hb2))).trans (bind_error ?_)
  refine keyword_error (d := '{') (r := r) rfl ?_ (by decide)
  rw [blank_append hb2.1, e, blank_solid (by decide)]

theorem elseBlock_ok {g : G} {n : Nat} (ih : ExprInv g n) {b : Block} (h : b.Plain) {s : List Char}
    (hs : Fills (printBlock b) s) {b1 b2 rest : List Char} (hb1 : Blank b1)
    (hb2 : Blank b2 ∧ b2 ≠ []) (hn : (s ++ rest).length ≤ n) {α : Type} (f : Block → Parser α) :
    (do keyword "else".toList; let b ← block g; f b : Parser α)
      (b1 ++ ("else".toList ++ (b2 ++ (s ++ rest)))) = f b rest := by
  refine (bind_ok (keyword_gap (by decide) hb1 (wordEnd_gap hb2))).trans ?_
  refine bind_ok ?_
  rw [(skips_block g).append hb2.1]
  exact block_ok ih h hs hn

theorem ifBranch_ok {g : G} {n : Nat} (ih : ExprInv g n) {c : Expr} {b : Block} (hc : c.Plain)
    (hb : b.Plain) {s1 b1 s2 rest : List Char} (h1 : Fills (print c) s1) (hb1 : Blank b1 ∧ b1 ≠ [])
    (h2 : Fills (printBlock b) s2) (hn : (s1 ++ (b1 ++ (s2 ++ rest))).length < n) :
    ifBranch g (s1 ++ (b1 ++ (s2 ++ rest))) = .ok (.mk c b) rest := by
  refine (bind_ok (ih.expression c s1 _ hc h1 (exprEnd_block hb h2 rest hb1) hn)).trans ?_
  refine (bind_ok (a := b) (r := rest) ?_).trans rfl
  rw [(skips_block g).append hb1.1]
  exact block_ok ih hb h2 (by simp at hn ⊢; omega)

theorem skips_ifBranch {g : G} {n : Nat} (ih : ExprInv g n) : Skips (ifBranch g) := ih.skips.bind _

theorem moreBranches_ok {g : G} {n : Nat} (ih : ExprInv g n) {e : Block} (he : e.Plain)
    {s2 rest : List Char} (h2 : Fills (printBlock e) s2) : ∀ (bs : List Branch)
    (b1 b2 s : List Char), allPlainBranches bs → (Blank b1 ∧ b1 ≠ []) → (Blank b2 ∧ b2 ≠ []) →
    Fills (printBranches bs) s →
    (b1 ++ ("else".toList ++ (b2 ++ (s ++ (s2 ++ rest))))).length < n →
    ∃ b1' b2', (Blank b1' ∧ b1' ≠ []) ∧ (Blank b2' ∧ b2' ≠ []) ∧
      Many (elseIf (ifBranch g)) (b1 ++ ("else".toList ++ (b2 ++ (s ++ (s2 ++ rest))))) bs
        (b1' ++ ("else".toList ++ (b2' ++ (s2 ++ rest)))) ∧
      (b1' ++ ("else".toList ++ (b2' ++ (s2 ++ rest)))).length < n
  | [], b1, b2, s, _, hb1, hb2, hs, hn => by
    have : s = [] := hs
    subst this
    exact ⟨b1, b2, hb1, hb2, .nil (elseIf_block he h2 hb1.1 hb2), hn⟩
  | .mk c b :: bs, b1, b2, s, h, hb1, hb2, hs, hn => by
    simp only [allPlainBranches] at h
    simp only [printBranches, List.append_assoc, List.cons_append, List.nil_append, fills_txt,
      fills_gap, fills_append] at hs
    obtain ⟨_, rfl, b3, _, rfl, hb3, s3, _, rfl, h3, b4, _, rfl, hb4, s4, _, rfl, h4, b5, _, rfl,
      hb5, _, rfl, b6, s5, rfl, hb6, h5⟩ := hs
    simp only [List.append_assoc] at hn ⊢
    obtain ⟨b1', b2', hb1', hb2', hm, hl⟩ := moreBranches_ok ih he (rest := rest) h2 bs b5 b6
      s5 h.2.2 hb5 hb6 h5
      (by simp at hn ⊢; omega)
    refine ⟨b1', b2', hb1', hb2', .cons (elseIf_ok hb1.1 hb2 (wordEnd_gap hb3) ?_) ?_ hm, hl⟩
    · rw [(skips_ifBranch ih).append hb3.1]
      exact ifBranch_ok ih h.1 h.2.1 h3 hb4 h4 (by simp at hn ⊢; omega)
    · simp; omega

/-- The attempts to read a conditional with a name fail for one without. -/
theorem named_error {α : Type} {s : List Char} (h : Free s) (f : Name → Parser α) {b : List Char}
    (hb : Blank b ∧ b ≠ []) :
    (do keyword "if".toList; let x ← identifier; sign "=".toList; f x : Parser α)
      ("if".toList ++ (b ++ s)) = .error := by
  refine (bind_ok (keyword_ok (by decide) (wordEnd_gap hb))).trans ?_
  have hi : identifier (b ++ s) = identifier s := skips_identifier.append hb.1 s
  rcases identifier_cases s with ⟨x, r, h'⟩ | h'
  · exact (bind_ok (hi.trans h')).trans (bind_error (h x r h').1)
  · exact bind_error (hi.trans h')

theorem starts_bracket {o : Opening} {s : List Char} (h : Starts o s) (ho : o ≠ .bracket) :
    sign "[".toList s = .error := by
  obtain ⟨c, r, rfl, hc⟩ := h.head
  refine sign_error (c := '[') rfl (blank_solid hc.1 r) ?_
  rintro rfl
  revert h
  cases o with
  | bracket => exact absurd rfl ho
  | brace => rintro ⟨_, h⟩; cases h
  | bang => rintro ⟨d, r', h, hd⟩; cases h
  | parenthesis => rintro ⟨_, h⟩; cases h
  | sign =>
    rintro ⟨_, _, _, h, h'⟩
    cases h
    simp at h'
  | other =>
    rintro ⟨_, _, h, h'⟩
    cases h
    exact absurd h' (by decide)

/-- `if` is read back, and the other conditionals do not read it. -/
theorem if_ok {g : G} {n : Nat} (ih : ExprInv g n) {bs : List Branch} {e : Block}
    (h : (Expr.if_ bs e).Plain) {s rest : List Char} (hs : Fills (print (.if_ bs e)) s)
    (hn : (s ++ rest).length ≤ n) :
    ifType g (s ++ rest) = .error ∧ ifList g (s ++ rest) = .error ∧ ifMap g (s ++ rest) = .error ∧
      ifExpression g (s ++ rest) = .ok (.if_ bs e) rest := by
  simp only [Expr.Plain] at h
  cases bs with
  | nil => exact absurd h.1 (by simp [FirstCondition])
  | cons br bs =>
    cases br with
    | mk c b =>
      simp only [allPlainBranches, FirstCondition] at h
      simp only [print, printBranches, List.append_assoc, List.cons_append, List.nil_append,
        fills_txt, fills_gap, fills_append] at hs
      obtain ⟨_, rfl, b1, _, rfl, hb1, s1, _, rfl, h1, b2, _, rfl, hb2, s2, _, rfl, h2, b3, _,
        rfl, hb3, _, rfl, b4, _, rfl, hb4, s3, s4, rfl, h3, h4⟩ := hs
      simp only [List.append_assoc] at hn ⊢
      have hst := start_ok c s1 _ h.2.1.1 h1 (lead_block h.2.1.2.1 h2
        (b3 ++ ("else".toList ++ (b4 ++ (s3 ++ (s4 ++ rest))))) hb2)
      refine ⟨named_error hst.free _ hb1, ?_, named_error hst.free _ hb1, ?_⟩
      · refine (bind_ok (keyword_ok (by decide) (wordEnd_gap hb1))).trans (bind_error ?_)
        rw [(skips_sign _).append hb1.1]
        exact starts_bracket hst.starts h.1
      · refine (bind_ok (keyword_ok (by decide) (wordEnd_gap hb1))).trans (cut_ok ?_)
        refine (bind_ok (a := .mk c b)
          (r := b3 ++ ("else".toList ++ (b4 ++ (s3 ++ (s4 ++ rest))))) ?_).trans ?_
        · rw [(skips_ifBranch ih).append hb1.1]
          exact ifBranch_ok ih h.2.1.1 h.2.1.2.1 h1 hb2 h2 (by simp at hn ⊢; omega)
        · obtain ⟨b1', b2', hb1', hb2', hm, hl⟩ := moreBranches_ok ih h.2.2 (rest := rest) h4 bs
            b3 b4 s3 h.2.1.2.2 hb3 hb4 h3 (by simp at hn ⊢; omega)
          refine (bind_ok hm.many0).trans ?_
          exact (elseBlock_ok ih h.2.2 h4 hb1'.1 hb2' (by simp at hl ⊢; omega) _).trans rfl

/-- `if` with a list is read back, and the other conditional does not read it. -/
theorem ifList_ok {g : G} {n : Nat} (ih : ExprInv g n) {l : Expr} {x y : Name} {t e : Block}
    (h : (Expr.ifList l x y t e).Plain) {s rest : List Char}
    (hs : Fills (print (.ifList l x y t e)) s) (hn : (s ++ rest).length ≤ n) :
    ifType g (s ++ rest) = .error ∧ ifList g (s ++ rest) = .ok (.ifList l x y t e) rest := by
  simp only [Expr.Plain] at h
  obtain ⟨hl, hx, hy, ht, he⟩ := h
  simp only [print, List.append_assoc, List.cons_append, List.nil_append,
    fills_txt, fills_gap, fills_append] at hs
  obtain ⟨_, rfl, b1, _, rfl, hb1, _, rfl, _, rfl, _, rfl, b2, _, rfl, hb2, _, rfl, _, rfl, _, rfl,
    b3, _, rfl, hb3, _, rfl, b4, _, rfl, hb4, s1, _, rfl, h1, b5, _, rfl, hb5, s2, _, rfl, h2,
    b6, _, rfl, hb6, _, rfl, b7, s3, rfl, hb7, h3⟩ := hs
  simp only [List.append_assoc] at hn ⊢
  refine ⟨named_error (free_error (identifier_error (blank_solid (by decide) _) (by decide)
    (by decide))) _ hb1, ?_⟩
  refine (bind_ok (keyword_ok (by decide) (wordEnd_gap hb1))).trans ?_
  refine (bind_ok (sign_blank hb1.1 (sign_ok _ rfl (by decide) (by decide)))).trans (cut_ok ?_)
  refine (bind_ok (identifier_ok hx (by simp [WordEnd, startsWith]; decide))).trans ?_
  refine (bind_ok (sign_comma _)).trans ?_
  refine (bind_ok (sign_blank hb2.1 (sign_ok _ rfl (by decide) (by decide)))).trans ?_
  refine (bind_ok (identifier_ok hy (by simp [WordEnd, startsWith]; decide))).trans ?_
  refine (bind_ok (sign_ok _ rfl (by decide) (by decide))).trans ?_
  refine (bind_ok (sign_equal_gap hb3.1 hb4)).trans ?_
  refine (bind_ok (a := l)
    (r := b5 ++ (s2 ++ (b6 ++ ("else".toList ++ (b7 ++ (s3 ++ rest)))))) ?_).trans ?_
  · rw [ih.skips.append hb4.1]
    exact ih.expression l s1 _ hl h1 (exprEnd_block ht h2 _ hb5) (by simp at hn ⊢; omega)
  · refine (bind_ok (a := t) (r := b6 ++ ("else".toList ++ (b7 ++ (s3 ++ rest)))) ?_).trans ?_
    · rw [(skips_block g).append hb5.1]
      exact block_ok ih ht h2 (by simp at hn ⊢; omega)
    · exact (elseBlock_ok ih he h3 hb6.1 hb7 (by simp at hn ⊢; omega) _).trans rfl

/-- `if` with a map is read back, and the other conditionals do not read it. -/
theorem ifMap_ok {g : G} {n : Nat} (ih : ExprInv g n) {x : Name} {m k : Expr} {t e : Block}
    (h : (Expr.ifMap x m k t e).Plain) {s rest : List Char}
    (hs : Fills (print (.ifMap x m k t e)) s) (hn : (s ++ rest).length ≤ n) :
    ifType g (s ++ rest) = .error ∧ ifList g (s ++ rest) = .error ∧
      ifMap g (s ++ rest) = .ok (.ifMap x m k t e) rest := by
  simp only [Expr.Plain] at h
  obtain ⟨hx, hm, hk, ht, he⟩ := h
  simp only [print, List.append_assoc, List.cons_append, List.nil_append,
    fills_txt, fills_gap, fills_append] at hs
  obtain ⟨_, rfl, b1, _, rfl, hb1, _, rfl, b2, _, rfl, hb2, _, rfl, b3, _, rfl, hb3, s1, _, rfl,
    h1, _, rfl, s2, _, rfl, h2, _, rfl, b4, _, rfl, hb4, s3, _, rfl, h3, b5, _, rfl, hb5, _, rfl,
    b6, s4, rfl, hb6, h4⟩ := hs
  simp only [List.append_assoc] at hn ⊢
  have hid : ∀ s, identifier (b1 ++ (x ++ (b2 ++ s))) = .ok x (b2 ++ s) := fun s => by
    rw [skips_identifier.append hb1.1, identifier_ok hx (wordEnd_gap hb2)]
  have hmap : g.expression (b3 ++ (s1 ++ ("[".toList ++ (s2 ++ ("]".toList ++ (b4 ++ (s3 ++
      (b5 ++ ("else".toList ++ (b6 ++ (s4 ++ rest))))))))))) = .ok m ("[".toList ++ (s2 ++
      ("]".toList ++ (b4 ++ (s3 ++ (b5 ++ ("else".toList ++ (b6 ++ (s4 ++ rest))))))))) := by
    rw [ih.skips.append hb3.1]
    exact ih.expression m s1 _ hm h1 (exprEnd_char (by decide)) (by simp at hn ⊢; omega)
  refine ⟨?_, ?_, ?_⟩
  · refine (bind_ok (keyword_ok (by decide) (wordEnd_gap hb1))).trans ?_
    refine (bind_ok (hid _)).trans ?_
    refine (bind_ok (sign_equal_gap hb2.1 hb3)).trans ?_
    refine (bind_ok hmap).trans (bind_error ?_)
    exact keyword_error rfl (blank_solid (by decide) _) (by decide)
  · refine (bind_ok (keyword_ok (by decide) (wordEnd_gap hb1))).trans (bind_error ?_)
    obtain ⟨c, t', ex, hc⟩ := hx.head
    have hw : isWord c = true := hx.words c (by rw [ex]; simp)
    rw [(skips_sign _).append hb1.1, ex]
    exact sign_error rfl (blank_solid (word_solid hw) _) (Ne.symm (word_ne hw (by decide)))
  · refine (bind_ok (keyword_ok (by decide) (wordEnd_gap hb1))).trans ?_
    refine (bind_ok (hid _)).trans ?_
    refine (bind_ok (sign_equal_gap hb2.1 hb3)).trans ?_
    refine (bind_ok hmap).trans ?_
    refine (bind_ok (sign_ok _ rfl (by decide) (by decide))).trans (cut_ok ?_)
    refine (bind_ok (ih.expression k s2 _ hk h2 (exprEnd_char (by decide))
      (by simp at hn ⊢; omega))).trans ?_
    refine (bind_ok (sign_ok _ rfl (by decide) (by decide))).trans ?_
    refine (bind_ok (a := t) (r := b5 ++ ("else".toList ++ (b6 ++ (s4 ++ rest)))) ?_).trans ?_
    · rw [(skips_block g).append hb4.1]
      exact block_ok ih ht h3 (by simp at hn ⊢; omega)
    · exact (elseBlock_ok ih he h4 hb5.1 hb6 (by simp at hn ⊢; omega) _).trans rfl

theorem ifTypeBranch_ok {g : G} {n : Nat} (ih : ExprInv g n) {t : Ty} {b : Block} (ht : t.Plain)
    (hb : b.Plain) {s1 b1 s2 rest : List Char} (h1 : Fills (printType t) s1)
    (hb1 : Blank b1 ∧ b1 ≠ []) (h2 : Fills (printBlock b) s2)
    (hn : (s1 ++ (b1 ++ (s2 ++ rest))).length < n) :
    ifTypeBranch g (s1 ++ (b1 ++ (s2 ++ rest))) = .ok (.mk t b) rest := by
  refine (bind_ok (ih.types.type t s1 _ ht h1 (typeEnd_block hb h2 rest hb1) hn)).trans ?_
  refine (bind_ok (a := b) (r := rest) ?_).trans rfl
  rw [(skips_block g).append hb1.1]
  exact block_ok ih hb h2 (by simp at hn ⊢; omega)

theorem moreTypeBranches_ok {g : G} {n : Nat} (ih : ExprInv g n) {rest : List Char}
    (hr : elseIf (ifTypeBranch g) rest = .error) : ∀ (bs : List TypeBranch)
    (s : List Char), allPlainTypeBranches bs →
    Fills ((printTypeBranches bs).map fun q =>
      [Piece.gap, text "else", .gap, text "if", .gap] ++ q).flatten s →
    (s ++ rest).length < n → Many (elseIf (ifTypeBranch g)) (s ++ rest) bs rest
  | [], s, _, hs, hn => by
    have : s = [] := hs
    subst this
    exact .nil hr
  | .mk t b :: bs, s, h, hs, hn => by
    simp only [allPlainTypeBranches] at h
    simp only [printTypeBranches, List.map_cons, List.flatten_cons, List.append_assoc,
      List.cons_append, List.nil_append, fills_txt, fills_gap, fills_append] at hs
    obtain ⟨b1, _, rfl, hb1, _, rfl, b2, _, rfl, hb2, _, rfl, b3, _, rfl, hb3, s3, _, rfl, h3,
      b4, _, rfl, hb4, s4, s5, rfl, h4, h5⟩ := hs
    simp only [List.append_assoc] at hn ⊢
    refine .cons (elseIf_ok hb1.1 hb2 (wordEnd_gap hb3) ?_) ?_
      (moreTypeBranches_ok ih hr bs s5 h.2.2 h5 (by simp at hn ⊢; omega))
    · have : Skips (ifTypeBranch g) := ih.types.skips.bind _
      rw [this.append hb3.1]
      exact ifTypeBranch_ok ih h.1 h.2.1 h3 hb4 h4 (by simp at hn ⊢; omega)
    · simp; omega

/-- `if` with types is read back. -/
theorem ifType_ok {g : G} {n : Nat} (ih : ExprInv g n) {x : Name} {e : Expr} {bs : List TypeBranch}
    {f : Option Block} (h : (Expr.ifType x e bs f).Plain) {s rest : List Char}
    (hs : Fills (print (.ifType x e bs f)) s) (hr : keyword "else".toList rest = .error)
    (hn : (s ++ rest).length ≤ n) : ifType g (s ++ rest) = .ok (.ifType x e bs f) rest := by
  simp only [Expr.Plain] at h
  obtain ⟨hx, he, hne, hbs, hf⟩ := h
  cases bs with
  | nil => exact absurd rfl hne
  | cons br bs =>
    cases br with
    | mk t b =>
      simp only [allPlainTypeBranches] at hbs
      simp only [print, printTypeBranches, join_cons, List.append_assoc, List.cons_append,
        List.nil_append, fills_txt, fills_gap, fills_append] at hs
      obtain ⟨_, rfl, b1, _, rfl, hb1, _, rfl, b2, _, rfl, hb2, _, rfl, b3, _, rfl, hb3, s1, _, rfl,
        h1, b4, _, rfl, hb4, _, rfl, b5, _, rfl, hb5, s2, _, rfl, h2, b6, _, rfl, hb6, s3, _, rfl,
        h3, s4, s5, rfl, h4, h5⟩ := hs
      simp only [List.append_assoc] at hn ⊢
      refine (bind_ok (keyword_ok (by decide) (wordEnd_gap hb1))).trans ?_
      refine (bind_ok (a := x)
        (by rw [skips_identifier.append hb1.1]; exact identifier_ok hx (wordEnd_gap hb2))).trans ?_
      refine (bind_ok (sign_equal_gap hb2.1 hb3)).trans ?_
      refine (bind_ok (a := e) (r := b4 ++ ("as".toList ++ (b5 ++ (s2 ++ (b6 ++ (s3 ++ (s4 ++
        (s5 ++ rest)))))))) ?_).trans ?_
      · rw [ih.skips.append hb3.1]
        exact ih.expression e s1 _ he h1 (exprEnd_keyword hb4 (by decide) (by decide))
          (by simp at hn ⊢; omega)
      refine (bind_ok (keyword_gap (by decide) hb4.1 (wordEnd_gap hb5))).trans (cut_ok ?_)
      refine (bind_ok (a := .mk t b) (r := s4 ++ (s5 ++ rest)) ?_).trans ?_
      · have : Skips (ifTypeBranch g) := ih.types.skips.bind _
        rw [this.append hb5.1]
        exact ifTypeBranch_ok ih hbs.1 hbs.2.1 h2 hb6 h3 (by simp at hn ⊢; omega)
      cases f with
      | none =>
        have : s5 = [] := h5
        subst this
        simp only [List.nil_append] at hn ⊢
        refine (bind_ok (moreTypeBranches_ok ih (bind_error hr) bs s4 hbs.2.2 h4
          (by simp at hn ⊢; omega)).many0).trans ?_
        exact (bind_ok (opt_error (bind_error hr))).trans rfl
      | some f =>
        simp only [plainElse] at hf
        simp only [printElse, List.cons_append, List.nil_append, fills_txt, fills_gap] at h5
        obtain ⟨b7, _, rfl, hb7, _, rfl, b8, s6, rfl, hb8, h6⟩ := h5
        simp only [List.append_assoc] at hn ⊢
        refine (bind_ok (moreTypeBranches_ok ih (elseIf_block hf h6 hb7.1 hb8) bs s4 hbs.2.2 h4
          (by simp at hn ⊢; omega)).many0).trans ?_
        refine (bind_ok (opt_ok (a := f) (r := rest) ?_)).trans rfl
        refine (bind_ok (keyword_gap (by decide) hb7.1 (wordEnd_gap hb8))).trans ?_
        rw [(skips_block g).append hb8.1]
        exact block_ok ih hf h6 (by simp at hn ⊢; omega)

end Verif.Grammar
