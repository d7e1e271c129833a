import Verif.Grammar.Operators

/-! Modules: what is written is read back. -/

namespace Verif.Grammar

/-! ## What follows a definition -/

/-- The input ends, or one of these keywords or an identifier is next. -/
def Head (ks : List Name) (s : List Char) : Prop :=
  blank s = [] ∨ (∃ k r, k ∈ ks ∧ k ∈ keywords ∧ blank s = k ++ r ∧ WordEnd r) ∨
    ∃ x r, IsIdentifier x ∧ blank s = x ++ r ∧ WordEnd r

theorem Head.append {ks : List Name} {b s : List Char} (hb : Blank b) (h : Head ks s) :
    Head ks (b ++ s) := by
  unfold Head at *
  rw [blank_append hb]
  exact h

theorem Head.mono {ks ks' : List Name} {s : List Char} (h : Head ks s) (hk : ∀ k ∈ ks, k ∈ ks') :
    Head ks' s := h.imp id (.imp (fun ⟨k, r, h, h'⟩ => ⟨k, r, hk k h, h'⟩) id)

theorem head_keyword {ks : List Name} {k r : List Char} (h : k ∈ ks) (hk : k ∈ keywords)
    (hr : WordEnd r) : Head ks (k ++ r) := by
  refine .inr (.inl ⟨k, r, h, hk, ?_, hr⟩)
  obtain ⟨h1, h2⟩ := keywords_words k hk
  cases k with
  | nil => exact absurd rfl h1
  | cons c k => exact blank_solid (word_solid (h2 c (by simp))) _

theorem head_identifier {ks : List Name} {x r : List Char} (hx : IsIdentifier x)
    (hr : WordEnd r) : Head ks (x ++ r) := by
  refine .inr (.inr ⟨x, r, hx, ?_, hr⟩)
  obtain ⟨c, t, e, _⟩ := hx.head
  have := hx.words c (by rw [e]; simp)
  rw [e]
  exact blank_solid (word_solid this) _

theorem Head.sign {ks : List Name} {s : List Char} (h : Head ks s) {t t' : List Char} {c : Char}
    (e : t = c :: t') (hc : isWord c = false) : sign t s = .error := by
  rcases h with h | ⟨k, r, _, hk, hb, _⟩ | ⟨x, r, hx, hb, _⟩
  · exact sign_nil e h
  · obtain ⟨h1, h2⟩ := keywords_words k hk
    cases k with
    | nil => exact absurd rfl h1
    | cons d k => exact sign_error e hb (Ne.symm (word_ne (h2 d (by simp)) hc))
  · obtain ⟨d, t, ex, _⟩ := hx.head
    have := hx.words d (by rw [ex]; simp)
    rw [ex] at hb
    exact sign_error e hb (Ne.symm (word_ne this hc))

theorem Head.keyword {ks : List Name} {s : List Char} (h : Head ks s) {k : List Char}
    (hk : k ∈ keywords) (hne : ∀ k' ∈ ks, k.head? ≠ k'.head?) : keyword k s = .error := by
  obtain ⟨h1, _⟩ := keywords_words k hk
  rcases h with h | ⟨k', r, hk', hk'', hb, _⟩ | ⟨x, r, hx, hb, hr⟩
  · cases k with
    | nil => exact absurd rfl h1
    | cons c k => exact keyword_nil rfl h
  · obtain ⟨h2, _⟩ := keywords_words k' hk''
    have := hne k' hk'
    cases k with
    | nil => exact absurd rfl h1
    | cons c k =>
      cases k' with
      | nil => exact absurd rfl h2
      | cons d k' => exact keyword_error rfl hb (by simpa using this)
  · rw [skips_keyword k s, hb]
    exact keyword_identifier hk hx hr

theorem Head.typeEnd {ks : List Name} {b s : List Char} (h : Head ks s) (hb : Blank b ∧ b ≠ []) :
    TypeEnd (b ++ s) := ⟨nameEnd_gap hb, sign_gap_error hb.1 (h.sign rfl (by decide))⟩

/-! ## Sequences of definitions -/

theorem items_ok {α : Type} {p : Parser α} {pr : α → List Piece} {ks : List Name} {n : Nat}
    (hskip : Skips p) : ∀ (xs : List α)
    (_ : ∀ x ∈ xs, ∀ s rest, Fills (pr x) s → Head ks rest → (s ++ rest).length ≤ n →
      (∃ b, Blank b ∧ p (s ++ rest) = .ok x (b ++ rest) ∧
        (b ++ rest).length < (s ++ rest).length) ∧ Head ks (s ++ rest))
    (b s rest : List Char), Blank b → Fills (xs.map pr).flatten s → p rest = .error →
    Head ks rest → (s ++ rest).length ≤ n →
    Head ks (s ++ rest) ∧ ∃ b', Blank b' ∧ Many p (b ++ (s ++ rest)) xs (b' ++ rest)
  | [], _, b, s, rest, hb, hs, he, hr, hn => by
    have : s = [] := hs
    subst this
    exact ⟨hr, b, hb, .nil (by rw [hskip.append hb]; exact he)⟩
  | x :: xs, h, b, s, rest, hb, hs, he, hr, hn => by
    simp only [List.map_cons, List.flatten_cons, fills_append] at hs
    obtain ⟨s1, s2, rfl, h1, h2⟩ := hs
    simp only [List.append_assoc] at hn ⊢
    obtain ⟨i1, _⟩ := items_ok hskip xs (fun y hy => h y (by simp [hy])) [] s2 rest .nil h2 he hr
      (by simp at hn ⊢; omega)
    obtain ⟨⟨b1, j1, j2, j3⟩, j4⟩ := h x (by simp) s1 _ h1 i1 hn
    obtain ⟨_, b2, k1, k2⟩ := items_ok hskip xs (fun y hy => h y (by simp [hy])) b1 s2 rest j1 h2 he
      hr (by simp at hn ⊢; omega)
    refine ⟨j4, b2, k1, .cons (r := b1 ++ (s2 ++ rest)) ?_ ?_ k2⟩
    · rw [hskip.append hb]
      exact j2
    · simp at j3 ⊢
      omega

/-! ## Imports -/

theorem tag_quote_error {c : Char} {s : List Char} (h : c ≠ '\'') : tag ['\''] (c :: s) = .error := by
  simp [tag, Ne.symm h]

theorem tag_quote_end {s : List Char} (h : NameEnd s) : tag ['\''] s = .error := by
  cases s with
  | nil => rfl
  | cons c s =>
    simp [NameEnd, startsWith] at h
    exact tag_quote_error h.2

/-- A text of components. -/
def components (cs : List Name) : List Char := (cs.map fun c => '\'' :: c).flatten

theorem components_ok {component : Parser Name} : ∀ (cs : List Name) (rest : List Char),
    (∀ c ∈ cs, ∀ r, WordEnd r → component (c ++ r) = .ok c r) → NameEnd rest →
    Many (do tag ['\'']; component) (components cs ++ rest) cs rest ∧ WordEnd (components cs ++ rest)
  | [], rest, _, hr => ⟨.nil (bind_error (tag_quote_end hr)), hr.word⟩
  | c :: cs, rest, h, hr => by
    obtain ⟨i1, i2⟩ := components_ok cs rest (fun d hd => h d (by simp [hd])) hr
    refine ⟨.cons (r := components cs ++ rest) ?_ ?_ i1, wordEnd_quote _⟩
    · have e : components (c :: cs) ++ rest = ['\''] ++ (c ++ (components cs ++ rest)) := by
        simp [components]
      rw [e]
      exact (bind_ok (tag_append _ _)).trans (h c (by simp) _ i2)
    · simp [components]
      omega

theorem fills_flatten_names {cs : List Name} {s : List Char}
    (h : Fills (cs.map fun c => [text "'", Piece.txt c]).flatten s) : s = components cs := by
  induction cs generalizing s with
  | nil => exact h
  | cons c cs ih =>
    simp only [List.map_cons, List.flatten_cons, List.cons_append, List.nil_append, fills_txt] at h
    obtain ⟨_, rfl, _, rfl, h⟩ := h
    rw [ih h]
    simp [components]

theorem fills_components {cs : List Name} (hcs : cs ≠ []) {s : List Char}
    (h : Fills (text "'" :: join [text "'"] (cs.map fun c => [Piece.txt c])) s) :
    s = components cs := by
  cases cs with
  | nil => exact absurd rfl hcs
  | cons c cs =>
    refine fills_flatten_names ?_
    rw [List.map_cons, join_cons] at h
    simpa [Function.comp_def] using h

theorem components_head {cs : List Name} (hcs : cs ≠ []) (rest : List Char) :
    ∃ r, components cs ++ rest = '\'' :: r := by
  cases cs with
  | nil => exact absurd rfl hcs
  | cons c cs => exact ⟨_, rfl⟩

theorem pathComponents_ok {component : Parser Name} {cs : List Name} {rest : List Char}
    (hcs : cs ≠ []) (h : ∀ c ∈ cs, ∀ r, WordEnd r → component (c ++ r) = .ok c r)
    (hr : NameEnd rest) : pathComponents component (components cs ++ rest) = .ok cs rest := by
  cases cs with
  | nil => exact absurd rfl hcs
  | cons c cs => exact (components_ok (c :: cs) rest h hr).1.many1

theorem skips_modulePath : Skips modulePath := skips_token _

theorem modulePath_ok {p : ModulePath} (h : PlainPath p) {s rest : List Char}
    (hs : Fills (printPath p) s) (hr : NameEnd rest) : modulePath (s ++ rest) = .ok p rest := by
  cases p with
  | external p cs =>
    obtain ⟨hp, hcs, hc⟩ := h
    have : Fills (Piece.txt p :: text "'" :: join [text "'"] (cs.map fun c => [Piece.txt c])) s := hs
    rw [fills_txt] at this
    obtain ⟨_, rfl, h1⟩ := this
    rw [fills_components hcs h1, List.append_assoc]
    have hb : blank (p ++ (components cs ++ rest)) = p ++ (components cs ++ rest) := by
      obtain ⟨c, t, e, hc⟩ := hp.head
      rw [e]
      exact blank_solid (alpha_solid hc) _
    unfold modulePath token
    rw [hb]
    refine orElse_ok ?_
    obtain ⟨r, e⟩ := components_head hcs rest
    refine (bind_ok (identifier_ok hp (by rw [e]; exact wordEnd_quote _))).trans ?_
    exact (bind_ok (cut_ok (pathComponents_ok hcs (fun c h r hr => verify_ok
      (identifier_ok (hc c h).1 hr) (hc c h).2) hr))).trans rfl
  | internal cs =>
    obtain ⟨hcs, hc⟩ := h
    rw [fills_components hcs hs]
    obtain ⟨r, e⟩ := components_head hcs rest
    have hb : blank (components cs ++ rest) = components cs ++ rest := by
      rw [e]; exact blank_solid (by decide) _
    unfold modulePath token
    rw [hb]
    refine (orElse_error (bind_error ?_)).trans ?_
    · rw [e]
      exact identifier_error (blank_solid (by decide) _) (by decide) (by decide)
    · exact (bind_ok (pathComponents_ok hcs (fun c h r hr => identifier_ok (hc c h) hr) hr)).trans rfl

/-- An import with its names in the order in which they are written. -/
def Import.sorted (i : Import) : Import := { i with names := i.names.mergeSort nameLe }

/-- The text of an import whose names are sorted. -/
def printSortedImport (i : Import) : List Piece :=
  [.soft, text "import", .gap] ++ printPath i.path ++
    (match i.alias? with
      | none => []
      | some a => [.gap, text "as", .gap, .txt a]) ++
    (if i.names.isEmpty then []
      else [.gap, text "{", .gap] ++ join comma (i.names.map fun x => [.txt x]) ++
        [.gap, text "}"]) ++
    [.gap]

theorem printImport_eq (i : Import) : printImport i = printSortedImport i.sorted := by
  have : (i.names.mergeSort nameLe).isEmpty = i.names.isEmpty := by
    have := (List.mergeSort_perm i.names nameLe).length_eq
    cases h : i.names with
    | nil => simp
    | cons x xs =>
      rw [h] at this
      cases h' : (x :: xs).mergeSort nameLe with
      | nil => rw [h'] at this; simp at this
      | cons y ys => rfl
  simp only [printImport, printSortedImport, Import.sorted, this]
  rfl

theorem plainImport_sorted {i : Import} (h : PlainImport i) : PlainImport i.sorted :=
  ⟨h.1, h.2.1, fun x hx => h.2.2 x ((List.mergeSort_perm i.names nameLe).mem_iff.1 hx)⟩

/-- The names of an import. -/
theorem names_ok {ns : List Name} (h : ∀ x ∈ ns, IsIdentifier x) {s b rest : List Char}
    (hs : Fills (if ns.isEmpty then []
      else [.gap, text "{", .gap] ++ join comma (ns.map fun x => [Piece.txt x]) ++
        [.gap, text "}"]) s) (hb : Blank b ∧ b ≠ []) {ks : List Name} (hr : Head ks rest) :
    ∃ o, opt (do
        sign "{".toList
        let ns ← list1 (sign ",".toList) identifier
        sign "}".toList
        pure ns) (s ++ (b ++ rest)) = .ok o (b ++ rest) ∧ o.getD [] = ns := by
  cases ns with
  | nil =>
    have : s = [] := hs
    subst this
    rw [List.nil_append]
    exact ⟨none, opt_error (bind_error (sign_gap_error hb.1 (hr.sign rfl (by decide)))), rfl⟩
  | cons y ys =>
    simp only [List.isEmpty_cons, Bool.false_eq_true, if_false, List.append_assoc, List.cons_append,
      List.nil_append, fills_gap, fills_txt, fills_append, fills_nil] at hs
    obtain ⟨b1, _, rfl, hb1, _, rfl, b2, _, rfl, hb2, s1, _, rfl, h1, b3, _, rfl, hb3, _, rfl, rfl⟩ :=
      hs
    simp only [List.append_assoc, List.append_nil, List.nil_append]
    refine ⟨some (y :: ys), opt_ok ?_, rfl⟩
    refine (bind_ok (sign_blank hb1.1 (sign_ok _ rfl (by decide) (by decide)))).trans ?_
    obtain ⟨b4, hb4, hl1⟩ := list1_ok (el := identifier) (pr := fun x => [Piece.txt x])
      (n := (s1 ++ (b3 ++ ("}".toList ++ (b ++ rest)))).length + 1) (End := fun _ => WordEnd)
      skips_identifier y ys
      (fun y hy s rest hs he _ => by
        simp only [fills_txt, fills_nil] at hs
        obtain ⟨_, rfl, rfl⟩ := hs
        rw [List.append_nil]
        exact identifier_ok (h y hy) he)
      (fun y hy r => wordEnd_char (by decide))
      (b3 ++ ("}".toList ++ (b ++ rest)))
      (fun y hy => wordEnd_gap hb3)
      (sign_gap_error hb3.1 (sign_error rfl (blank_solid (by decide) _) (by decide)))
      s1 ⟨s1, [], by simp, h1, .inl rfl⟩ (by omega)
    refine (bind_ok ((skips_list1 skips_identifier).append hb2.1 _ |>.trans hl1)).trans ?_
    refine (bind_ok (a := ()) (r := b ++ rest) ?_).trans rfl
    rw [← List.append_assoc]
    exact sign_blank (hb4.append hb3.1) (sign_ok _ rfl (by decide) (by decide))

theorem import_ok {i : Import} (h : PlainImport i) {s rest : List Char}
    (hs : Fills (printSortedImport i) s) {ks : List Name} (hr : Head ks rest)
    (hk : "import".toList ∈ ks) (has : ∀ k' ∈ ks, "as".toList.head? ≠ k'.head?) :
    (∃ b, Blank b ∧ import_ (s ++ rest) = .ok i (b ++ rest) ∧
      (b ++ rest).length < (s ++ rest).length) ∧ Head ks (s ++ rest) := by
  obtain ⟨path, alias?, names⟩ := i
  obtain ⟨hp, ha, hns⟩ := h
  simp only [printSortedImport, List.append_assoc, List.cons_append, List.nil_append, fills_soft,
    fills_txt, fills_gap, fills_append, fills_nil] at hs
  obtain ⟨b0, _, rfl, hb0, _, rfl, b1, _, rfl, hb1, s1, _, rfl, h1, s2, _, rfl, h2, s3, _, rfl, h3,
    b4, _, rfl, hb4, rfl⟩ := hs
  simp only [List.append_assoc, List.append_nil]
  refine ⟨⟨b4, hb4.1, ?_, by simp; omega⟩, (head_keyword hk (by decide) (wordEnd_gap hb1)).append hb0⟩
  refine (bind_ok (keyword_gap (by decide) hb0 (wordEnd_gap hb1))).trans ?_
  obtain ⟨o, hn1, hn2⟩ := names_ok hns h3 hb4 hr
  -- what follows the path and the alias
  have hname : NameEnd (s3 ++ (b4 ++ rest)) := by
    cases names with
    | nil =>
      have : s3 = [] := h3
      subst this
      rw [List.nil_append]
      exact nameEnd_gap hb4
    | cons y ys =>
      simp only [List.isEmpty_cons, Bool.false_eq_true, if_false, List.append_assoc,
        List.cons_append, fills_gap] at h3
      obtain ⟨b5, _, rfl, hb5, _⟩ := h3
      rw [List.append_assoc]
      exact nameEnd_gap hb5
  have hnoAs : keyword "as".toList (s3 ++ (b4 ++ rest)) = .error := by
    cases names with
    | nil =>
      have : s3 = [] := h3
      subst this
      rw [List.nil_append, (skips_keyword _).append hb4.1]
      exact hr.keyword (by decide) has
    | cons y ys =>
      simp only [List.isEmpty_cons, Bool.false_eq_true, if_false, List.append_assoc,
        List.cons_append, fills_gap, fills_txt] at h3
      obtain ⟨b5, _, rfl, hb5, _, rfl, _⟩ := h3
      simp only [List.append_assoc]
      rw [(skips_keyword _).append hb5.1]
      exact keyword_error rfl (blank_solid (by decide) _) (by decide)
  cases alias? with
  | none =>
    have : s2 = [] := h2
    subst this
    refine (bind_ok (a := path) (r := s3 ++ (b4 ++ rest)) ?_).trans (cut_ok ?_)
    · rw [skips_modulePath.append hb1.1]
      exact modulePath_ok hp h1 hname
    · refine (bind_ok (opt_error (bind_error hnoAs))).trans ((bind_ok hn1).trans ?_)
      rw [hn2]; rfl
  | some a =>
    simp only [fills_gap, fills_txt, fills_nil] at h2
    obtain ⟨b2, _, rfl, hb2, _, rfl, b3, _, rfl, hb3, _, rfl, rfl⟩ := h2
    simp only [List.append_assoc, List.append_nil, List.nil_append]
    refine (bind_ok (a := path) (r := b2 ++ ("as".toList ++ (b3 ++ (a ++ (s3 ++ (b4 ++ rest))))))
      ?_).trans (cut_ok ?_)
    · rw [skips_modulePath.append hb1.1]
      exact modulePath_ok hp h1 (nameEnd_gap hb2)
    · refine (bind_ok (opt_ok (a := a) (r := s3 ++ (b4 ++ rest)) ?_)).trans ((bind_ok hn1).trans ?_)
      · refine (bind_ok (keyword_gap (by decide) hb2.1 (wordEnd_gap hb3))).trans ?_
        rw [skips_identifier.append hb3.1]
        exact identifier_ok (ha a rfl) hname.word
      · rw [hn2]; rfl

/-! ## Foreign imports -/

theorem conventionC_ok {b s : List Char} (hb : Blank b) :
    callingConvention (b ++ ("\"c\"".toList ++ s)) = .ok .c s := by
  have hsk : Skips callingConvention := ((skips_token _).verify _).bind _
  rw [hsk.append hb]
  have h : stringLiteral ("\"".toList ++ (['c'] ++ ("\"".toList ++ s))) = .ok ['c'] s :=
    stringLiteral_ok ⟨[['c']], rfl, by
      intro p hp
      simp at hp
      subst hp
      exact .inl ⟨'c', rfl, by decide, by decide⟩⟩ s
  exact (bind_ok (verify_ok h rfl)).trans rfl

theorem convention_identifier {b x s : List Char} (hb : Blank b) (hx : IsIdentifier x) :
    callingConvention (b ++ (x ++ s)) = .error := by
  have hsk : Skips callingConvention := ((skips_token _).verify _).bind _
  rw [hsk.append hb]
  obtain ⟨c, t, e, _⟩ := hx.head
  have hw := hx.words c (by rw [e]; simp)
  refine bind_error (verify_error (stringLiteral_error (c := c) (r := t ++ s) ?_
    (word_ne hw (by decide))))
  rw [e]
  exact blank_solid (word_solid hw) _

theorem foreignImport_ok {g : G} {n : Nat} (ih : ExprInv g n) {i : ForeignImport}
    (h : IsIdentifier i.name ∧ i.type.Plain) {s rest : List Char}
    (hs : Fills (printForeignImport i) s) {ks : List Name} (hr : Head ks rest)
    (hk : "import".toList ∈ ks) (hn : (s ++ rest).length ≤ n) :
    (∃ b, Blank b ∧ foreignImport g (s ++ rest) = .ok i (b ++ rest) ∧
      (b ++ rest).length < (s ++ rest).length) ∧ Head ks (s ++ rest) := by
  obtain ⟨x, c, t⟩ := i
  obtain ⟨hx, ht⟩ := h
  simp only at hx ht
  simp only [printForeignImport, List.append_assoc, List.cons_append, List.nil_append, fills_soft,
    fills_txt, fills_gap, fills_append, fills_nil] at hs
  obtain ⟨b0, _, rfl, hb0, _, rfl, b1, _, rfl, hb1, _, rfl, s1, _, rfl, h1, b2, _, rfl, hb2, _, rfl,
    b3, _, rfl, hb3, s2, _, rfl, h2, b4, _, rfl, hb4, rfl⟩ := hs
  simp only [List.append_assoc, List.append_nil] at hn ⊢
  refine ⟨⟨b4, hb4.1, ?_, by simp; omega⟩, (head_keyword hk (by decide) (wordEnd_gap hb1)).append hb0⟩
  refine (bind_ok (keyword_gap (by decide) hb0 (wordEnd_gap hb1))).trans ?_
  have hend : ∀ c : CallingConvention, (do
      let x ← identifier
      let t ← g.type
      pure (⟨x, c, t⟩ : ForeignImport) : Parser ForeignImport)
      (b2 ++ (x ++ (b3 ++ (s2 ++ (b4 ++ rest))))) = .ok ⟨x, c, t⟩ (b4 ++ rest) := by
    intro c
    refine (bind_ok (a := x) (r := b3 ++ (s2 ++ (b4 ++ rest))) ?_).trans ?_
    · rw [skips_identifier.append hb2.1]
      exact identifier_ok hx (wordEnd_gap hb3)
    · refine (bind_ok (a := t) (r := b4 ++ rest) ?_).trans rfl
      rw [ih.types.skips.append hb3.1]
      refine ih.types.type t s2 _ ht h2 (hr.typeEnd hb4) ?_
      simp at hn ⊢
      omega
  cases c with
  | native =>
    have : s1 = [] := h1
    subst this
    refine (bind_ok (keyword_gap (by decide) hb1.1 (wordEnd_gap hb2))).trans (cut_ok ?_)
    exact (bind_ok (opt_error (convention_identifier hb2.1 hx))).trans (hend .native)
  | c =>
    simp only [fills_gap, fills_txt, fills_nil] at h1
    obtain ⟨b5, _, rfl, hb5, _, rfl, rfl⟩ := h1
    simp only [List.append_assoc, List.append_nil, List.nil_append]
    refine (bind_ok (keyword_gap (by decide) hb1.1 (wordEnd_gap hb5))).trans (cut_ok ?_)
    exact (bind_ok (opt_ok (conventionC_ok hb5.1))).trans (hend .c)

/-! ## Types -/

theorem fields_ok {g : G} {n : Nat} (ih : ExprInv g n) : ∀ (fs : List (Name × Ty))
    (s b r : List Char), (∀ f ∈ fs, IsIdentifier f.1 ∧ f.2.Plain) →
    Fills (fs.map fun f => Piece.gap :: printTyped f).flatten s → Blank b →
    (s ++ (b ++ '}' :: r)).length ≤ n →
    TypeEnd (s ++ (b ++ '}' :: r)) ∧
      Many (fieldDefinition g) (s ++ (b ++ '}' :: r)) fs (b ++ '}' :: r)
  | [], s, b, r, _, hs, hb, hn => by
    have : s = [] := hs
    subst this
    have hbl : blank (b ++ '}' :: r) = '}' :: r := by
      rw [blank_append hb, blank_solid (by decide)]
    refine ⟨?_, .nil (bind_error (identifier_error hbl (by decide) (by decide)))⟩
    rw [List.nil_append]
    cases b with
    | nil => exact typeEnd_char (by decide) (by decide) (by decide)
    | cons c b => exact typeEnd_gap ⟨hb, by simp⟩ (by decide) (by decide)
  | f :: fs, s, b, r, h, hs, hb, hn => by
    obtain ⟨x, t⟩ := f
    simp only [List.map_cons, List.flatten_cons, List.cons_append, fills_gap, fills_append] at hs
    obtain ⟨b1, _, rfl, hb1, s1, s2, rfl, h1, h2⟩ := hs
    simp only [printTyped, List.cons_append, List.nil_append, fills_txt, fills_gap] at h1
    obtain ⟨_, rfl, b2, s3, rfl, hb2, h3⟩ := h1
    simp only [List.append_assoc] at hn ⊢
    obtain ⟨hx, ht⟩ := h (x, t) (by simp)
    simp only at hx ht
    obtain ⟨i1, i2⟩ := fields_ok ih fs s2 b r (fun y hy => h y (by simp [hy])) h2 hb
      (by simp at hn ⊢; omega)
    refine ⟨?_, .cons (r := s2 ++ (b ++ '}' :: r)) ?_ ?_ i2⟩
    · obtain ⟨c, r', e, hc⟩ := hx.head
      have hw := hx.words c (by rw [e]; simp)
      rw [e]
      exact typeEnd_gap hb1 (word_solid hw) (word_ne hw (by decide))
    · refine (bind_ok (a := x) (r := b2 ++ (s3 ++ (s2 ++ (b ++ '}' :: r)))) ?_).trans ?_
      · rw [skips_identifier.append hb1.1]
        exact identifier_ok hx (wordEnd_gap hb2)
      · refine (bind_ok (a := t) (r := s2 ++ (b ++ '}' :: r)) ?_).trans rfl
        rw [ih.types.skips.append hb2.1]
        have : 0 < b1.length := List.length_pos_iff.2 hb1.2
        exact ih.types.type t s3 _ ht h3 i1 (by simp at hn ⊢; omega)
    · have : 0 < b1.length := List.length_pos_iff.2 hb1.2
      simp
      omega

theorem typeDefinition_ok {g : G} {n : Nat} (ih : ExprInv g n) {d : TypeDefinition}
    (h : PlainTypeDefinition d) {s rest : List Char}
    (hs : Fills (printTypeDefinition d) s) {ks : List Name} (hr : Head ks rest)
    (hk : "type".toList ∈ ks) (hn : (s ++ rest).length ≤ n) :
    (∃ b, Blank b ∧ orElse (typeAlias g) (recordDefinition g) (s ++ rest) = .ok d (b ++ rest) ∧
      (b ++ rest).length < (s ++ rest).length) ∧ Head ks (s ++ rest) := by
  cases d with
  | record x fs =>
    obtain ⟨hx, hfs⟩ := h
    simp only [printTypeDefinition, List.append_assoc, List.cons_append, List.nil_append,
      fills_soft, fills_txt, fills_gap, fills_append, fills_nil] at hs
    obtain ⟨b0, _, rfl, hb0, _, rfl, b1, _, rfl, hb1, _, rfl, b2, _, rfl, hb2, _, rfl, s1, _, rfl, h1,
      b3, _, rfl, hb3, _, rfl, b4, _, rfl, hb4, rfl⟩ := hs
    simp only [List.append_assoc, List.append_nil] at hn ⊢
    refine ⟨⟨b4, hb4.1, ?_, by simp; omega⟩,
      (head_keyword hk (by decide) (wordEnd_gap hb1)).append hb0⟩
    have hid : identifier (b1 ++ (x ++ (b2 ++ ("{".toList ++ (s1 ++ (b3 ++ ("}".toList ++
        (b4 ++ rest)))))))) = .ok x (b2 ++ ("{".toList ++ (s1 ++ (b3 ++ ("}".toList ++
        (b4 ++ rest)))))) := by
      rw [skips_identifier.append hb1.1]
      exact identifier_ok hx (wordEnd_gap hb2)
    refine (orElse_error ?_).trans ?_
    · refine (bind_ok (keyword_gap (by decide) hb0 (wordEnd_gap hb1))).trans ?_
      refine (bind_ok hid).trans (bind_error ?_)
      exact sign_gap_error hb2.1 (sign_error rfl (blank_solid (by decide) _) (by decide))
    · refine (bind_ok (keyword_gap (by decide) hb0 (wordEnd_gap hb1))).trans ?_
      refine (bind_ok hid).trans ?_
      refine (bind_ok (sign_blank hb2.1 (sign_ok _ rfl (by decide) (by decide)))).trans (cut_ok ?_)
      obtain ⟨_, i2⟩ := fields_ok ih fs s1 b3 (b4 ++ rest) hfs h1 hb3 (by simp at hn ⊢; omega)
      refine (bind_ok i2.many0).trans ?_
      exact (bind_ok (sign_blank hb3 (sign_open' '}' _ (by decide) (by decide)))).trans rfl
  | alias_ x t =>
    obtain ⟨hx, ht⟩ := h
    simp only [printTypeDefinition, List.append_assoc, List.cons_append, List.nil_append,
      fills_soft, fills_txt, fills_gap, fills_append, fills_nil] at hs
    obtain ⟨b0, _, rfl, hb0, _, rfl, b1, _, rfl, hb1, _, rfl, b2, _, rfl, hb2, _, rfl, b3, _, rfl, hb3,
      s1, _, rfl, h1, b4, _, rfl, hb4, rfl⟩ := hs
    simp only [List.append_assoc, List.append_nil] at hn ⊢
    refine ⟨⟨b4, hb4.1, ?_, by simp; omega⟩,
      (head_keyword hk (by decide) (wordEnd_gap hb1)).append hb0⟩
    refine orElse_ok ?_
    refine (bind_ok (keyword_gap (by decide) hb0 (wordEnd_gap hb1))).trans ?_
    refine (bind_ok (a := x) (r := b2 ++ ("=".toList ++ (b3 ++ (s1 ++ (b4 ++ rest))))) ?_).trans ?_
    · rw [skips_identifier.append hb1.1]
      exact identifier_ok hx (wordEnd_gap hb2)
    refine (bind_ok (sign_equal_gap hb2.1 hb3)).trans ?_
    refine (bind_ok (cut_ok (a := t) (r := b4 ++ rest) ?_)).trans rfl
    rw [ih.types.skips.append hb3.1]
    exact ih.types.type t s1 _ ht h1 (hr.typeEnd hb4) (by simp at hn ⊢; omega)

/-! ## Functions -/

theorem function_ok {g : G} {n : Nat} (ih : ExprInv g n) {d : FunctionDefinition}
    (h : IsIdentifier d.name ∧ d.lambda.expression.Plain) {s rest : List Char}
    (hs : Fills (printFunction d) s) {ks : List Name}
    (hk : "foreign".toList ∈ ks) (hn : (s ++ rest).length ≤ n) :
    (∃ b, Blank b ∧ functionDefinition g (s ++ rest) = .ok d (b ++ rest) ∧
      (b ++ rest).length < (s ++ rest).length) ∧ Head ks (s ++ rest) := by
  obtain ⟨x, l, f⟩ := d
  obtain ⟨hx, hl⟩ := h
  simp only at hx hl
  simp only [printFunction, List.append_assoc, List.cons_append, List.nil_append, fills_soft,
    fills_txt, fills_gap, fills_append, fills_nil] at hs
  obtain ⟨b0, _, rfl, hb0, s1, _, rfl, h1, _, rfl, b1, _, rfl, hb1, _, rfl, b2, _, rfl, hb2, s2, _,
    rfl, h2, b3, _, rfl, hb3, rfl⟩ := hs
  simp only [List.append_assoc, List.append_nil] at hn ⊢
  have hend : ∀ (b : List Char) (f : Option CallingConvention), Blank b → (do
      let x ← identifier
      sign "=".toList
      let l ← cut (lambda g)
      pure (⟨x, l, f⟩ : FunctionDefinition) : Parser FunctionDefinition)
      (b ++ (x ++ (b1 ++ ("=".toList ++ (b2 ++ (s2 ++ (b3 ++ rest))))))) =
        .ok ⟨x, l, f⟩ (b3 ++ rest) := by
    intro b f hb
    refine (bind_ok (a := x) (r := b1 ++ ("=".toList ++ (b2 ++ (s2 ++ (b3 ++ rest))))) ?_).trans ?_
    · rw [skips_identifier.append hb]
      exact identifier_ok hx (wordEnd_gap hb1)
    refine (bind_ok (sign_equal_gap hb1.1 hb2)).trans ?_
    refine (bind_ok (cut_ok (a := l) (r := b3 ++ rest) ?_)).trans rfl
    have hsk : Skips (lambda g) := (skips_sign _).bind _
    rw [hsk.append hb2.1]
    exact lambda_ok ih hl h2 (by simp at hn ⊢; omega)
  refine ⟨⟨b3, hb3.1, ?_, by simp; omega⟩, ?_⟩
  · cases f with
    | none =>
      have : s1 = [] := h1
      subst this
      refine (bind_ok (opt_error (bind_error ?_))).trans (hend b0 none hb0)
      rw [(skips_keyword _).append hb0, List.nil_append]
      exact keyword_identifier (by decide) hx (wordEnd_gap hb1)
    | some c =>
      cases c with
      | native =>
        simp only [fills_gap, fills_txt, fills_nil] at h1
        obtain ⟨_, rfl, b4, _, rfl, hb4, rfl⟩ := h1
        simp only [List.append_assoc, List.append_nil, List.nil_append]
        refine (bind_ok (opt_ok (a := .native) (r := b4 ++ (x ++ (b1 ++ ("=".toList ++ (b2 ++
          (s2 ++ (b3 ++ rest))))))) ?_)).trans (hend b4 (some .native) hb4.1)
        refine (bind_ok (keyword_gap (by decide) hb0 (wordEnd_gap hb4))).trans ?_
        exact (bind_ok (opt_error (convention_identifier hb4.1 hx))).trans rfl
      | c =>
        simp only [fills_gap, fills_txt, fills_nil] at h1
        obtain ⟨_, rfl, b4, _, rfl, hb4, _, rfl, b5, _, rfl, hb5, rfl⟩ := h1
        simp only [List.append_assoc, List.append_nil, List.nil_append]
        refine (bind_ok (opt_ok (a := .c) (r := b5 ++ (x ++ (b1 ++ ("=".toList ++ (b2 ++
          (s2 ++ (b3 ++ rest))))))) ?_)).trans (hend b5 (some .c) hb5.1)
        refine (bind_ok (keyword_gap (by decide) hb0 (wordEnd_gap hb4))).trans ?_
        exact (bind_ok (opt_ok (conventionC_ok hb4.1))).trans rfl
  · refine Head.append hb0 ?_
    cases f with
    | none =>
      have : s1 = [] := h1
      subst this
      rw [List.nil_append]
      exact head_identifier hx (wordEnd_gap hb1)
    | some c =>
      cases c with
      | native =>
        simp only [fills_gap, fills_txt, fills_nil] at h1
        obtain ⟨_, rfl, b4, _, rfl, hb4, rfl⟩ := h1
        simp only [List.append_assoc]
        exact head_keyword hk (by decide) (wordEnd_gap hb4)
      | c =>
        simp only [fills_gap, fills_txt, fills_nil] at h1
        obtain ⟨_, rfl, b4, _, rfl, hb4, _⟩ := h1
        simp only [List.append_assoc]
        exact head_keyword hk (by decide) (wordEnd_gap hb4)

/-! ## Modules -/

theorem import_foreign {b b' s : List Char} (hb : Blank b) (hb' : Blank b' ∧ b' ≠ [])
    (hs : WordEnd s) : import_ (b ++ ("import".toList ++ (b' ++ ("foreign".toList ++ s)))) = .error := by
  refine (bind_ok (keyword_gap (by decide) hb (wordEnd_gap hb'))).trans (bind_error ?_)
  rw [show modulePath = token _ from rfl, (skips_token _).append hb'.1]
  have hbl : blank ("foreign".toList ++ s) = "foreign".toList ++ s := blank_solid (by decide) _
  unfold token
  rw [hbl]
  refine (orElse_error (bind_error ?_)).trans ?_
  · unfold identifier token
    rw [hbl]
    exact identifier_keyword (by decide) hs
  · exact bind_error (many1_error (bind_error (tag_quote_error (c := 'f') (by decide))))

theorem Skips.optBind {α β : Type} {p : Parser α} (h : Skips p) {f : Option α → Parser β}
    (hf : Skips (f none)) : Skips (opt p >>= f) := by
  intro s
  show (opt p s).bind f = (opt p (blank s)).bind f
  have e := h s
  unfold opt
  rw [← e]
  cases p s with
  | ok a r => rfl
  | error => exact hf s
  | failure => rfl
  | fuel => rfl

theorem skips_function (g : G) : Skips (functionDefinition g) :=
  ((skips_keyword _).bind _).optBind (skips_identifier.bind _)

theorem module_ok {n : Nat} {m : Module} (h : m.Plain) {s : List Char}
    (hs : Formatted m s) (hn : s.length ≤ n) :
    ∃ r, Blank r ∧ module_ (grammar n) s = .ok m.sorted r := by
  have ih := exprInv n
  obtain ⟨h1, h2, h3, h4⟩ := h
  have e : (orderedImports m.imports).map printImport =
      m.sorted.imports.map printSortedImport := by
    simp only [Module.sorted, List.map_map]
    exact List.map_congr_left fun i _ => printImport_eq i
  have h1' : ∀ i ∈ m.sorted.imports, PlainImport i := by
    intro i hi
    simp only [Module.sorted, List.mem_map] at hi
    obtain ⟨j, hj, rfl⟩ := hi
    refine plainImport_sorted (h1 j ?_)
    simp only [orderedImports, sortImports, List.mem_append] at hj
    rcases hj with hj | hj
    · exact (List.mem_filter.1 ((List.mergeSort_perm _ _).mem_iff.1 hj)).1
    · exact (List.mem_filter.1 ((List.mergeSort_perm _ _).mem_iff.1 hj)).1
  simp only [Formatted, printModule, fills_append, List.append_assoc, fills_soft, fills_nil, e] at hs
  obtain ⟨s1, _, rfl, i1, s2, _, rfl, i2, s3, _, rfl, i3, s4, _, rfl, i4, b, _, rfl, hb, rfl⟩ := hs
  simp only [List.append_nil] at hn ⊢
  have hbl : blank b = [] := by
    have := blank_append hb []
    simpa [show blank [] = [] from rfl] using this
  have hb0 : blank ([] : List Char) = [] := rfl
  let all : List Name := ["import".toList, "type".toList, "foreign".toList]
  -- functions
  have fn := fun b0 (hb0 : Blank b0) => items_ok (ks := ["foreign".toList]) (n := n)
    (p := functionDefinition (grammar n)) (pr := printFunction) (skips_function _) m.functions
    (fun d hd s rest hs _ hn => function_ok ih (h4 d hd) hs (by simp) hn) b0 s4 b hb0 i4
    (by
      rw [skips_function _ b, hbl]
      rfl) (.inl hbl) (by simp at hn ⊢; omega)
  have t4 := (fn [] .nil).1
  -- types
  have ty := fun b0 (hb0 : Blank b0) => items_ok (ks := ["type".toList, "foreign".toList]) (n := n)
    (p := orElse (typeAlias (grammar n)) (recordDefinition (grammar n))) (pr := printTypeDefinition)
    (Skips.orElse ((skips_keyword _).bind _) ((skips_keyword _).bind _)) m.types
    (fun d hd s rest hs hr hn => typeDefinition_ok ih (h3 d hd) hs hr (by simp) hn) b0 s3 (s4 ++ b)
    hb0 i3
    (by
      have := t4.keyword (k := "type".toList) (by decide) (by decide)
      exact (orElse_error (bind_error this)).trans (bind_error this))
    (t4.mono (by simp)) (by simp at hn ⊢; omega)
  have t3 := (ty [] .nil).1
  -- foreign imports
  have fi := fun b0 (hb0 : Blank b0) => items_ok (ks := all) (n := n)
    (p := foreignImport (grammar n)) (pr := printForeignImport) ((skips_keyword _).bind _)
    m.foreignImports
    (fun d hd s rest hs hr hn => foreignImport_ok ih (h2 d hd) hs hr (by simp [all]) hn) b0 s2
    (s3 ++ (s4 ++ b)) hb0 i2
    (bind_error (t3.keyword (k := "import".toList) (by decide) (by decide)))
    (t3.mono (by decide)) (by simp at hn ⊢; omega)
  have t2 := (fi [] .nil).1
  -- imports
  have noImport : import_ (s2 ++ (s3 ++ (s4 ++ b))) = .error := by
    cases hf : m.foreignImports with
    | nil =>
      rw [hf] at i2
      have : s2 = [] := i2
      subst this
      rw [List.nil_append]
      exact bind_error (t3.keyword (k := "import".toList) (by decide) (by decide))
    | cons i is =>
      rw [hf] at i2
      simp only [List.map_cons, List.flatten_cons, printForeignImport, List.append_assoc,
        List.cons_append, List.nil_append, fills_soft, fills_txt, fills_gap] at i2
      obtain ⟨b0, _, rfl, hb0, _, rfl, b1, _, rfl, hb1, r, rfl, j⟩ := i2
      simp only [List.append_assoc]
      refine import_foreign hb0 hb1 ?_
      cases hc : i.convention with
      | native =>
        simp only [hc, List.nil_append, fills_gap] at j
        obtain ⟨b2, _, rfl, hb2, _⟩ := j
        rw [List.append_assoc]
        exact wordEnd_gap hb2
      | c =>
        simp only [hc, List.cons_append, fills_gap] at j
        obtain ⟨b2, _, rfl, hb2, _⟩ := j
        rw [List.append_assoc]
        exact wordEnd_gap hb2
  obtain ⟨_, r1, k1, l1⟩ := items_ok (ks := all) (n := n) (p := import_) (pr := printSortedImport)
    ((skips_keyword _).bind _) m.sorted.imports
    (fun i hi s rest hs hr hn => import_ok (h1' i hi) hs hr (by simp [all]) (by decide))
    [] s1 (s2 ++ (s3 ++ (s4 ++ b))) .nil i1 noImport t2 hn
  obtain ⟨_, r2, k2, l2⟩ := fi r1 k1
  obtain ⟨_, r3, k3, l3⟩ := ty r2 k2
  obtain ⟨_, r4, k4, l4⟩ := fn r3 k3
  refine ⟨r4 ++ b, k4.append hb, ?_⟩
  refine (bind_ok l1.many0).trans ((bind_ok l2.many0).trans ((bind_ok l3.many0).trans
    ((bind_ok l4.many0).trans rfl)))

/-- A rendering of a module is parsed to this module, with its imports sorted. -/
theorem parse_ok {m : Module} (h : m.Plain) {s : List Char} (hs : Formatted m s) :
    parse s = some m.sorted := by
  obtain ⟨r, hb, h'⟩ := module_ok h hs (Nat.le_succ s.length)
  have hbl : blank r = [] := by
    have := blank_append hb []
    simpa [show blank [] = [] from rfl] using this
  unfold parse
  rw [h']
  simp [hbl]

end Verif.Grammar
