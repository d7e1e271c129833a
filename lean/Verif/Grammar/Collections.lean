import Verif.Grammar.Conditionals

/-! Lists, maps and records: what is written is read back. -/

namespace Verif.Grammar

/-! ## Elements -/

theorem printAll_map (es : List Expr) : printAll es = es.map print := by
  induction es with
  | nil => rfl
  | cons e es ih => simp [printAll, ih]

theorem allPlain_iff (es : List Expr) : allPlain es ↔ ∀ e ∈ es, e.Plain := by
  induction es with
  | nil => simp [allPlain]
  | cons e es ih => simp [allPlain, ih]

/-- The text of an element of a list. -/
def printListElement : ListElement → List Piece
  | .multiple e => text "..." :: print e
  | .single e => print e

def ListElement.expr : ListElement → Expr
  | .multiple e => e
  | .single e => e

theorem printListElements_map (es : List ListElement) :
    printListElements es = es.map printListElement := by
  induction es with
  | nil => rfl
  | cons e es ih => cases e <;> simp [printListElements, printListElement, ih]

theorem allPlainListElements_iff (es : List ListElement) :
    allPlainListElements es ↔ ∀ e ∈ es, e.expr.Plain := by
  induction es with
  | nil => simp [allPlainListElements]
  | cons e es ih => cases e <;> simp [allPlainListElements, ListElement.expr, ih]

/-- The text of an element of a map. -/
def printMapElement : MapElement → List Piece
  | .multiple e => text "..." :: print e
  | .entry k v => print k ++ [text ":", .gap] ++ print v

def PlainMapElement : MapElement → Prop
  | .multiple e => e.Plain
  | .entry k v => k.Plain ∧ v.Plain

/-- The last expression of an element. -/
def MapElement.last : MapElement → Expr
  | .multiple e => e
  | .entry _ v => v

theorem printMapElements_map (es : List MapElement) :
    printMapElements es = es.map printMapElement := by
  induction es with
  | nil => rfl
  | cons e es ih => cases e <;> simp [printMapElements, printMapElement, ih]

theorem allPlainMapElements_iff (es : List MapElement) :
    allPlainMapElements es ↔ ∀ e ∈ es, PlainMapElement e := by
  induction es with
  | nil => simp [allPlainMapElements]
  | cons e es ih => cases e <;> simp [allPlainMapElements, PlainMapElement, ih, and_assoc]

/-- The text of a field. -/
def printField : Field → List Piece
  | .mk x e => [.txt x, text ":", .gap] ++ print e

def Field.expr : Field → Expr
  | .mk _ e => e

theorem printFields_map (fs : List Field) : printFields fs = fs.map printField := by
  induction fs with
  | nil => rfl
  | cons f fs ih => cases f; simp [printFields, printField, ih]

theorem allPlainFields_iff (fs : List Field) :
    allPlainFields fs ↔ ∀ f ∈ fs, IsIdentifier f.name ∧ f.expr.Plain := by
  induction fs with
  | nil => simp [allPlainFields]
  | cons f fs ih => cases f; simp [allPlainFields, Field.name, Field.expr, ih, and_assoc]

theorem elements_cons (p : List Piece) (ps : List (List Piece)) :
    elements (p :: ps) = p ++ ((ps.map fun q => comma ++ q).flatten ++ [.trail]) := by
  simp [elements, join_cons]

theorem sign_dots (s : List Char) : sign "...".toList ("...".toList ++ s) = .ok () s :=
  sign_ok s rfl (by decide) (by decide)

theorem wordEnd_char {c : Char} {s : List Char} (h : isWord c = false) : WordEnd (c :: s) := h

/-! ## Lists -/

theorem exprEnd_lead {e : Expr} {c : Char} {r : List Char} (h : ends c = true) (hc : c ≠ ':') :
    Lead (c :: r) ∧ ExprEnd e (c :: r) := by
  refine ⟨?_, exprEnd_char h⟩
  rcases ends_cases h with rfl | rfl | rfl | rfl | rfl | rfl
  · exact lead_cons (by decide) (by decide) (by decide) (by decide)
  · exact lead_cons (by decide) (by decide) (by decide) (by decide)
  · exact lead_cons (by decide) (by decide) (by decide) (by decide)
  · exact lead_cons (by decide) (by decide) (by decide) (by decide)
  · exact lead_cons (by decide) (by decide) (by decide) (by decide)
  · exact absurd rfl hc

/-- What follows an element of a list. -/
def ElementEnd (rest : List Char) : Prop := ∃ c r, rest = c :: r ∧ (c = ',' ∨ c = ']' ∨ c = '}')

theorem ElementEnd.exprEnd {e : Expr} {rest : List Char} (h : ElementEnd rest) :
    ExprEnd e rest := by
  obtain ⟨c, r, rfl, rfl | rfl | rfl⟩ := h <;> exact exprEnd_char (by decide)

theorem ElementEnd.lead {rest : List Char} (h : ElementEnd rest) : Lead rest := by
  obtain ⟨c, r, rfl, rfl | rfl | rfl⟩ := h <;>
    exact lead_cons (by decide) (by decide) (by decide) (by decide)

theorem listElement_ok {g : G} {n : Nat} (ih : ExprInv g n) {x : ListElement} (h : x.expr.Plain)
    {s rest : List Char} (hs : Fills (printListElement x) s) (hr : ElementEnd rest)
    (hn : (s ++ rest).length < n) : listElement g (s ++ rest) = .ok x rest := by
  cases x with
  | multiple e =>
    simp only [printListElement, fills_txt] at hs
    obtain ⟨s1, rfl, h1⟩ := hs
    simp only [List.append_assoc] at hn ⊢
    refine orElse_ok ((bind_ok (sign_dots _)).trans ?_)
    exact (bind_ok (cut_ok (ih.expression e s1 rest h h1 hr.exprEnd
      (by simp at hn ⊢; omega)))).trans rfl
  | single e =>
    simp only [printListElement] at hs
    refine (orElse_error (bind_error ?_)).trans ?_
    · exact (start_ok e s rest h hs hr.lead).starts.dots
    · exact (bind_ok (ih.expression e s rest h hs hr.exprEnd hn)).trans rfl

theorem skips_listElement {g : G} {n : Nat} (ih : ExprInv g n) : Skips (listElement g) :=
  .orElse ((skips_sign _).bind _) (ih.skips.bind _)

/-- The text after an element of a list. -/
theorem elements_rest (ps : List (List Piece)) {c : Char} (hc : c = ']' ∨ c = '}')
    {s r : List Char}
    (hs : Fills ((ps.map fun q => comma ++ q).flatten ++ [.trail]) s) : ElementEnd (s ++ c :: r) := by
  cases ps with
  | nil =>
    simp only [List.map_nil, List.flatten_nil, List.nil_append, fills_cons, fills_nil] at hs
    obtain ⟨a, b, rfl, ha, rfl⟩ := hs
    rcases ha with rfl | ⟨b, rfl, _⟩
    · exact ⟨c, r, rfl, .inr hc⟩
    · exact ⟨',', _, rfl, .inl rfl⟩
  | cons p ps =>
    simp only [List.map_cons, List.flatten_cons, comma, List.cons_append, fills_txt] at hs
    obtain ⟨s', rfl, _⟩ := hs
    exact ⟨',', _, rfl, .inl rfl⟩

theorem compBranch_error {g : G} {rest : List Char} (h : ElementEnd rest) :
    many1 (compBranch g) rest = .error := by
  obtain ⟨c, r, rfl, h⟩ := h
  refine many1_error (bind_error (keyword_error rfl (blank_solid ?_ _) ?_))
  · rcases h with rfl | rfl | rfl <;> decide
  · rcases h with rfl | rfl | rfl <;> decide

theorem closes_char {c : Char} {r : List Char} (h : c = ')' ∨ c = ']' ∨ c = '}') :
    Closes (c :: r) :=
  ⟨c, r, blank_solid (by rcases h with rfl | rfl | rfl <;> decide) _, h⟩

/-- The first character of an element of a list. -/
theorem listElement_start {x : ListElement} (h : x.expr.Plain) {s rest : List Char}
    (hs : Fills (printListElement x) s) (hr : Lead rest) :
    ∃ c r, s ++ rest = c :: r ∧ Solid c ∧ c ≠ '|' := by
  cases x with
  | multiple e =>
    simp only [printListElement, fills_txt] at hs
    obtain ⟨s1, rfl, h1⟩ := hs
    exact ⟨'.', _, rfl, by decide, by decide⟩
  | single e =>
    obtain ⟨c, r, e, hc⟩ := (start_ok e s rest h hs hr).starts.head
    exact ⟨c, r, e, hc.1, hc.2.2.2.1⟩

/-- Lists are read back, and comprehensions do not read them. -/
theorem list_ok {g : G} {n : Nat} (ih : ExprInv g n) {t : Ty} {es : List ListElement}
    (h : (Expr.list t es).Plain) {s rest : List Char} (hs : Fills (print (.list t es)) s)
    (hn : (s ++ rest).length ≤ n) :
    comprehension g (s ++ rest) = .error ∧ listLiteral g (s ++ rest) = .ok (.list t es) rest := by
  simp only [Expr.Plain, allPlainListElements_iff] at h
  simp only [print, printListElements_map, List.append_assoc, List.cons_append, fills_txt,
    fills_append] at hs
  obtain ⟨_, rfl, s1, _, rfl, h1, b, _, rfl, hb, s2, _, rfl, h2, _, rfl, rfl⟩ := hs
  simp only [List.append_assoc, List.append_nil] at hn ⊢
  have hblank : Blank b := by
    cases es with
    | nil => have : b = [] := hb; subst this; exact .nil
    | cons e es =>
      simp only [List.isEmpty_cons, Bool.false_eq_true, if_false, fills_gap, fills_nil] at hb
      obtain ⟨b1, _, rfl, hb, rfl⟩ := hb
      simpa using hb.1
  have htype : g.type (s1 ++ (b ++ (s2 ++ ("]".toList ++ rest)))) =
      .ok t (b ++ (s2 ++ ("]".toList ++ rest))) := by
    refine ih.types.type t s1 _ h.1 h1 ?_ (by simp at hn ⊢; omega)
    cases es with
    | nil =>
      have : b = [] := hb
      subst this
      have : s2 = [] := h2
      subst this
      exact typeEnd_char (by decide) (by decide) (by decide)
    | cons e es =>
      simp only [List.isEmpty_cons, Bool.false_eq_true, if_false, fills_gap, fills_nil] at hb
      obtain ⟨b1, _, rfl, hb, rfl⟩ := hb
      simp only [List.map_cons, elements_cons, fills_append] at h2
      obtain ⟨s3, s4, rfl, h3, h4⟩ := h2
      have hend := elements_rest (es.map printListElement) (c := ']') (r := rest) (.inl rfl)
        (s := s4) (by rw [fills_append]; exact h4)
      obtain ⟨c, r, e', hc⟩ := listElement_start (h.2 e (by simp)) h3 hend.lead
      rw [List.append_nil, List.append_assoc]
      have e'' : s3 ++ (s4 ++ ("]".toList ++ rest)) = c :: r := e'
      rw [e'']
      exact typeEnd_gap hb hc.1 hc.2
  refine ⟨?_, ?_⟩
  · refine (bind_ok (sign_ok _ rfl (by decide) (by decide))).trans ?_
    refine (bind_ok htype).trans ?_
    rw [bind_apply, ih.skips.append hblank, ← bind_apply]
    cases es with
    | nil =>
      have : s2 = [] := h2
      subst this
      exact bind_error (ih.error _ (closes_char (c := ']') (.inr (.inl rfl))) (by simp at hn ⊢; omega))
    | cons e es =>
      simp only [List.map_cons, elements_cons, fills_append] at h2
      obtain ⟨s3, s4, rfl, h3, h4⟩ := h2
      have hend := elements_rest (es.map printListElement) (c := ']') (r := rest) (.inl rfl)
        (s := s4) (by rw [fills_append]; exact h4)
      rw [List.append_assoc]
      simp only [List.append_assoc] at hn
      cases e with
      | multiple e =>
        simp only [printListElement, fills_txt] at h3
        obtain ⟨s5, rfl, _⟩ := h3
        exact bind_error (ih.dots _ _ (blank_solid (by decide) _) (by simp at hn ⊢; omega))
      | single e =>
        refine (bind_ok (ih.expression e s3 _ (h.2 (.single e) (by simp)) h3 hend.exprEnd ?_)).trans
          (bind_error (compBranch_error hend))
        simp at hn ⊢; omega
  · refine (bind_ok (sign_ok _ rfl (by decide) (by decide))).trans (cut_ok ?_)
    refine (bind_ok htype).trans ?_
    obtain ⟨b', hb', hl⟩ := elements_ok (el := listElement g) (pr := printListElement) (n := n)
      (End := fun _ => ElementEnd) (skips_listElement ih) es
      (fun y hy s rest hs he hn => listElement_ok ih (h.2 y hy) hs he hn)
      (fun y hy r => ⟨_, _, rfl, .inl rfl⟩)
      ("]".toList ++ rest)
      (fun y hy => ⟨']', rest, rfl, by simp⟩)
      (sign_error rfl (blank_solid (by decide) _) (by decide))
      ((orElse_error (bind_error (sign_error rfl (blank_solid (by decide) _) (by decide)))).trans
        (bind_error (ih.error _ (closes_char (c := ']') (.inr (.inl rfl))) (by simp at hn ⊢; omega))))
      b s2 hblank h2 (by simp at hn ⊢; omega)
    refine (bind_ok hl).trans ?_
    exact (bind_ok (sign_blank hb' (sign_ok _ rfl (by decide) (by decide)))).trans rfl

/-! ## Maps -/

theorem mapElement_ok {g : G} {n : Nat} (ih : ExprInv g n) {x : MapElement} (h : PlainMapElement x)
    {s rest : List Char} (hs : Fills (printMapElement x) s) (hr : ElementEnd rest)
    (hn : (s ++ rest).length < n) : mapElement g (s ++ rest) = .ok x rest := by
  cases x with
  | multiple e =>
    simp only [printMapElement, fills_txt] at hs
    obtain ⟨s1, rfl, h1⟩ := hs
    simp only [List.append_assoc] at hn ⊢
    refine (orElse_error (bind_error (ih.dots _ _ (blank_solid (by decide) _) hn))).trans ?_
    refine (bind_ok (sign_dots _)).trans ?_
    exact (bind_ok (cut_ok (ih.expression e s1 rest h h1 hr.exprEnd
      (by simp at hn ⊢; omega)))).trans rfl
  | entry k v =>
    simp only [printMapElement, List.append_assoc, List.cons_append, List.nil_append, fills_append,
      fills_txt, fills_gap] at hs
    obtain ⟨s1, _, rfl, h1, _, rfl, b, s2, rfl, hb, h2⟩ := hs
    simp only [List.append_assoc] at hn ⊢
    refine orElse_ok ?_
    refine (bind_ok (ih.expression k s1 _ h.1 h1 (exprEnd_char (by decide)) hn)).trans ?_
    refine (bind_ok (sign_ok _ rfl (by decide) (by decide))).trans ?_
    refine (bind_ok (cut_ok (a := v) (r := rest) ?_)).trans rfl
    rw [ih.skips.append hb.1]
    exact ih.expression v s2 rest h.2 h2 hr.exprEnd (by simp at hn ⊢; omega)

theorem mapElement_start {x : MapElement} (h : PlainMapElement x) {s rest : List Char}
    (hs : Fills (printMapElement x) s) (hr : Lead rest) :
    ∃ c r, s ++ rest = c :: r ∧ Solid c ∧ c ≠ '|' := by
  cases x with
  | multiple e =>
    simp only [printMapElement, fills_txt] at hs
    obtain ⟨s1, rfl, h1⟩ := hs
    exact ⟨'.', _, rfl, by decide, by decide⟩
  | entry k v =>
    simp only [printMapElement, List.append_assoc, List.cons_append, List.nil_append, fills_append,
      fills_txt, fills_gap] at hs
    obtain ⟨s1, _, rfl, h1, _, rfl, b, s2, rfl, hb, h2⟩ := hs
    simp only [List.append_assoc]
    have hst := start_ok k s1 [] h.1 h1 ⟨rfl, rfl, rfl⟩
    obtain ⟨c, r, e, hc⟩ := hst.starts.head
    rw [List.append_nil] at e
    rw [e]
    exact ⟨c, _, rfl, hc.1, hc.2.2.2.1⟩

/-- Maps are read back. -/
theorem map_ok {g : G} {n : Nat} (ih : ExprInv g n) {k v : Ty} {es : List MapElement}
    (h : (Expr.map k v es).Plain) {s rest : List Char} (hs : Fills (print (.map k v es)) s)
    (hn : (s ++ rest).length ≤ n) : mapLiteral g (s ++ rest) = .ok (.map k v es) rest := by
  simp only [Expr.Plain, allPlainMapElements_iff] at h
  simp only [print, printMapElements_map, List.append_assoc, List.cons_append, List.nil_append,
    fills_txt, fills_gap, fills_append] at hs
  obtain ⟨_, rfl, s0, _, rfl, h0, _, rfl, b0, _, rfl, hb0, s1, _, rfl, h1, b, _, rfl, hb, s2, _,
    rfl, h2, _, rfl, rfl⟩ := hs
  simp only [List.append_assoc, List.append_nil] at hn ⊢
  have hblank : Blank b := by
    cases es with
    | nil => have : b = [] := hb; subst this; exact .nil
    | cons e es =>
      simp only [List.isEmpty_cons, Bool.false_eq_true, if_false, fills_gap, fills_nil] at hb
      obtain ⟨b1, _, rfl, hb, rfl⟩ := hb
      simpa using hb.1
  have htype : g.type (s1 ++ (b ++ (s2 ++ ("}".toList ++ rest)))) =
      .ok v (b ++ (s2 ++ ("}".toList ++ rest))) := by
    refine ih.types.type v s1 _ h.2.1 h1 ?_ (by simp at hn ⊢; omega)
    cases es with
    | nil =>
      have : b = [] := hb
      subst this
      have : s2 = [] := h2
      subst this
      exact typeEnd_char (by decide) (by decide) (by decide)
    | cons e es =>
      simp only [List.isEmpty_cons, Bool.false_eq_true, if_false, fills_gap, fills_nil] at hb
      obtain ⟨b1, _, rfl, hb, rfl⟩ := hb
      simp only [List.map_cons, elements_cons, fills_append] at h2
      obtain ⟨s3, s4, rfl, h3, h4⟩ := h2
      have hend := elements_rest (es.map printMapElement) (c := '}') (r := rest) (.inr rfl)
        (s := s4) (by rw [fills_append]; exact h4)
      obtain ⟨c, r, e', hc⟩ := mapElement_start (h.2.2 e (by simp)) h3 hend.lead
      rw [List.append_nil, List.append_assoc]
      have e'' : s3 ++ (s4 ++ ("}".toList ++ rest)) = c :: r := e'
      rw [e'']
      exact typeEnd_gap hb hc.1 hc.2
  refine (bind_ok (sign_ok _ rfl (by decide) (by decide))).trans (cut_ok ?_)
  refine (bind_ok (ih.types.type k s0 _ h.1 h0 (typeEnd_char (by decide) (by decide) (by decide))
    (by simp at hn ⊢; omega))).trans ?_
  refine (bind_ok (sign_ok _ rfl (by decide) (by decide))).trans ?_
  refine (bind_ok ((ih.types.skips.append hb0.1 _).trans htype)).trans ?_
  obtain ⟨b', hb', hl⟩ := elements_ok (el := mapElement g) (pr := printMapElement) (n := n)
    (End := fun _ => ElementEnd) (.orElse (ih.skips.bind _) ((skips_sign _).bind _)) es
    (fun y hy s rest hs he hn => mapElement_ok ih (h.2.2 y hy) hs he hn)
    (fun y hy r => ⟨_, _, rfl, .inl rfl⟩)
    ("}".toList ++ rest)
    (fun y hy => ⟨'}', rest, rfl, by simp⟩)
    (sign_error rfl (blank_solid (by decide) _) (by decide))
    ((orElse_error (bind_error (ih.error _ (closes_char (c := '}') (.inr (.inr rfl))) (by simp at hn ⊢; omega)))).trans
      (bind_error (sign_error rfl (blank_solid (by decide) _) (by decide))))
    b s2 hblank h2 (by simp at hn ⊢; omega)
  refine (bind_ok hl).trans ?_
  exact (bind_ok (sign_blank hb' (sign_ok _ rfl (by decide) (by decide)))).trans rfl

/-! ## Records -/

theorem recordField_ok {g : G} {n : Nat} (ih : ExprInv g n) {f : Field}
    (h : IsIdentifier f.name ∧ f.expr.Plain) {s rest : List Char} (hs : Fills (printField f) s)
    (hr : ElementEnd rest) (hn : (s ++ rest).length < n) :
    recordField g (s ++ rest) = .ok f rest := by
  cases f with
  | mk x e =>
    simp only [printField, List.cons_append, List.nil_append, fills_txt, fills_gap] at hs
    obtain ⟨_, rfl, _, rfl, b, s1, rfl, hb, h1⟩ := hs
    simp only [List.append_assoc] at hn ⊢
    refine (bind_ok (identifier_ok h.1 (wordEnd_char (by decide)))).trans ?_
    refine (bind_ok (sign_ok _ rfl (by decide) (by decide))).trans ?_
    refine (bind_ok (cut_ok (a := e) (r := rest) ?_)).trans rfl
    rw [ih.skips.append hb.1]
    exact ih.expression e s1 rest h.2 h1 hr.exprEnd (by simp at hn ⊢; omega)

theorem distinct_of {fs : List Field} (h : (fs.map Field.name).Nodup) : distinct fs = true := by
  simpa [distinct] using h

/-- Records are read back. -/
theorem record_ok {g : G} {n : Nat} (ih : ExprInv g n) {x : Name} {r : Option Expr}
    {fs : List Field} (h : (Expr.record x r fs).Plain) {s rest : List Char}
    (hs : Fills (print (.record x r fs)) s) (hn : (s ++ rest).length ≤ n) :
    record g (s ++ rest) = .ok (.record x r fs) rest := by
  simp only [Expr.Plain, allPlainFields_iff] at h
  obtain ⟨hx, hr, hne, hf, hd⟩ := h
  obtain ⟨c0, t0, ex0, _⟩ := hx.head
  have hxl : 0 < x.length := by rw [ex0]; simp
  simp only [print, printFields_map, List.append_assoc, List.cons_append, List.nil_append,
    fills_txt, fills_soft, fills_append] at hs
  obtain ⟨_, rfl, _, rfl, b, _, rfl, hb, s1, _, rfl, h1, _, rfl, rfl⟩ := hs
  simp only [List.append_assoc, List.append_nil] at hn ⊢
  have hskip : Skips (recordField g) := skips_identifier.bind _
  have herr : recordField g ("}".toList ++ rest) = .error :=
    bind_error (identifier_error (blank_solid (by decide) _) (by decide) (by decide))
  have hel : ∀ y ∈ fs, ∀ s rest, Fills (printField y) s → ElementEnd rest →
      (s ++ rest).length < n → recordField g (s ++ rest) = .ok y rest :=
    fun y hy s rest hs he hn => recordField_ok ih (hf y hy) hs he hn
  refine (bind_ok (qualified_ok hx (nameEnd_cons (by decide)))).trans ?_
  refine (bind_ok (sign_ok _ rfl (by decide) (by decide))).trans ?_
  cases r with
  | none =>
    simp only [printRecord, List.nil_append] at h1
    obtain ⟨b', hb', hl⟩ := elements_ok (el := recordField g) (pr := printField) (n := n)
      (End := fun _ => ElementEnd) hskip fs hel (fun y hy r => ⟨_, _, rfl, .inl rfl⟩)
      ("}".toList ++ rest) (fun y hy => ⟨'}', rest, rfl, by simp⟩)
      (sign_error rfl (blank_solid (by decide) _) (by decide)) herr b s1 hb h1
      (by simp at hn ⊢; omega)
    refine (bind_ok (verify_ok (a := (none, fs)) (r := b' ++ ("}".toList ++ rest)) ?_
      (distinct_of hd))).trans ?_
    · refine (orElse_error (bind_error ?_)).trans ((bind_ok hl).trans rfl)
      refine sign_gap_error hb ?_
      cases fs with
      | nil =>
        have : s1 = [] := h1
        subst this
        exact sign_error rfl (blank_solid (by decide) _) (by decide)
      | cons f fs =>
        simp only [List.map_cons, elements_cons, fills_append] at h1
        obtain ⟨s2, _, rfl, h2, _⟩ := h1
        cases f with
        | mk y e =>
          simp only [printField, List.cons_append, fills_txt] at h2
          obtain ⟨_, rfl, _⟩ := h2
          have hy := (hf _ (List.mem_cons_self)).1
          simp only [Field.name] at hy
          obtain ⟨c, t, ey, hc⟩ := hy.head
          have hw : isWord c = true := hy.words c (by rw [ey]; simp)
          rw [ey]
          exact sign_error rfl (blank_solid (word_solid hw) _) (Ne.symm (word_ne hw (by decide)))
    · exact (bind_ok (sign_blank hb' (sign_ok _ rfl (by decide) (by decide)))).trans rfl
  | some e =>
    simp only [plainOption] at hr
    cases fs with
    | nil => exact absurd rfl (hne rfl)
    | cons f fs =>
      have : elements (printRecord (some e) ++ (f :: fs).map printField) =
          text "..." :: (print e ++ (comma ++ (join comma ((f :: fs).map printField) ++
            [.trail]))) := by
        simp [printRecord, elements, join]
      rw [this] at h1
      simp only [comma, List.cons_append, List.nil_append, fills_txt, fills_gap, fills_append] at h1
      obtain ⟨_, rfl, s2, _, rfl, h2, _, rfl, b1, _, rfl, hb1, s3, s4, rfl, h3, h4⟩ := h1
      simp only [List.append_assoc] at hn ⊢
      have htrail : s4 = [] ∨ (recordField g ("}".toList ++ rest) = .error ∧
          ∃ b, s4 = ',' :: b ∧ Blank b) := by
        simp only [fills_cons, fills_nil] at h4
        obtain ⟨a, _, rfl, ha, rfl⟩ := h4
        rw [List.append_nil]
        exact ha.imp id fun h => ⟨herr, h⟩
      obtain ⟨b', hb', hl⟩ := list1_ok (el := recordField g) (pr := printField) (n := n)
        (End := fun _ => ElementEnd) hskip f fs hel (fun y hy r => ⟨_, _, rfl, .inl rfl⟩)
        ("}".toList ++ rest) (fun y hy => ⟨'}', rest, rfl, by simp⟩)
        (sign_error rfl (blank_solid (by decide) _) (by decide)) (s3 ++ s4) ⟨s3, s4, rfl, h3, htrail⟩
        (by simp at hn ⊢; omega)
      refine (bind_ok (verify_ok (a := (some e, f :: fs)) (r := b' ++ ("}".toList ++ rest)) ?_
        (distinct_of hd))).trans ?_
      · refine orElse_ok ?_
        refine (bind_ok (sign_blank hb (sign_dots _))).trans (cut_ok ?_)
        refine (bind_ok (ih.expression e s2 _ hr h2 (exprEnd_char (by decide))
          (by simp at hn ⊢; omega))).trans ?_
        refine (bind_ok (sign_comma _)).trans ?_
        have hsk : Skips (list1 (sign ",".toList) (recordField g)) :=
          (separated1_skips hskip _).bind _
        refine (bind_ok (a := f :: fs) (r := b' ++ ("}".toList ++ rest)) ?_).trans rfl
        rw [hsk.append hb1.1, ← hl, List.append_assoc]
      · exact (bind_ok (sign_blank hb' (sign_ok _ rfl (by decide) (by decide)))).trans rfl

/-- A name is no record, if what follows does not make one of it. -/
theorem record_error {g : G} {x rest : List Char} (hx : IsQualified x) (hn : NameEnd rest)
    (hr : NotRecord rest) : record g (x ++ rest) = .error := by
  refine (bind_ok (qualified_ok hx hn)).trans ?_
  rcases sign_cases "{".toList rest with ⟨r, h⟩ | h
  · obtain ⟨h1, h2, h3⟩ := hr r h
    refine (bind_ok h).trans ?_
    have hf : recordField g r = .error := by
      rcases identifier_cases r with ⟨y, r', h'⟩ | h'
      · exact (bind_ok h').trans (bind_error (h3 y r' h'))
      · exact bind_error h'
    refine (bind_ok (verify_ok (a := (none, [])) (r := r) ?_ rfl)).trans (bind_error h2)
    refine (orElse_error (bind_error h1)).trans ?_
    refine (bind_ok (a := []) (r := r) ?_).trans rfl
    exact (bind_ok (a := []) ((orElse_error (bind_error hf)).trans rfl)).trans rfl
  · exact bind_error h

end Verif.Grammar
