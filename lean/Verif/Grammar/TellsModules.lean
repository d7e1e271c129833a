import Verif.Grammar.TellsExpressions

/-! What the documents of modules write. -/

namespace Verif.Grammar

/-- In broken lines, the text of the document ends with a line break. -/
def EndsLine (d : Doc) : Prop := ∀ n (w : Writer), ∃ s, (d.write true n w).1 = s ++ ['\n']

theorem endsLine_line : EndsLine .line := fun _ w => ⟨w.suffixes.flatten, rfl⟩

theorem EndsLine.seq {e : Doc} (he : EndsLine e) (d : Doc) : EndsLine (.seq d e) := by
  intro n w
  obtain ⟨s, hs⟩ := he n (d.write true n w).2
  exact ⟨(d.write true n w).1 ++ s, by simp [Doc.write, hs]⟩

theorem EndsLine.end {d : Doc} (hd : EndsLine d) : EndsLine (.seq d .empty) := by
  intro n w
  obtain ⟨s, hs⟩ := hd n w
  exact ⟨s, by simp [Doc.write, hs]⟩

theorem endsLine_cat_line : ∀ ds : List Doc, EndsLine (.cat (ds ++ [.line]))
  | [] => endsLine_line.end
  | d :: ds => (endsLine_cat_line ds).seq d

theorem endsLine_comment (t : List Char) {x : Doc} (hx : x = .line ∨ x = .empty) :
    EndsLine (.cat [.str ['#'], .str t, .brk true .line, x]) := by
  refine EndsLine.seq (EndsLine.seq ?_ _) _
  intro n w
  rcases hx with rfl | rfl
  · exact (endsLine_line.end.seq (.brk true .line)) n w
  · refine ⟨w.suffixes.flatten, ?_⟩
    simp [Doc.write, Doc.cat]

theorem endsLine_comments : ∀ (cs : List Comment) (n : Nat) (c : Comment),
    EndsLine (.cat (allComments (c :: cs) n))
  | [], n, c => EndsLine.end (endsLine_comment _ (lineOrEmpty _))
  | d :: cs, n, c => (endsLine_comments cs n d).seq _

/-- The document of a definition: it ends with a line, and it may have comments and empty lines in
front of it. -/
structure Item (d : Doc) (ps : List Piece) (xs : List (List Char)) : Prop where
  tells : Tells true d ps xs
  flushes : Flushes d
  lines : 0 < d.countLines true
  soft : ∃ qs, ps = .soft :: qs
  ends : EndsLine d

/-- Documents of definitions. -/
inductive Items : List Doc → List (List Piece) → List (List Char) → Prop where
  | nil : Items [] [] []
  | cons {d ds p ps xs ys} : Item d p xs → Items ds ps ys → Items (d :: ds) (p :: ps) (xs ++ ys)

/-- A section of a module. -/
inductive Section : Doc → List Piece → List (List Char) → Prop where
  | empty {d} : d.countLines true = 0 → Section d [] []
  | some {d ps xs} : Item d ps xs → Section d ps xs

theorem flushes_cat_line : ∀ ds : List Doc, Flushes (.cat (ds ++ [.line]))
  | [] => flushes_line.keep keeps_empty
  | d :: ds => (flushes_cat_line ds).seq d

theorem lines_cat_line : ∀ ds : List Doc, 0 < (Doc.cat (ds ++ [.line])).countLines true
  | [] => by decide
  | d :: ds => by
    have := lines_cat_line ds
    show 0 < d.countLines true + (Doc.cat (ds ++ [.line])).countLines true
    omega

/-- A document that ends with a line. -/
theorem item_of {ds : List Doc} {qs : List Piece} {xs : List (List Char)}
    (h : Tells true (.cat (ds ++ [.line])) (.soft :: qs) xs) :
    Item (.cat (ds ++ [.line])) (.soft :: qs) xs :=
  ⟨h, flushes_cat_line ds, lines_cat_line ds, ⟨qs, rfl⟩, endsLine_cat_line ds⟩

/-- Two documents of definitions, or a line between them. -/
theorem Item.append {d e : Doc} {ps qs : List Piece} {xs ys : List (List Char)} (hd : Item d ps xs)
    (he : Item e qs ys) : Item (.seq d e) (ps ++ qs) (xs ++ ys) := by
  obtain ⟨rs, rfl⟩ := hd.soft
  refine ⟨hd.tells.seq he.tells (fun _ => .inl hd.flushes), he.flushes.seq d, ?_, ⟨rs ++ qs, rfl⟩,
    he.ends.seq d⟩
  have := hd.lines
  show 0 < d.countLines true + e.countLines true
  omega

theorem Item.end {d : Doc} {ps : List Piece} {xs : List (List Char)} (hd : Item d ps xs) :
    Item (.seq d .empty) ps xs := by
  refine ⟨(hd.tells.and (tells_empty _)).cast (by simp) (by simp), hd.flushes.keep keeps_empty, ?_,
    hd.soft, hd.ends.end⟩
  have := hd.lines
  show 0 < d.countLines true + 0
  omega

theorem Item.line {d : Doc} {ps : List Piece} {xs : List (List Char)} (hd : Item d ps xs) :
    Item (.seq .line d) ps xs := by
  obtain ⟨rs, rfl⟩ := hd.soft
  refine ⟨?_, hd.flushes.seq _, ?_, ⟨rs, rfl⟩, hd.ends.seq _⟩
  · exact ((tells_line true).seq hd.tells (fun _ => .inl flushes_line)).wider (by
      have := wider_head (wider_gap_soft.trans wider_gap) rs
      simpa using this)
  · show 0 < 1 + d.countLines true
    omega

theorem Items.item : ∀ {ds pss xs}, Items ds pss xs → ds ≠ [] → Item (.cat ds) pss.flatten xs
  | _, _, _, .nil, h => absurd rfl h
  | _, _, _, .cons hd .nil, _ => by
    rw [List.flatten_cons, List.flatten_nil, List.append_nil, List.append_nil]
    exact hd.end
  | _, _, _, .cons hd (.cons hd' h), _ => hd.append (Items.item (.cons hd' h) (by simp))

theorem Items.items : ∀ {ds pss xs}, Items ds pss xs → ds ≠ [] →
    Item (.cat (Doc.intersperse .line ds)) pss.flatten xs
  | _, _, _, .nil, h => absurd rfl h
  | _, _, _, .cons hd .nil, _ => by
    rw [List.flatten_cons, List.flatten_nil, List.append_nil, List.append_nil]
    exact hd.end
  | _, _, _, .cons hd (.cons hd' h), _ => hd.append (Items.items (.cons hd' h) (by simp)).line

theorem Items.section {ds pss xs} (h : Items ds pss xs) : Section (.cat ds) pss.flatten xs := by
  cases h with
  | nil => exact .empty rfl
  | cons hd h => exact .some (Items.item (.cons hd h) (by simp))

theorem Items.lines {ds pss xs} (h : Items ds pss xs) :
    Section (.cat (Doc.intersperse .line ds)) pss.flatten xs := by
  cases h with
  | nil => exact .empty rfl
  | cons hd h => exact .some (Items.items (.cons hd h) (by simp))

/-- Sections together: nothing yet, or definitions. -/
inductive Sections : Doc → List Piece → List (List Char) → Prop where
  | empty : Sections .empty [] []
  | some {d ps xs} : Item d ps xs → Sections d ps xs

theorem Sections.cast {d : Doc} {ps qs : List Piece} {xs ys : List (List Char)}
    (h : Sections d ps xs) (hp : ps = qs) (hx : xs = ys) : Sections d qs ys := hp ▸ hx ▸ h

theorem addSection_sections {all d : Doc} {ps qs : List Piece} {xs ys : List (List Char)}
    (ha : Sections all ps xs) (hd : Section d qs ys) :
    Sections (addSection all d) (ps ++ qs) (xs ++ ys) := by
  unfold addSection
  cases hd with
  | empty h => simpa [h] using ha
  | some hd =>
    rw [if_neg (by have := hd.lines; omega)]
    refine .some ?_
    cases ha with
    | empty =>
      obtain ⟨rs, rfl⟩ := hd.soft
      refine ⟨((tells_empty true).seq (hd.end.tells) (fun _ => .inr ⟨rfl, keeps_empty⟩)).cast rfl rfl,
        hd.end.flushes.seq _, ?_, ⟨rs, rfl⟩, hd.end.ends.seq _⟩
      have := hd.lines
      show 0 < 0 + (d.countLines true + 0)
      omega
    | some ha =>
      rw [if_neg (by have := ha.lines; omega)]
      obtain ⟨rs, rfl⟩ := hd.soft
      have h1 := (ha.append hd.end.line)
      refine ⟨?_, hd.end.flushes.seq _, ?_, (ha.append hd).soft, hd.end.ends.seq _⟩
      · have h2 := ha.tells.and ((tells_line false).and (tells_empty _))
        have hf : Flushes (.seq all (.seq .line .empty)) := (flushes_line.keep keeps_empty).seq all
        refine ((h2.seq hd.end.tells (fun _ => .inl hf)).cast (ys := xs ++ ys) rfl (by simp)).wider ?_
        have := (Wider.refl ps).append (wider_head (wider_gap_soft.trans wider_gap) rs)
        simpa using this
      · have := hd.lines
        show 0 < _ + (d.countLines true + 0)
        omega

/-! ## Definitions -/

theorem mapDocs_runs {α : Type} {f : α → F Doc} {g : α → List Piece} : ∀ (as : List α),
    (∀ a ∈ as, Runs (f a) fun d xs => Item d (g a) xs) →
    Runs (mapDocs f as) fun ds xs => Items ds (as.map g) xs
  | [], _ => .pure .nil
  | a :: as, h => by
    simp only [List.mem_cons, forall_eq_or_imp] at h
    refine h.1.bind fun d xs hd => (mapDocs_runs as h.2).bind fun ds ys hds => .pure ?_
    rw [List.append_nil]
    exact .cons hd hds

theorem pathDoc_tells {p : ModulePath} (h : PlainPath p) :
    Tells false (pathDoc p) (printPath p) [] := by
  have hq := tells_lit "'" (ps := [text "'"]) rfl (by decide) false
  cases p with
  | external x cs =>
    exact ((tells_txt h.1.quiet false).and (hq.and (((eachStr fun c hc => (h.2.2 c hc).1.quiet).join
      hq).and (tells_empty _)))).cast (by simp [printPath]) rfl
  | internal cs =>
    exact (hq.and (((eachStr fun c hc => (h.2 c hc).quiet).join hq).and (tells_empty _))).cast
      (by simp [printPath]) rfl

theorem importDoc_runs (l : Layout) (i : Import × Path) (h : PlainImport i.1) :
    Runs (importDoc l i) fun d xs => Item d (printImport i.1) xs := by
  obtain ⟨i, p⟩ := i
  obtain ⟨h1, h2, h3⟩ := h
  refine (blockComment_runs _).bind fun b xs hb => .pure (item_of (ds := [_, _, _, _, _]) ?_)
  have ha : Tells false (match i.alias? with
      | none => Doc.empty
      | some a => .str (" as ".toList ++ a)) (match i.alias? with
      | none => []
      | some a => [.gap, text "as", .gap, .txt a]) [] := by
    cases hi : i.alias? with
    | none => exact tells_empty _
    | some a =>
      exact tells_str (fills_append (ps := [.gap, text "as", .gap]).mpr ⟨_, _, rfl,
        fillsB_spec _ _ rfl, fills_one.mpr (show Fill (.txt a) a from rfl)⟩) (quiet_append (by decide) (h2 a hi).quiet).scan _
  have hn : Tells false (if i.names.isEmpty then Doc.empty
      else .cat [lit " { ",
        .cat (Doc.intersperse (lit ", ") ((i.names.mergeSort nameLe).map .str)), lit " }"])
      (if i.names.isEmpty then []
      else [.gap, text "{", .gap] ++
        join comma ((i.names.mergeSort nameLe).map fun x => [.txt x]) ++ [.gap, text "}"]) [] := by
    split
    · exact tells_empty _
    · have hx : ∀ x ∈ i.names.mergeSort nameLe, Quiet x := fun x hx =>
        (h3 x ((List.mergeSort_perm _ _).mem_iff.mp hx)).quiet
      exact ((tells_lit " { " (ps := [.gap, text "{", .gap]) rfl (by decide) false).and
        (((eachStr hx).join (tells_lit ", " (ps := comma) rfl (by decide) false)).and
        ((tells_lit " }" (ps := [.gap, text "}"]) rfl (by decide) false).and (tells_empty _)))).cast
        (by simp) rfl
  have := (hb.1.and ((tells_lit "import " (ps := [text "import", .gap]) rfl (by decide) false).and
    ((pathDoc_tells h1).and (ha.and (hn.and ((tells_line false).and (tells_empty _)))))))
  refine this.cast ?_ (by simp)
  simp [printImport]
  rfl

theorem foreignImportDoc_runs (l : Layout) (i : ForeignImport × Path) (h : IsIdentifier i.1.name)
    (ht : i.1.type.Made) : Runs (foreignImportDoc l i) fun d xs => Item d (printForeignImport i.1) xs := by
  obtain ⟨i, p⟩ := i
  refine (blockComment_runs _).bind fun b xs hb => .pure (item_of (ds := [_, _, _, _, _, _, _]) ?_)
  have hc : Tells false (match i.convention with
      | .c => lit " \"c\""
      | .native => Doc.empty) (match i.convention with
      | .c => [.gap, text "\"c\""]
      | .native => []) [] := by
    cases i.convention with
    | c =>
      exact tells_str (fillsB_spec _ _ rfl) (.char (by decide) (by decide)
        (Scan.string (t := ['c']) ⟨[['c']], rfl, by simp [IsStringPiece]⟩ .nil)) _
    | native => exact tells_empty _
  have hs := tells_lit " " (ps := [.gap]) rfl (by decide) false
  have := (hb.1.and ((tells_lit "import foreign" (ps := [text "import", .gap, text "foreign"]) rfl
    (by decide) false).and (hc.and (hs.and ((tells_txt h.quiet false).and (hs.and
    ((typeDoc_tells l (0 :: p) ht).and ((tells_line false).and (tells_empty _)))))))))
  exact this.cast (by simp [printForeignImport]; rfl) (by simp)

theorem fieldDocs_runs (l : Layout) (p : Path) : ∀ (fs : List (Name × Ty)) (i : Nat),
    (∀ a ∈ fs, IsIdentifier a.1 ∧ a.2.Made) →
    Runs (fieldDocs l p i fs) fun ds xs => Tells false (.cat ds)
      (fs.map fun f => .gap :: printTyped f).flatten xs ∧ (fs = [] → xs = [])
  | [], _, _ => .pure ⟨tells_empty _, fun _ => rfl⟩
  | a :: as, i, h => by
    simp only [List.mem_cons, forall_eq_or_imp] at h
    refine (lineComment_runs (.pure (typed_tells l (0 :: i :: p) h.1.1 h.1.2))).bind fun d xs hd =>
      (fieldDocs_runs l p as (i + 1) h.2).bind fun ds ys hds => .pure ?_
    exact ⟨((line_then hd).and hds.1).cast (by simp) (by simp), by simp⟩

theorem typeDefinitionDoc_runs (l : Layout) (d : TypeDefinition × Path)
    (h : MadeTypeDefinition d.1) :
    Runs (typeDefinitionDoc l d) fun x xs => Item x (printTypeDefinition d.1) xs := by
  obtain ⟨d, p⟩ := d
  cases d with
  | record x fs =>
    refine (blockComment_runs _).bind fun b xs hb => (fieldDocs_runs l p fs 0 h.2).bind
      fun ds ys hds => .pure (item_of (ds := [_, _, _, _, _, _]) ?_)
    have hf : Tells false (if fs.isEmpty then Doc.empty else .cat [.indent (.cat ds), .line])
        ((fs.map fun f => .gap :: printTyped f).flatten ++ [.soft]) ys := by
      cases fs with
      | nil =>
        rw [hds.2 rfl]
        exact (tells_empty _).wider wider_nil
      | cons f fs =>
        exact ((hds.1.indent.and ((tells_line false).and (tells_empty _))).cast (ys := ys) rfl
          (by simp)).wider ((Wider.refl _).append wider_gap)
    have := (hb.1.and ((tells_lit "type " (ps := [text "type", .gap]) rfl (by decide) false).and
      ((tells_txt h.1.quiet false).and
      ((tells_lit " {" (ps := [.gap, text "{"]) rfl (by decide) false).and (hf.and
      ((tells_lit "}" (ps := [text "}"]) rfl (by decide) false).and
      ((tells_line false).and (tells_empty _))))))))
    exact this.cast (by simp [printTypeDefinition]) (by simp)
  | alias_ x t =>
    refine (blockComment_runs _).bind fun b xs hb => .pure (item_of (ds := [_, _, _, _, _]) ?_)
    have ht := typeDoc_tells l (0 :: p) h.2
    have hd : Tells false (if (typeDoc l (0 :: p) t).isBroken then
        Doc.indent (.cat [.line, typeDoc l (0 :: p) t]) else .cat [lit " ", typeDoc l (0 :: p) t])
        (.gap :: printType t) [] := by
      split
      · exact ((tells_line false).and (ht.and (tells_empty _))).indent.cast (by simp) rfl
      · exact ((tells_lit " " (ps := [.gap]) rfl (by decide) false).and (ht.and (tells_empty _))).cast
          (by simp) rfl
    have := (hb.1.and ((tells_lit "type " (ps := [text "type", .gap]) rfl (by decide) false).and
      ((tells_txt h.1.quiet false).and
      ((tells_lit " =" (ps := [.gap, text "="]) rfl (by decide) false).and (hd.and
      ((tells_line false).and (tells_empty _)))))))
    exact this.cast (by simp [printTypeDefinition]) (by simp)

theorem functionDoc_runs (l : Layout) (d : FunctionDefinition × Path) (h : IsIdentifier d.1.name)
    (he : d.1.lambda.expression.Made) :
    Runs (functionDoc l d) fun x xs => Item x (printFunction d.1) xs := by
  obtain ⟨d, p⟩ := d
  refine (blockComment_runs _).bind fun b xs hb => (compile_runs l _ (0 :: p) he).bind
    fun x ys hx => .pure (item_of (ds := [_, _, _, _, _]) ?_)
  have hc : Tells false (match d.export_ with
      | none => Doc.empty
      | some .c => .cat [lit "foreign ", lit "\"c\" "]
      | some .native => .cat [lit "foreign ", .empty]) (match d.export_ with
      | none => []
      | some .c => [text "foreign", .gap, text "\"c\"", .gap]
      | some .native => [text "foreign", .gap]) [] := by
    have hf := tells_lit "foreign " (ps := [text "foreign", .gap]) rfl (by decide) false
    split
    · exact tells_empty _
    · have : Tells false (lit "\"c\" ") [text "\"c\"", .gap] [] :=
        tells_str (fillsB_spec _ _ rfl)
          (Scan.string (t := ['c']) (s := [' ']) ⟨[['c']], rfl, by simp [IsStringPiece]⟩
            (.char (by decide) (by decide) .nil)) _
      exact hf.and (this.and (tells_empty _))
    · exact hf.and ((tells_empty _).and (tells_empty _))
  have := (hb.1.and (hc.and ((tells_txt h.quiet false).and
    ((tells_lit " = " (ps := [.gap, text "=", .gap]) rfl (by decide) false).and (hx.and
    ((tells_line false).and (tells_empty _)))))))
  exact this.cast (by simp [printFunction]; rfl) (by simp)

/-! ## Sections -/

theorem numbered_fst {α : Type} (p : Path) : ∀ (as : List α) (i : Nat),
    (numbered p i as).map Prod.fst = as
  | [], _ => rfl
  | a :: as, i => by simp [numbered, numbered_fst p as (i + 1)]

theorem numbered_mem {α : Type} {p : Path} {as : List α} {i : Nat} {a : α × Path}
    (h : a ∈ numbered p i as) : a.1 ∈ as := by
  have := List.mem_map_of_mem (f := Prod.fst) h
  rwa [numbered_fst] at this

/-- Definitions of a kind. -/
theorem numbered_runs {α : Type} {f : α × Path → F Doc} {g : α → List Piece} (p : Path)
    (as : List α) (h : ∀ a : α × Path, a.1 ∈ as → Runs (f a) fun d xs => Item d (g a.1) xs) :
    Runs (mapDocs f (numbered p 0 as)) fun ds xs => Items ds (as.map g) xs := by
  refine (mapDocs_runs (g := fun a => g a.1) _ fun a ha => h a (numbered_mem ha)).mono
    fun ds xs hds => ?_
  have : (numbered p 0 as).map (fun a => g a.1) = as.map g := by
    calc (numbered p 0 as).map (fun a => g a.1) = ((numbered p 0 as).map Prod.fst).map g := by simp
      _ = as.map g := by rw [numbered_fst]
  rwa [this] at hds

theorem importsDoc_runs (l : Layout) (p : Path) (is : List Import) (q : Import → Bool)
    (h : ∀ i ∈ is, PlainImport i) :
    Runs (importsDoc l ((numbered p 0 is).filter fun i => q i.1)) fun d xs =>
      Section d ((sortImports (is.filter q)).map printImport).flatten xs := by
  unfold importsDoc
  refine (mapDocs_runs (g := fun a => printImport a.1) _ fun a ha => importDoc_runs l a (h _ ?_)).bind
    fun ds xs hds => .pure ?_
  · exact numbered_mem (List.mem_filter.mp ((List.mergeSort_perm _ _).mem_iff.mp ha)).1
  rw [List.append_nil]
  have e : (((numbered p 0 is).filter fun i => q i.1).mergeSort
      fun i j => pathLe i.1.path j.1.path).map (fun a => printImport a.1) =
      (sortImports (is.filter q)).map printImport := by
    have h1 : (fun a : Import × Path => printImport a.1) = printImport ∘ Prod.fst := rfl
    rw [h1, ← List.map_map, List.map_mergeSort (s := fun i j : Import => pathLe i.path j.path)
      (fun _ _ _ _ => rfl)]
    congr 1
    unfold sortImports
    congr 1
    have h2 : (fun i : Import × Path => q i.1) = q ∘ Prod.fst := rfl
    rw [h2, ← List.filter_map, numbered_fst]
  rw [e] at hds
  exact hds.section

theorem remaining_runs : Runs remainingComment fun d xs =>
    Section d [.soft] xs ∨ (d.countLines true = 0 ∧ xs = []) := by
  intro cs
  refine ⟨cs, by simp [remainingComment], ?_⟩
  cases cs with
  | nil => exact .inr ⟨rfl, rfl⟩
  | cons c cs =>
    obtain ⟨h1, h2, h3⟩ := allComments_flushes cs 0 c
    exact .inl (.some ⟨allComments_tells _ _, h1, h3, ⟨[], rfl⟩, endsLine_comments cs 0 c⟩)

/-- The document of a module writes the pieces of the module and the comments, and all comments are
used. -/
theorem compileModule_runs (l : Layout) {m : Module} (h : m.Made) :
    Runs (compileModule l m) fun d xs => ∃ ps, Wider ps (printModule m) ∧ Sections d ps xs := by
  obtain ⟨h1, h2, h3, h4⟩ := h
  unfold compileModule
  refine (importsDoc_runs l [0] m.imports Import.isExternal h1).bind fun a xa ha =>
    (importsDoc_runs l [0] m.imports (fun i => !i.isExternal) h1).bind fun b xb hb =>
    (numbered_runs [1] m.foreignImports fun i hi =>
      foreignImportDoc_runs l i (h2 _ hi).1 (h2 _ hi).2).bind fun c xc hc =>
    (numbered_runs [2] m.types fun i hi => typeDefinitionDoc_runs l i (h3 _ hi)).bind fun d xd hd =>
    (numbered_runs [3] m.functions fun i hi => functionDoc_runs l i (h4 _ hi).1 (h4 _ hi).2).bind
      fun e xe he => remaining_runs.bind fun r xr hr => .pure ?_
  have hs := addSection_sections (addSection_sections (addSection_sections (addSection_sections
    (addSection_sections .empty ha) hb) hc.section) hd.lines) he.lines
  rcases hr with hr | ⟨hr, rfl⟩
  · refine ⟨_, ?_, addSection_sections hs hr |>.cast rfl (by simp)⟩
    simp only [printModule, orderedImports, List.nil_append, List.map_append, List.flatten_append]
    exact Wider.refl _
  · have h0 := addSection_sections hs (.empty hr)
    refine ⟨_, ?_, h0.cast (qs := ((orderedImports m.imports).map printImport).flatten ++
      (m.foreignImports.map printForeignImport).flatten ++
      (m.types.map printTypeDefinition).flatten ++
      (m.functions.map printFunction).flatten) (by simp [orderedImports]) (by simp)⟩
    unfold printModule
    intro s hs
    exact fills_append.mpr ⟨s, [], by simp, hs, fills_one.mpr .nil⟩

end Verif.Grammar
