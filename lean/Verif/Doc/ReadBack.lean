import Verif.Doc.Interface

/-
C71: the definitions of types that documentation shows can be read back.
-/

namespace Verif.Doc

open Verif.Grammar
open Verif.Front (isNamePublic)

/-- A module of one definition of a type. -/
def onlyType (d : TypeDefinition) : Grammar.Module := ⟨[], [], [d], []⟩

theorem fieldDocs_nil (l : Layout) (p : Path) : ∀ (fs : List (Name × Ty)) (i : Nat), ((fieldDocs l p i fs) []).2 = []
  | [], _ => rfl
  | x :: fs, i => by
    show ((fieldDocs l p (i + 1) fs) []).2 = []
    exact fieldDocs_nil l p fs (i + 1)

theorem formatModule_onlyType (l : Layout) (d : TypeDefinition) :
    formatModule l (onlyType d) [] = formatTypeDefinition l (d, [0, 2]) := by
  have h : ∀ D : Doc, D.countLines true ≠ 0 →
      ([.cat [], .cat [], .cat [], .cat (Doc.intersperse .line [D]), .cat (Doc.intersperse .line []), .empty].foldl
        addSection .empty : Doc).format = D.format := by
    intro D hD
    simp only [List.foldl_cons, List.foldl_nil, addSection, Doc.cat, Doc.intersperse, Doc.countLines, if_true, Nat.add_zero, if_neg hD, Nat.zero_add]
    simp [Doc.format, Doc.write]
  have hc : ∃ D, (typeDefinitionDoc l (d, [0, 2])) [] = (D, []) ∧ D.countLines true ≠ 0 := by
    cases d with
    | record x fs =>
      refine ⟨Doc.cat [.cat [], lit "type ", .str x, lit " {",
        if fs.isEmpty then .empty else .cat [.indent (.cat ((fieldDocs l [0, 2] 0 fs) []).1), .line], lit "}", .line], ?_, ?_⟩
      · have := fieldDocs_nil l [0, 2] fs 0
        show ((_, ((fieldDocs l [0, 2] 0 fs) []).2) : Doc × List Comment) = _
        rw [this]
        rfl
      · simp [Doc.cat, Doc.countLines]
    | alias_ x t =>
      refine ⟨Doc.cat [.cat [], lit "type ", .str x, lit " =",
        if (typeDoc l (0 :: [0, 2]) t).isBroken then .indent (.cat [.line, typeDoc l (0 :: [0, 2]) t])
        else .cat [lit " ", typeDoc l (0 :: [0, 2]) t], .line], rfl, ?_⟩
      simp [Doc.cat, Doc.countLines]
  obtain ⟨D, h1, h2⟩ := hc
  unfold formatTypeDefinition
  rw [h1, ← h D h2]
  unfold formatModule
  congr 1
  have hi : (importsDoc l []) [] = ((.cat [], []) : Doc × List Comment) := by
    unfold importsDoc
    rw [List.mergeSort_nil]
    rfl
  have hd : (mapDocs (typeDefinitionDoc l) (numbered [2] 0 [d])) [] = (([D], []) : List Doc × List Comment) := by
    show (([((typeDefinitionDoc l (d, [0, 2])) []).1], ((typeDefinitionDoc l (d, [0, 2])) []).2) : List Doc × List Comment) = _
    rw [h1]
  have step : ∀ {α β : Type} (x : F α) (f : α → F β) (cs : List Comment), (x >>= f) cs = f (x cs).1 (x cs).2 := fun _ _ _ => rfl
  unfold compileModule onlyType
  simp only [numbered, List.filter_nil, step, hi]
  simp only [numbered] at hd
  rw [show (mapDocs (foreignImportDoc l) []) [] = (([], []) : List Doc × List Comment) from rfl]
  simp only [hd]
  rfl

/-- **C71, the code of types.** The code that is shown of a type whose definition is shown is, up to white space at its
ends, a text of the language, whose only definition is that of the type. (Missing: the types that are not written
faithfully, for which this is false, see C57; and definitions of records with private fields, which are not shown.) -/
theorem c71_shown_types_are_read_back_partial {s : List Char} {m : DocModule} (h : parse s = some m.module)
    {d : TypeDefinition × Path} {c : Configuration} (hd : d ∈ documentedTypes c m) (hs : SafeTypeDefinition d.1)
    (ho : ¬ IsClosedRecord d.1) :
    ∃ t, trim t = trim (typeCode m.layout d) ∧ parse t = some (onlyType d.1) := by
  have hm : MadeTypeDefinition d.1 := by
    have : d.1 ∈ m.module.types := by
      rw [← numbered_fst [2] 0 m.module.types]
      exact List.mem_map_of_mem (List.mem_filter.mp hd).1
    exact (parse_made h).2.2.1 _ this
  have h1 : (onlyType d.1).Made := ⟨by simp [onlyType], by simp [onlyType], by simpa [onlyType] using hm, by simp [onlyType]⟩
  have h2 : (onlyType d.1).Safe := ⟨by simp [onlyType], by simpa [onlyType] using hs, by simp [onlyType]⟩
  -- The lines of the definition, as if it were the only one.
  let l : Layout := ⟨fun p => m.layout.line (p.take (p.length - 2) ++ d.2), m.layout.otherwise⟩
  have hn : Near 0 0 l [0, 2] m.layout d.2 := by
    intro q
    show m.layout.line _ + 0 = m.layout.line _ + 0
    simp
  have e : typeCode m.layout d = formatModule l (onlyType d.1) [] := by
    rw [formatModule_onlyType, formatTypeDefinition_moved hn]
    obtain ⟨d, p⟩ := d
    cases d with
    | record x fs =>
      show (if isRecordOpen fs then _ else _) = _
      rw [if_pos]
      by_contra hf
      exact ho ⟨x, fs, rfl, isRecordOpen_iff.mp (by simpa using hf)⟩
    | alias_ x t => rfl
  refine ⟨typeCode m.layout d, rfl, ?_⟩
  rw [e]
  have := parse_ok (h1.plain h2) (format_facts l h1 (cs := []) (by simp [Clean])).1
  rw [this]
  simp [onlyType, Module.sorted, orderedImports, sortImports]

/-! ## Signatures -/

/-- A module of one definition of a function, with a body that is a variable. -/
def onlyFunction (x : Name) (as : List (Name × Ty)) (t : Ty) (body : Name) : Grammar.Module :=
  ⟨[], [], [], [⟨x, ⟨as, t, .mk [] (.variable body)⟩, none⟩]⟩

theorem signature_nil (l : Layout) (p : Path) (as : List (Name × Ty)) (t : Ty) : ((signature l p as t) []).2 = [] :=
  argumentDocs_nil l p as 2

/-- The text of a signature is the same at the start of a line and after other texts. -/
theorem signature_write (l : Layout) (p : Path) {as : List (Name × Ty)} {t : Ty}
    (ha : ∀ a ∈ as, IsIdentifier a.1 ∧ a.2.Made) (ht : t.Made) :
    (((signature l p as t) []).1.write true 0 ⟨[], false⟩).1 = ((signature l p as t) []).1.format := by
  obtain ⟨used, h1, h2⟩ := signature_runs l p ha ht []
  rw [signature_nil, List.append_nil] at h1
  subst h1
  obtain ⟨gs, pend, g1, -, -, -, g5, -⟩ := h2 true 0 ⟨[], true⟩ [] rfl (by simp)
  have hp : pend = [] := by
    have := g5.length_eq
    simp only [List.map_nil, List.append_nil, List.length_nil, List.length_append] at this
    exact List.eq_nil_of_length_eq_zero (by omega)
  unfold Doc.format
  rw [g1, hp, List.map_nil, List.flatten_nil, List.append_nil]
  rfl

theorem formatModule_onlyFunction (l : Layout) {x : Name} {as : List (Name × Ty)} {t : Ty} (body : Name)
    (ha : ∀ a ∈ as, IsIdentifier a.1 ∧ a.2.Made) (ht : t.Made) :
    ∃ rest, formatModule l (onlyFunction x as t body) [] =
      x ++ " = ".toList ++ ((signature l [0, 0, 3] as t) []).1.format ++ rest := by
  have hi : (importsDoc l []) [] = ((.cat [], []) : Doc × List Comment) := by
    unfold importsDoc
    rw [List.mergeSort_nil]
    rfl
  have step : ∀ {α β : Type} (x : F α) (f : α → F β) (cs : List Comment), (x >>= f) cs = f (x cs).1 (x cs).2 := fun _ _ _ => rfl
  have hs := signature_nil l [0, 0, 3] as t
  have hw := signature_write l [0, 0, 3] ha ht
  obtain ⟨B, hB⟩ : ∃ B, (compile l [0, 0, 3] (.lambda as t (.mk [] (.variable body)))) [] =
      ((Doc.seq ((signature l [0, 0, 3] as t) []).1 B, []) : Doc × List Comment) := by
    unfold compile
    rw [step, hs]
    exact ⟨_, rfl⟩
  have hd : (mapDocs (functionDoc l) (numbered [3] 0 [(⟨x, ⟨as, t, .mk [] (.variable body)⟩, none⟩ : FunctionDefinition)])) [] =
      (([Doc.cat [.cat [], .empty, .str x, lit " = ", Doc.seq ((signature l [0, 0, 3] as t) []).1 B, .line]], []) :
        List Doc × List Comment) := by
    have : (functionDoc l (⟨x, ⟨as, t, .mk [] (.variable body)⟩, none⟩, [0, 3])) [] =
        ((Doc.cat [.cat [], .empty, .str x, lit " = ", Doc.seq ((signature l [0, 0, 3] as t) []).1 B, .line], []) :
          Doc × List Comment) := by
      show ((Doc.cat [.cat [], .empty, .str x, lit " = ",
        ((compile l [0, 0, 3] (.lambda as t (.mk [] (.variable body)))) []).1, .line],
        ((compile l [0, 0, 3] (.lambda as t (.mk [] (.variable body)))) []).2) : Doc × List Comment) = _
      rw [hB]
    simp only [numbered, mapDocs, step, this]
    rfl
  unfold formatModule compileModule onlyFunction
  simp only [numbered, List.filter_nil, step, hi]
  simp only [numbered] at hd
  rw [show (mapDocs (foreignImportDoc l) []) [] = (([], []) : List Doc × List Comment) from rfl]
  rw [show (mapDocs (typeDefinitionDoc l) []) [] = (([], []) : List Doc × List Comment) from rfl]
  simp only [hd]
  rw [show remainingComment [] = ((.cat [], []) : Doc × List Comment) from rfl]
  generalize hS : ((signature l [0, 0, 3] as t) []).1 = S at hw ⊢
  have h : ∀ D : Doc, D.countLines true ≠ 0 →
      ([.cat [], .cat [], .cat [], .cat (Doc.intersperse .line []), .cat (Doc.intersperse .line [D]), .cat []].foldl
        addSection .empty : Doc).format = D.format := by
    intro D hD
    simp only [List.foldl_cons, List.foldl_nil, addSection, Doc.cat, Doc.intersperse, Doc.countLines, if_true, Nat.add_zero, if_neg hD, Nat.zero_add]
    simp [Doc.format, Doc.write]
  generalize hD : Doc.cat [Doc.cat [], Doc.empty, Doc.str x, lit " = ", S.seq B, Doc.line] = D
  have hl : D.countLines true ≠ 0 := by
    rw [← hD]
    simp [Doc.cat, Doc.countLines]
  show ∃ rest, ([.cat [], .cat [], .cat [], .cat (Doc.intersperse .line []), .cat (Doc.intersperse .line [D]), .cat []].foldl
        addSection .empty : Doc).format = _
  rw [h D hl, ← hD, ← hw]
  unfold Doc.format
  simp only [Doc.cat, Doc.write, lit, Writer.indentation, if_true, Nat.mul_zero, List.replicate_zero, List.nil_append,
    Bool.false_eq_true, if_false, List.append_assoc, List.append_nil, List.append_cancel_left_eq]
  exact ⟨_, rfl⟩

/-- **C71, signatures.** What is shown of a function is, as a part of a text of the language that defines the function
by its name, read as its arguments and its result. (Missing: the types that are not written faithfully, see C57.) -/
theorem c71_shown_signatures_are_read_back_partial {s : List Char} {m : DocModule} (h : parse s = some m.module)
    {d : FunctionDefinition × Path} {c : Configuration} (hd : d ∈ documentedFunctions c m)
    (hs : d.1.lambda.result.Safe ∧ ∀ a ∈ d.1.lambda.arguments, a.2.Safe) :
    ∃ rest, parse (d.1.name ++ " = ".toList ++ formatSignature m.layout d ++ rest) =
      some (onlyFunction d.1.name d.1.lambda.arguments d.1.lambda.result ['x']) := by
  have hm : IsIdentifier d.1.name ∧ d.1.lambda.expression.Made := by
    have : d.1 ∈ m.module.functions := by
      rw [← numbered_fst [3] 0 m.module.functions]
      exact List.mem_map_of_mem (List.mem_filter.mp hd).1
    exact (parse_made h).2.2.2 _ this
  obtain ⟨d, p⟩ := d
  obtain ⟨x, ⟨as, t, b⟩, e⟩ := d
  obtain ⟨hx, hm⟩ := hm
  have hm : (∀ a ∈ as, IsIdentifier a.1 ∧ a.2.Made) ∧ t.Made := by
    simp only [Lambda.expression, Expr.Made] at hm
    exact ⟨hm.1, hm.2.1⟩
  have hi : IsIdentifier ['x'] := ⟨'x', [], rfl, .inl (by decide), by simp, by decide +kernel⟩
  have h1 : (onlyFunction x as t ['x']).Made := by
    refine ⟨by simp [onlyFunction], by simp [onlyFunction], by simp [onlyFunction], ?_⟩
    intro f hf
    rw [List.mem_singleton.mp hf]
    refine ⟨hx, ?_⟩
    simp only [Lambda.expression, Expr.Made, Block.Made, allMadeStatements]
    exact ⟨hm.1, hm.2, trivial, .inl hi⟩
  have h2 : (onlyFunction x as t ['x']).Safe := by
    refine ⟨by simp [onlyFunction], by simp [onlyFunction], ?_⟩
    intro f hf
    rw [List.mem_singleton.mp hf]
    simp only [Lambda.expression, Expr.Safe, Block.Safe, allSafeStatements]
    exact ⟨hs.2, hs.1, trivial, trivial, by simp [AllApart]⟩
  let l : Layout := ⟨fun q => m.layout.line (q.take (q.length - 2) ++ p), m.layout.otherwise⟩
  have hn : ∀ i, i ≠ 1 → Near 0 0 l (i :: 0 :: [0, 3]) m.layout (i :: 0 :: p) := by
    intro i _ q
    show m.layout.line ((q ++ ([i, 0] ++ [0, 3])).take ((q ++ ([i, 0] ++ [0, 3])).length - 2) ++ p) + 0 = m.layout.line (q ++ ([i, 0] ++ p)) + 0
    rw [← List.append_assoc, List.length_append, List.length_cons, List.length_cons, List.length_nil, Nat.zero_add,
      Nat.add_sub_cancel, List.take_left, List.append_assoc]
  have e : formatSignature m.layout (⟨x, ⟨as, t, b⟩, e⟩, p) = ((signature l [0, 0, 3] as t) []).1.format := by
    have := formatSignature_moved (a := 0) (b := 0) (l := l) (l' := m.layout) (d := (⟨x, ⟨as, t, b⟩, e⟩, [0, 3]))
      (d' := (⟨x, ⟨as, t, b⟩, e⟩, p)) rfl rfl (by
        show m.layout.line _ + 0 = m.layout.line _ + 0
        simp) hn
    exact this.symm
  obtain ⟨rest, hr⟩ := formatModule_onlyFunction l (x := x) ['x'] hm.1 hm.2
  refine ⟨rest, ?_⟩
  rw [e]
  show parse (x ++ _ ++ _ ++ _) = _
  rw [← hr, parse_ok (h1.plain h2) (format_facts l h1 (cs := []) (by simp [Clean])).1]
  simp [onlyFunction, Module.sorted, orderedImports, sortImports]

end Verif.Doc
