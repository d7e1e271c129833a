import Verif.Grammar.TellsTypes

/-! What the documents of expressions write. -/

namespace Verif.Grammar

/-- What an expression, a block, … is formatted to. -/
abbrev RunsTo (f : F Doc) (ps : List Piece) : Prop := Runs f fun d xs => Tells false d ps xs

/-- Lists of elements after comments. -/
abbrev RunsToEach (f : F (List Doc)) (pss : List (List Piece)) : Prop :=
  Runs f fun ds xs => Each true ds (pss.map (.soft :: ·)) xs

/-- Lists of elements, each after a line. -/
abbrev RunsToLines (f : F (List Doc)) (pss : List (List Piece)) : Prop :=
  Runs f fun ds xs => Each false ds (pss.map (.gap :: ·)) xs

theorem line_then {d : Doc} {ps : List Piece} {xs : List (List Char)}
    (h : Tells true d (.soft :: ps) xs) : Tells false (.cat [.line, d]) (.gap :: ps) xs := by
  have h1 := ((tells_line false).seq (h.and (tells_empty _)) (fun _ => .inl flushes_line))
  exact ((h1.cast rfl (by simp)).wider (by
    have := wider_head wider_gap_soft ps
    simpa using this))

theorem spread_tells {d : Doc} {ps : List Piece} {xs : List (List Char)} (h : Tells false d ps xs) :
    Tells false (.cat [lit "...", d]) (text "..." :: ps) xs :=
  ((tells_lit "..." (ps := [text "..."]) rfl (by decide) false).and (h.and (tells_empty _))).cast
    (by simp) (by simp)

theorem printAll_length : ∀ es : List Expr, (printAll es = [] ↔ es = [])
  | [] => by simp [printAll]
  | _ :: _ => by simp [printAll]

theorem eachStr {xs : List Name} (h : ∀ x ∈ xs, Quiet x) :
    Each false (xs.map .str) (xs.map fun x => [.txt x]) [] := by
  induction xs with
  | nil => exact .nil
  | cons x xs ih =>
    exact .cons (tells_txt (h x List.mem_cons_self) false)
      (ih fun y hy => h y (List.mem_cons_of_mem _ hy))

theorem enclosing {flat : Bool} {ds : List Doc} {pss : List (List Piece)} {xs : List (List Char)}
    (h : Each true ds (pss.map (.soft :: ·)) xs) (hf : pss = [] → flat = true) {o c : String}
    {op cp : List Piece} (ho : fillsB op o.toList = true) (ho' : Quiet o.toList)
    (hc : fillsB cp c.toList = true) (hc' : Quiet c.toList) :
    Tells false (.cat [lit o, enclosed flat (.cat (Doc.intersperse separator ds)), lit c])
      (op ++ (.soft :: elements pss ++ cp)) xs :=
  ((tells_lit o ho ho' false).and ((enclosed_tells h hf).and
    ((tells_lit c hc hc' false).and (tells_empty _)))).cast (by simp) (by simp)

theorem emptyOrLine_tells (p : Prop) [Decidable p] :
    Tells false (if p then Doc.empty else .line) [.soft] [] ∧ Keeps (if p then Doc.empty else .line) := by
  split
  · exact ⟨(tells_empty _).wider wider_nil, keeps_empty⟩
  · exact ⟨(tells_line _).wider wider_gap, keeps_line⟩

theorem statementName_tells {x : Option Name} (ss : List Statement) (e : Expr)
    (hx : ∀ y, x = some y → IsIdentifier y) :
    ∃ q, Tells false (match x with
      | none => Doc.empty
      | some x => .str (x ++ " = ".toList)) q [] ∧ printStatements (.mk x e :: ss) =
        .soft :: q ++ print e ++ [.gap] ++ printStatements ss := by
  cases x with
  | none => exact ⟨[], tells_empty _, by simp [printStatements]⟩
  | some x =>
    refine ⟨[.txt x] ++ [.gap, text "=", .gap], tells_str (fills_append.mpr ⟨_, _, rfl,
      fills_one.mpr (show Fill (.txt x) x from rfl), fillsB_spec _ _ rfl⟩)
      (quiet_append (hx x rfl).quiet (by decide)).scan _, by simp [printStatements]⟩

theorem statement_tells {b name d s extra y : Doc} {q ps rs : List Piece}
    {xs ys zs vs : List (List Char)} (hb : Tells true b [.soft] xs ∧ Keeps b)
    (hq : Tells false name q []) (hd : Tells false d ps ys) (hs : Tells false s [] zs)
    (hextra : Tells false extra [.soft] [] ∧ Keeps extra) (hy : Tells true y rs vs ∧ Keeps y) :
    Tells true (.cat [.cat [b, .cat [name, d, s, .brk true .line], extra], y])
      (.soft :: q ++ ps ++ [.gap] ++ rs) (xs ++ (ys ++ (zs ++ vs))) ∧
    Keeps (.cat [.cat [b, .cat [name, d, s, .brk true .line], extra], y]) := by
  have hst : Tells false (Doc.cat [name, d, s, .brk true .line]) (q ++ ps ++ [.gap])
      (ys ++ zs) := (hq.and (hd.and (hs.and ((tells_line false).broken.and (tells_empty _))))).cast
    (by simp) (by simp)
  have hflush : ∀ k n w, ((Doc.cat [name, d, s, .brk true .line]).write k n w).2.suffixes = [] :=
    fun _ _ _ => rfl
  have h1 := hb.1.and (hst.and (hextra.1.and (tells_empty _)))
  have hall : ∀ k n w, ((Doc.cat [b, .cat [name, d, s, .brk true .line], extra]).write k n
      w).2.suffixes = [] := fun k n w => hextra.2 k n _ (hflush k n _)
  have h2 := h1.wider (qs := .soft :: q ++ ps ++ [.gap]) (by
    have := (Wider.refl (.soft :: q ++ ps)).append wider_gap_soft
    simpa using this)
  refine ⟨?_, ?_⟩
  · exact (h2.seq (hy.1.and (tells_empty _)) (fun _ => .inl fun n w => hall true n w)).cast
      (by simp) (by simp)
  · intro k n w hw
    exact hy.2 k n _ (hall k n w)

mutual

theorem compile_runs (l : Layout) : ∀ (e : Expr) (p : Path), e.Made → RunsTo (compile l p e) (print e)
  | .binary o a b, p, h => by
    simp only [Expr.Made] at h
    simp only [compile, print]
    refine (compile_runs l a (0 :: p) h.1).bind fun x xs hx =>
      (compile_runs l b (1 :: p) h.2).bind fun y ys hy => .pure (Tells.flattenIf ?_ _ _)
    exact ((hx.paren _).and (((tells_line false).and ((tells_txt (operator_quiet o) false).and
      ((tells_lit " " (ps := [.gap]) rfl (by decide) false).and ((hy.paren _).and
      (tells_empty _))))).indent.and (tells_empty _))).cast (by simp) (by simp)
  | .call f as, p, h => by
    simp only [Expr.Made] at h
    simp only [compile, print]
    refine (compile_runs l f (0 :: p) h.1).bind fun x xs hx =>
      (compileAll_runs l as p 1 h.2).bind fun ds ys hds => .pure ?_
    have h1 := enclosed_tells (flat := as.isEmpty || (l.line (0 :: p) == l.line (1 :: p) &&
      !(Doc.cat (Doc.intersperse separator ds)).isBroken)) hds (by
        intro h
        simp [(printAll_length as).mp h])
    exact (hx.and ((tells_lit "(" (ps := [text "("]) rfl (by decide) false).and (h1.and
      ((tells_lit ")" (ps := [text ")"]) rfl (by decide) false).and (tells_empty _))))).cast
      (by simp) (by simp)
  | .if_ bs e, p, h => by
    simp only [Expr.Made] at h
    simp only [compile, print]
    refine (compileBranches_runs l bs p 1 h.2.1).bind fun x xs hx =>
      (compileBlock_runs l e (0 :: p) h.2.2).bind fun y ys hy => .pure (Tells.flattenIf ?_ _ _)
    exact (hx.and (hy.and (tells_empty _))).cast (by simp) (by simp)
  | .ifList e x y t f, p, h => by
    simp only [Expr.Made] at h
    obtain ⟨he, hx, hy, ht, hf⟩ := h
    simp only [compile, print]
    refine (compile_runs l e (0 :: p) he).bind fun d xs hd =>
      (compileBlock_runs l t (1 :: p) ht).bind fun a ys ha =>
      (compileBlock_runs l f (2 :: p) hf).bind fun b zs hb => .pure ?_
    have h0 : Tells false (.str ("if [".toList ++ x ++ ", ...".toList ++ y ++ "] = ".toList))
        ([text "if", .gap, text "["] ++ ([.txt x] ++ ([text ",", .gap, text "..."] ++ ([.txt y] ++
          [text "]", .gap, text "=", .gap])))) [] := by
      refine tells_str ?_ ?_ _
      · rw [List.append_assoc, List.append_assoc, List.append_assoc]
        exact fills_append.mpr ⟨_, _, rfl, fillsB_spec _ _ rfl, fills_append.mpr ⟨_, _, rfl,
          fills_one.mpr rfl, fills_append.mpr ⟨_, _, rfl, fillsB_spec _ _ rfl,
          fills_append.mpr ⟨_, _, rfl, fills_one.mpr rfl, fillsB_spec _ _ rfl⟩⟩⟩⟩
      · exact (quiet_append (quiet_append (quiet_append (quiet_append (by decide) hx.quiet)
          (by decide)) hy.quiet) (by decide)).scan
    exact (h0.and (hd.and ((tells_lit " " (ps := [.gap]) rfl (by decide) false).and (ha.and
      ((tells_lit " else " (ps := [.gap, text "else", .gap]) rfl (by decide) false).and
      (hb.and (tells_empty _))))))).cast (by simp) (by simp)
  | .ifMap x m k t f, p, h => by
    simp only [Expr.Made] at h
    obtain ⟨hx, hm, hk, ht, hf⟩ := h
    simp only [compile, print]
    refine (compile_runs l m (0 :: p) hm).bind fun d xs hd =>
      (compile_runs l k (1 :: p) hk).bind fun e ys he =>
      (compileBlock_runs l t (2 :: p) ht).bind fun a zs ha =>
      (compileBlock_runs l f (3 :: p) hf).bind fun b us hb => .pure ?_
    have h0 : Tells false (.str ("if ".toList ++ x ++ " = ".toList))
        ([text "if", .gap] ++ ([.txt x] ++ [.gap, text "=", .gap])) [] := by
      refine tells_str ?_ ?_ _
      · rw [List.append_assoc]
        exact fills_append.mpr ⟨_, _, rfl, fillsB_spec _ _ rfl, fills_append.mpr ⟨_, _, rfl,
          fills_one.mpr rfl, fillsB_spec _ _ rfl⟩⟩
      · exact (quiet_append (quiet_append (by decide) hx.quiet) (by decide)).scan
    exact (h0.and (hd.and ((tells_lit "[" (ps := [text "["]) rfl (by decide) false).and (he.and
      ((tells_lit "] " (ps := [text "]", .gap]) rfl (by decide) false).and (ha.and
      ((tells_lit " else " (ps := [.gap, text "else", .gap]) rfl (by decide) false).and
      (hb.and (tells_empty _))))))))).cast (by simp) (by simp)
  | .ifType x e bs f, p, h => by
    simp only [Expr.Made] at h
    obtain ⟨hx, he, _, hbs, hf⟩ := h
    simp only [compile, print]
    refine (compile_runs l e (0 :: p) he).bind fun d xs hd =>
      (compileTypeBranches_runs l bs p 2 hbs).bind fun ds ys hds =>
      (compileElse_runs l f (1 :: p) hf).bind fun g zs hg => .pure (Tells.flattenIf ?_ _ _)
    exact ((tells_lit "if " (ps := [text "if", .gap]) rfl (by decide) false).and
      ((tells_txt hx.quiet false).and
      ((tells_lit " = " (ps := [.gap, text "=", .gap]) rfl (by decide) false).and (hd.and
      ((tells_lit " as " (ps := [.gap, text "as", .gap]) rfl (by decide) false).and
      ((hds.join (tells_lit " else if "
        (ps := [.gap, text "else", .gap, text "if", .gap]) rfl (by decide) false)).and
      (hg.and (tells_empty _)))))))).cast (by simp) (by simp)
  | .lambda as t b, p, h => by
    simp only [Expr.Made] at h
    simp only [compile, print]
    refine (signature_runs l p h.1 h.2.1).bind fun s xs hs =>
      (compileBlock_runs l b (1 :: p) h.2.2).bind fun d ys hd => .pure ?_
    exact (hs.and ((tells_lit " " (ps := [.gap]) rfl (by decide) false).and
      ((hd.flattenIf _ _).and (tells_empty _)))).cast (by simp) (by simp)
  | .list t es, p, h => by
    simp only [Expr.Made] at h
    simp only [compile, print]
    refine (compileListElements_runs l es p 1 h.2).bind fun ds xs hds => .pure ?_
    have hn : (printListElements es).isEmpty = es.isEmpty := by
      cases es with
      | nil => rfl
      | cons a es => cases a <;> rfl
    have h1 := listed_tells (flat := es.isEmpty || (l.line p == l.line (1 :: p) &&
      !(Doc.cat (Doc.intersperse (lit ",") ds)).isBroken)) hds (by
        intro h
        rw [h] at hn
        simp [← hn])
    rw [hn] at h1
    exact ((tells_lit "[" (ps := [text "["]) rfl (by decide) false).and
      ((typeDoc_tells l (0 :: p) h.1).and (h1.and
      ((tells_lit "]" (ps := [text "]"]) rfl (by decide) false).and (tells_empty _))))).cast
      (by simp) (by simp)
  | .comprehension t e bs, p, h => by
    simp only [Expr.Made] at h
    simp only [compile, print]
    refine (lineComment_runs (compile_runs l e (1 :: p) h.2.1)).bind fun d xs hd =>
      (compileCompBranches_runs l bs p 2 h.2.2.2).bind fun ds ys hds => .pure ?_
    have hj := Each.joinComments (q := []) (tells_line false) flushes_line _ hds
    have h1 := ((tells_line false).seq (hd.and ((tells_line false).seq (hj.and (tells_empty _))
      (fun _ => .inl flushes_line))) (fun _ => .inl flushes_line))
    have h2 := (h1.cast (xs := _) (ys := xs ++ ys) rfl (by simp)).wider
      (qs := .gap :: print e ++ (.gap :: join [.gap] (printCompBranches bs))) (by
      have := (wider_gap_soft.append (Wider.refl (print e))).append
        (wider_gap_soft.append (Wider.refl (join [.gap] (printCompBranches bs))))
      simpa using this)
    have h3 : ∀ c : Bool, Tells false (if c then .brk false (Doc.cat [.line, d, .line,
        .cat (Doc.intersperse .line ds)]) else .brk true (.cat [.indent (Doc.cat [.line, d, .line,
        .cat (Doc.intersperse .line ds)]), .line]))
        (.gap :: print e ++ (.gap :: join [.gap] (printCompBranches bs)) ++ [.soft]) (xs ++ ys) := by
      intro c
      cases c with
      | true =>
        exact h2.flat.wider (by
          have := Wider.append (Wider.refl (.gap :: print e ++
            (.gap :: join [.gap] (printCompBranches bs)))) wider_nil
          simpa using this)
      | false =>
        exact ((h2.indent.and ((tells_line false).and (tells_empty _))).broken.wider (by
          have := Wider.append (Wider.refl (.gap :: print e ++
            (.gap :: join [.gap] (printCompBranches bs)))) wider_gap
          simpa using this)).cast rfl (by simp)
    exact ((tells_lit "[" (ps := [text "["]) rfl (by decide) false).and
      ((typeDoc_tells l (0 :: p) h.1).and ((h3 _).and
      ((tells_lit "]" (ps := [text "]"]) rfl (by decide) false).and (tells_empty _))))).cast
      (by simp) (by simp)
  | .map k v es, p, h => by
    simp only [Expr.Made] at h
    simp only [compile, print]
    refine (compileMapElements_runs l es p 2 h.2.2).bind fun ds xs hds => .pure ?_
    have hn : (printMapElements es).isEmpty = es.isEmpty := by
      cases es with
      | nil => rfl
      | cons a es => cases a <;> rfl
    have h1 := listed_tells (flat := es.isEmpty || (l.line p == l.line (2 :: p) &&
      !(Doc.cat (Doc.intersperse (lit ",") ds)).isBroken)) hds (by
        intro h
        rw [h] at hn
        simp [← hn])
    rw [hn] at h1
    exact ((tells_lit "{" (ps := [text "{"]) rfl (by decide) false).and
      ((typeDoc_tells l (0 :: p) h.1).and
      ((tells_lit ": " (ps := [text ":", .gap]) rfl (by decide) false).and
      ((typeDoc_tells l (1 :: p) h.2.1).and (h1.and
      ((tells_lit "}" (ps := [text "}"]) rfl (by decide) false).and (tells_empty _))))))).cast
      (by simp) (by simp)
  | .number n, p, h => by
    simp only [Expr.Made] at h
    simp only [compile, print]
    exact .pure (tells_txt (number_quiet h) false)
  | .record x r fs, p, h => by
    simp only [Expr.Made] at h
    obtain ⟨hx, hr, _, hfs, _⟩ := h
    simp only [compile, print]
    refine (compileRecord_runs l r (0 :: p) hr).bind fun rs xs hrs =>
      (compileFields_runs l fs p 1 hfs).bind fun ds ys hds => .pure ?_
    have ha : Each true (rs ++ ds) ((printRecord r ++ printFields fs).map (.soft :: ·)) (xs ++ ys) := by
      rw [List.map_append]
      generalize (printFields fs).map (Piece.soft :: ·) = qss at hds
      generalize (printRecord r).map (Piece.soft :: ·) = pss at hrs
      clear hr hfs
      induction hrs with
      | nil => exact hds
      | cons hd _ ih => simpa using Each.cons hd ih
    have h1 := enclosed_tells (flat := (r.isNone && fs.isEmpty) || (recordFlat l p r &&
      !(Doc.cat (Doc.intersperse separator (rs ++ ds))).isBroken)) ha (by
        intro h
        cases r with
        | some e => simp [printRecord] at h
        | none =>
          cases fs with
          | nil => simp
          | cons f fs => cases f; simp [printRecord, printFields] at h)
    exact ((tells_txt hx.quiet false).and ((tells_lit "{" (ps := [text "{"]) rfl (by decide) false).and
      (h1.and ((tells_lit "}" (ps := [text "}"]) rfl (by decide) false).and (tells_empty _))))).cast
      (by simp) (by simp)
  | .field r x, p, h => by
    simp only [Expr.Made] at h
    simp only [compile, print]
    refine (compile_runs l r (0 :: p) h.1).bind fun d xs hd => .pure ?_
    exact (hd.and ((tells_lit "." (ps := [text "."]) rfl (by decide) false).and
      ((tells_txt h.2.quiet false).and (tells_empty _)))).cast (by simp) (by simp)
  | .string s, p, h => by
    simp only [Expr.Made] at h
    simp only [compile, print]
    exact .pure (string_tells h)
  | .unary .not e, p, h => by
    simp only [Expr.Made] at h
    simp only [compile, print]
    refine (compile_runs l e (0 :: p) h).bind fun d xs hd => .pure ?_
    exact ((tells_lit "!" (ps := [text "!"]) rfl (by decide) false).and
      ((hd.paren _).and (tells_empty _))).cast (by simp) (by simp)
  | .unary .try_ e, p, h => by
    simp only [Expr.Made] at h
    simp only [compile, print]
    refine (compile_runs l e (0 :: p) h).bind fun d xs hd => .pure ?_
    exact ((hd.paren _).and ((tells_lit "?" (ps := [text "?"]) rfl (by decide) false).and
      (tells_empty _))).cast (by simp) (by simp)
  | .variable x, p, h => by
    simp only [Expr.Made] at h
    simp only [compile, print]
    exact .pure (tells_txt h.quiet false)

theorem compileAll_runs (l : Layout) : ∀ (es : List Expr) (p : Path) (i : Nat), allMade es →
    RunsToEach (compileAll l p i es) (printAll es)
  | [], _, _, _ => by
    simp only [compileAll, printAll]
    exact .pure .nil
  | e :: es, p, i, h => by
    simp only [allMade] at h
    simp only [compileAll, printAll]
    refine (lineComment_runs (compile_runs l e (i :: p) h.1)).bind fun d xs hd =>
      (compileAll_runs l es p (i + 1) h.2).bind fun ds ys hds => .pure ?_
    simpa using Each.cons hd hds

theorem compileBranches_runs (l : Layout) : ∀ (bs : List Branch) (p : Path) (i : Nat),
    allMadeBranches bs → RunsTo (compileBranches l p i bs) (printBranches bs)
  | [], _, _, _ => by
    simp only [compileBranches, printBranches]
    exact .pure (tells_empty _)
  | .mk c b :: bs, p, i, h => by
    simp only [allMadeBranches] at h
    simp only [compileBranches, printBranches]
    refine (compile_runs l c (0 :: i :: p) h.1).bind fun x xs hx =>
      (compileBlock_runs l b (1 :: i :: p) h.2.1).bind fun y ys hy =>
      (compileBranches_runs l bs p (i + 1) h.2.2).bind fun z zs hz => .pure ?_
    exact (((tells_lit "if " (ps := [text "if", .gap]) rfl (by decide) false).and (hx.and
      ((tells_lit " " (ps := [.gap]) rfl (by decide) false).and (hy.and
      ((tells_lit " else " (ps := [.gap, text "else", .gap]) rfl (by decide) false).and
      (tells_empty _)))))).and (hz.and (tells_empty _))).cast (by simp) (by simp)

theorem compileTypeBranches_runs (l : Layout) : ∀ (bs : List TypeBranch) (p : Path) (i : Nat),
    allMadeTypeBranches bs → Runs (compileTypeBranches l p i bs) fun ds xs =>
      Each false ds (printTypeBranches bs) xs
  | [], _, _, _ => by
    simp only [compileTypeBranches, printTypeBranches]
    exact .pure .nil
  | .mk t b :: bs, p, i, h => by
    simp only [allMadeTypeBranches] at h
    simp only [compileTypeBranches, printTypeBranches]
    refine (compileBlock_runs l b (1 :: i :: p) h.2.1).bind fun d xs hd =>
      (compileTypeBranches_runs l bs p (i + 1) h.2.2).bind fun ds ys hds => .pure ?_
    have h1 := ((typeDoc_tells l (0 :: i :: p) h.1).and
      ((tells_lit " " (ps := [.gap]) rfl (by decide) false).and (hd.and (tells_empty _)))).cast
      (qs := printType t ++ [.gap] ++ printBlock b) (ys := xs) (by simp) (by simp)
    rw [List.append_nil]
    exact Each.cons h1 hds

theorem compileElse_runs (l : Layout) : ∀ (b : Option Block) (p : Path), madeElse b →
    RunsTo (compileElse l p b) (printElse b)
  | none, _, _ => by
    simp only [compileElse, printElse]
    exact .pure (tells_empty _)
  | some b, p, h => by
    simp only [madeElse] at h
    simp only [compileElse, printElse]
    refine (compileBlock_runs l b p h).bind fun d xs hd => .pure ?_
    exact ((tells_lit " else " (ps := [.gap, text "else", .gap]) rfl (by decide) false).and
      (hd.and (tells_empty _))).cast (by simp) (by simp)

theorem compileBlock_runs (l : Layout) : ∀ (b : Block) (p : Path), b.Made →
    RunsTo (compileBlock l p b) (printBlock b)
  | .mk ss e, p, h => by
    simp only [Block.Made] at h
    simp only [compileBlock, printBlock]
    refine (compileStatements_runs l ss p 1 h.1).bind fun x xs hx =>
      (lineComment_runs (compile_runs l e (0 :: p) h.2)).bind fun y ys hy => .pure ?_
    have h1 := (tells_line false).seq (hx.1.seq (hy.and (tells_empty _))
      (fun _ => .inr ⟨rfl, hx.2⟩)) (fun _ => .inl flushes_line)
    exact ((tells_lit "{" (ps := [text "{"]) rfl (by decide) false).and (h1.indent.and
      ((tells_line false).and ((tells_lit "}" (ps := [text "}"]) rfl (by decide) false).and
      (tells_empty _))))).cast (by simp) (by simp)

theorem compileStatements_runs (l : Layout) : ∀ (ss : List Statement) (p : Path) (i : Nat),
    allMadeStatements ss → Runs (compileStatements l p i ss) fun d xs =>
      Tells true d (printStatements ss) xs ∧ Keeps d
  | [], _, _, _ => by
    simp only [compileStatements, printStatements]
    exact .pure ⟨tells_empty _, keeps_empty⟩
  | .mk x e :: ss, p, i, h => by
    simp only [allMadeStatements] at h
    obtain ⟨hx, he, hss⟩ := h
    simp only [compileStatements]
    refine (blockComment_runs _).bind fun b xs hb =>
      (compile_runs l e (0 :: i :: p) he).bind fun d ys hd =>
      (suffixComment_runs _).bind fun s zs hs =>
      Runs.bind (P := fun _ xs => xs = []) (fun cs => ⟨[], rfl, rfl⟩) fun cs us hus =>
      (compileStatements_runs l ss p (i + 1) hss).bind fun y vs hy => .pure ?_
    subst hus
    obtain ⟨q, hq, e1⟩ := statementName_tells ss e hx
    rw [e1]
    exact (statement_tells hb hq hd hs (emptyOrLine_tells _) hy).imp (fun h => h.cast rfl (by simp)) id

theorem compileListElements_runs (l : Layout) : ∀ (es : List ListElement) (p : Path) (i : Nat),
    allMadeListElements es → RunsToLines (compileListElements l p i es) (printListElements es)
  | [], _, _, _ => by
    simp only [compileListElements, printListElements]
    exact .pure .nil
  | .multiple e :: es, p, i, h => by
    simp only [allMadeListElements] at h
    simp only [compileListElements, printListElements]
    refine (lineComment_runs ((compile_runs l e (i :: p) h.1).bind fun d xs hd =>
        .pure ((spread_tells hd).cast rfl (by simp)))).bind fun d xs hd =>
      (compileListElements_runs l es p (i + 1) h.2).bind fun ds ys hds => .pure ?_
    simpa using Each.cons (line_then hd) hds
  | .single e :: es, p, i, h => by
    simp only [allMadeListElements] at h
    simp only [compileListElements, printListElements]
    refine (lineComment_runs (compile_runs l e (i :: p) h.1)).bind fun d xs hd =>
      (compileListElements_runs l es p (i + 1) h.2).bind fun ds ys hds => .pure ?_
    simpa using Each.cons (line_then hd) hds

theorem compileMapElements_runs (l : Layout) : ∀ (es : List MapElement) (p : Path) (i : Nat),
    allMadeMapElements es → RunsToLines (compileMapElements l p i es) (printMapElements es)
  | [], _, _, _ => by
    simp only [compileMapElements, printMapElements]
    exact .pure .nil
  | .multiple e :: es, p, i, h => by
    simp only [allMadeMapElements] at h
    simp only [compileMapElements, printMapElements]
    refine (lineComment_runs ((compile_runs l e (i :: p) h.1).bind fun d xs hd =>
        .pure ((spread_tells hd).cast rfl (by simp)))).bind fun d xs hd =>
      (compileMapElements_runs l es p (i + 1) h.2).bind fun ds ys hds => .pure ?_
    simpa using Each.cons (line_then hd) hds
  | .entry k v :: es, p, i, h => by
    simp only [allMadeMapElements] at h
    simp only [compileMapElements, printMapElements]
    refine (lineComment_runs (ps := print k ++ [text ":", .gap] ++ print v)
      ((compile_runs l k (0 :: i :: p) h.1).bind fun d xs hd =>
        (compile_runs l v (1 :: i :: p) h.2.1).bind fun d' ys hd' => .pure ?_)).bind fun d xs hd =>
      (compileMapElements_runs l es p (i + 1) h.2.2).bind fun ds ys hds => .pure ?_
    · exact (hd.and ((tells_lit ": " (ps := [text ":", .gap]) rfl (by decide) false).and
        (hd'.and (tells_empty _)))).cast (by simp) (by simp)
    · simpa using Each.cons (line_then hd) hds

theorem compileRecord_runs (l : Layout) : ∀ (r : Option Expr) (p : Path), madeOption r →
    RunsToEach (compileRecord l p r) (printRecord r)
  | none, _, _ => by
    simp only [compileRecord, printRecord]
    exact .pure .nil
  | some e, p, h => by
    simp only [madeOption] at h
    simp only [compileRecord, printRecord]
    refine (lineComment_runs ((compile_runs l e p h).bind fun d xs hd =>
        .pure ((spread_tells hd).cast rfl (by simp)))).bind fun d xs hd => .pure ?_
    simpa using Each.cons hd .nil

theorem compileFields_runs (l : Layout) : ∀ (fs : List Field) (p : Path) (i : Nat),
    allMadeFields fs → RunsToEach (compileFields l p i fs) (printFields fs)
  | [], _, _, _ => by
    simp only [compileFields, printFields]
    exact .pure .nil
  | .mk x e :: fs, p, i, h => by
    simp only [allMadeFields] at h
    simp only [compileFields, printFields]
    refine (lineComment_runs (ps := [.txt x, text ":", .gap] ++ print e)
      ((compile_runs l e (0 :: i :: p) h.2.1).bind fun d xs hd => .pure ?_)).bind fun d xs hd =>
      (compileFields_runs l fs p (i + 1) h.2.2).bind fun ds ys hds => .pure ?_
    · exact ((tells_txt h.1.quiet false).and
        ((tells_lit ": " (ps := [text ":", .gap]) rfl (by decide) false).and
        (hd.and (tells_empty _)))).cast (by simp) (by simp)
    · simpa using Each.cons hd hds

theorem compileCompBranches_runs (l : Layout) : ∀ (bs : List CompBranch) (p : Path) (i : Nat),
    allMadeCompBranches bs → RunsToEach (compileCompBranches l p i bs) (printCompBranches bs)
  | [], _, _, _ => by
    simp only [compileCompBranches, printCompBranches]
    exact .pure .nil
  | .mk xs es c :: bs, p, i, h => by
    simp only [allMadeCompBranches] at h
    obtain ⟨_, hxs, _, hes, hc, hbs⟩ := h
    simp only [compileCompBranches, printCompBranches]
    refine (lineComment_runs (ps := [text "for", .gap] ++ join comma (xs.map fun x => [.txt x]) ++
        [.gap, text "in", .gap] ++ join comma (printAll es) ++ printCondition c)
      ((compileIteratees_runs l es (i :: p) 1 hes).bind fun ds ys hds =>
        (compileCondition_runs l c (0 :: i :: p) hc).bind fun d zs hd => .pure ?_)).bind
      fun d ys hd =>
      (compileCompBranches_runs l bs p (i + 1) hbs).bind fun ds zs hds => .pure ?_
    · have hcomma := tells_lit ", " (ps := comma) rfl (by decide) false
      exact ((tells_lit "for " (ps := [text "for", .gap]) rfl (by decide) false).and
        (((eachStr fun x hx => (hxs x hx).quiet).join hcomma).and
        ((tells_lit " in " (ps := [.gap, text "in", .gap]) rfl (by decide) false).and
        ((hds.join hcomma).and (hd.and (tells_empty _)))))).cast (by simp) (by simp)
    · simpa using Each.cons hd hds

theorem compileIteratees_runs (l : Layout) : ∀ (es : List Expr) (p : Path) (i : Nat), allMade es →
    Runs (compileIteratees l p i es) fun ds xs => Each false ds (printAll es) xs
  | [], _, _, _ => by
    simp only [compileIteratees, printAll]
    exact .pure .nil
  | e :: es, p, i, h => by
    simp only [allMade] at h
    simp only [compileIteratees, printAll]
    refine (compile_runs l e (i :: p) h.1).bind fun d xs hd =>
      (compileIteratees_runs l es p (i + 1) h.2).bind fun ds ys hds => .pure ?_
    simpa using Each.cons hd hds

theorem compileCondition_runs (l : Layout) : ∀ (c : Option Expr) (p : Path), madeOption c →
    RunsTo (compileCondition l p c) (printCondition c)
  | none, _, _ => by
    simp only [compileCondition, printCondition]
    exact .pure (tells_empty _)
  | some e, p, h => by
    simp only [madeOption] at h
    simp only [compileCondition, printCondition]
    refine (compile_runs l e p h).bind fun d xs hd => .pure ?_
    exact ((tells_lit " if " (ps := [.gap, text "if", .gap]) rfl (by decide) false).and
      (hd.and (tells_empty _))).cast (by simp) (by simp)

end

end Verif.Grammar
