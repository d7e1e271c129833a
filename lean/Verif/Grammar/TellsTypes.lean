import Verif.Grammar.TellsNodes

/-! What the documents of types and expressions write. -/

namespace Verif.Grammar

/-! ## Types -/

/-- The documents of members of a union write these members. -/
inductive MembersTell : List (Bool × Nat × Doc) → List (Bool × List Piece) → Prop where
  | nil : MembersTell [] []
  | cons {f n d p ms qs} : Tells false d p [] → MembersTell ms qs →
      MembersTell ((f, n, d) :: ms) ((f, p) :: qs)

theorem MembersTell.append {ms ns qs rs} (h : MembersTell ms qs) (h' : MembersTell ns rs) :
    MembersTell (ms ++ ns) (qs ++ rs) := by
  induction h with
  | nil => exact h'
  | cons hd _ ih => exact .cons hd ih

theorem tells_pipe : Tells false (.cat [lit " |", .line]) [.gap, text "|", .gap] [] :=
  (tells_lit " |" (ps := [.gap, text "|"]) rfl (by decide) false).and
    ((tells_line false).and (tells_empty _))

theorem unionDocs_tells {ms qs} (h : MembersTell ms qs) :
    Tells false (.cat (unionDocs ms)) (joinUnion qs) [] := by
  induction h with
  | nil => exact tells_empty _
  | @cons f n d p ms qs hd h ih =>
    cases h with
    | nil => exact (hd.and (tells_empty _)).cast (by simp [joinUnion]) rfl
    | cons hd' h' =>
      exact ((hd.paren f).and (tells_pipe.and ih)).cast (by simp [joinUnion]) rfl

theorem unionDoc_tells {ms qs} (h : MembersTell ms qs) : Tells false (unionDoc ms) (joinUnion qs) [] := by
  have hu := unionDocs_tells h
  match h with
  | .nil => exact hu.flat
  | .cons hd .nil => exact hd
  | .cons (.(_)) (.cons ..) =>
    simp only [unionDoc]
    split
    · exact hu.flat
    · exact hu.broken

mutual

theorem memberDocs_tell (l : Layout) : ∀ (t : Ty) (p : Path), t.Made →
    MembersTell (memberDocs l p t) (members t)
  | .function as r, p, h => by
    simp only [Ty.Made] at h
    have h1 := typeDocs_tell l as p 1 h.1
    have h2 := unionDoc_tells (memberDocs_tell l r (0 :: p) h.2)
    simp only [memberDocs, members]
    refine .cons ?_ .nil
    exact ((tells_lit "\\(" (ps := [text "\\("]) rfl (by decide) false).and
      ((h1.join (tells_lit ", " (ps := comma) rfl (by decide) false)).and
      ((tells_lit ") " (ps := [text ")", .gap]) rfl (by decide) false).and
      (h2.and (tells_empty _))))).cast (by simp) (by simp)
  | .list t, p, h => by
    simp only [Ty.Made] at h
    have h2 := unionDoc_tells (memberDocs_tell l t (0 :: p) h)
    simp only [memberDocs, members]
    refine .cons ?_ .nil
    exact ((tells_lit "[" (ps := [text "["]) rfl (by decide) false).and
      (h2.and ((tells_lit "]" (ps := [text "]"]) rfl (by decide) false).and (tells_empty _)))).cast
      (by simp) (by simp)
  | .map k v, p, h => by
    simp only [Ty.Made] at h
    have h1 := unionDoc_tells (memberDocs_tell l k (0 :: p) h.1)
    have h2 := unionDoc_tells (memberDocs_tell l v (1 :: p) h.2)
    simp only [memberDocs, members]
    refine .cons ?_ .nil
    exact ((tells_lit "{" (ps := [text "{"]) rfl (by decide) false).and
      (h1.and ((tells_lit ": " (ps := [text ":", .gap]) rfl (by decide) false).and
      (h2.and ((tells_lit "}" (ps := [text "}"]) rfl (by decide) false).and (tells_empty _)))))).cast
      (by simp) (by simp)
  | .reference x, p, h => by
    simp only [Ty.Made] at h
    simp only [memberDocs, members]
    exact .cons (tells_txt h.quiet false) .nil
  | .union a b, p, h => by
    simp only [Ty.Made] at h
    simp only [memberDocs, members]
    exact (memberDocs_tell l a (0 :: p) h.1).append (memberDocs_tell l b (1 :: p) h.2)

theorem typeDocs_tell (l : Layout) : ∀ (ts : List Ty) (p : Path) (i : Nat), allMadeTypes ts →
    Each false (typeDocs l p i ts) (printTypes ts) []
  | [], _, _, _ => .nil
  | t :: ts, p, i, h => by
    simp only [allMadeTypes] at h
    exact .cons (unionDoc_tells (memberDocs_tell l t (i :: p) h.1)) (typeDocs_tell l ts p (i + 1) h.2)

end

theorem typeDoc_tells (l : Layout) (p : Path) {t : Ty} (h : t.Made) :
    Tells false (typeDoc l p t) (printType t) [] := unionDoc_tells (memberDocs_tell l t p h)

/-! ## Signatures -/

theorem typed_tells (l : Layout) (p : Path) {x : Name × Ty} (hx : IsIdentifier x.1) (ht : x.2.Made) :
    Tells false (.cat [.str x.1, lit " ", typeDoc l p x.2]) (printTyped x) [] :=
  ((tells_txt hx.quiet false).and ((tells_lit " " (ps := [.gap]) rfl (by decide) false).and
    ((typeDoc_tells l p ht).and (tells_empty _)))).cast (by simp [printTyped]) rfl

theorem argumentDocs_runs (l : Layout) (p : Path) : ∀ (as : List (Name × Ty)) (i : Nat),
    (∀ a ∈ as, IsIdentifier a.1 ∧ a.2.Made) →
    Runs (argumentDocs l p i as) fun ds xs => Each true ds ((as.map printTyped).map (.soft :: ·)) xs
  | [], _, _ => .pure .nil
  | a :: as, i, h => by
    simp only [List.mem_cons, forall_eq_or_imp] at h
    refine (lineComment_runs (.pure (typed_tells l (0 :: i :: p) h.1.1 h.1.2))).bind fun d xs hd =>
      (argumentDocs_runs l p as (i + 1) h.2).bind fun ds ys hds => .pure ?_
    simpa using Each.cons hd hds

theorem signature_runs (l : Layout) (p : Path) {as : List (Name × Ty)} {t : Ty}
    (ha : ∀ a ∈ as, IsIdentifier a.1 ∧ a.2.Made) (ht : t.Made) :
    Runs (signature l p as t) fun d xs => Tells false d (printSignature as t) xs := by
  refine (argumentDocs_runs l p as 2 ha).bind fun ds xs hds => .pure ?_
  have h1 := enclosed_tells (flat := argumentsFlat l p as) hds (by
    intro h
    obtain rfl : as = [] := by simpa using h
    rfl)
  exact ((tells_lit "\\(" (ps := [text "\\("]) rfl (by decide) false).and (h1.and
    ((tells_lit ") " (ps := [text ")", .gap]) rfl (by decide) false).and
    ((typeDoc_tells l _ ht).and (tells_empty _))))).cast (by simp [printSignature]) (by simp)

/-! ## Literals -/

theorem decimal_quiet {t : List Char} (h : IsDecimal t) : Quiet t := by
  intro c hc
  have := h.chars.2 c hc
  constructor <;> rintro rfl <;> exact absurd this (by decide)

theorem number_quiet {n : Number} (h : IsNumber n) : Quiet (numberText n) := by
  cases n with
  | binary d =>
    refine quiet_append (by decide) fun c hc => ?_
    rcases h.2 c hc with rfl | rfl <;> decide
  | hexadecimal d =>
    refine quiet_append (by decide) (word_quiet fun c hc => .inl ?_)
    obtain ⟨e, he, rfl⟩ := List.mem_map.mp hc
    have hx := hex_cases (h.2 e he).1
    have : ∀ e ∈ "0123456789abcdefABCDEF".toList, isWord e.toUpper = true := by decide
    exact this e hx
  | floatingPoint t => exact decimal_quiet h

theorem string_tells {t : List Char} (h : IsStringText t) :
    Tells false (.str ("\"".toList ++ t ++ "\"".toList)) [text "\"", .txt t, text "\""] [] := by
  refine tells_str ?_ ?_ _
  · exact ⟨_, t ++ "\"".toList, by simp, rfl, t, "\"".toList, rfl, rfl, "\"".toList, [], rfl, rfl, rfl⟩
  · simpa using Scan.string h Scan.nil

theorem operator_quiet (o : BinOp) : Quiet (operatorText o) := by cases o <;> decide

end Verif.Grammar
