import Verif.Grammar.CommentsLemmas
import Verif.Grammar.TellsExpressions

/-! Every text that the grammar accepts has comments: `#` and quotes are only in comments and string
literals. -/

namespace Verif.Grammar

/-- A text that ends outside of comments and string literals. -/
def Scans (u : List Char) : Prop := ∃ cs, Scan u cs

theorem scans_nil : Scans [] := ⟨_, .nil⟩

theorem Scans.append {u v : List Char} (hu : Scans u) (hv : Scans v) : Scans (u ++ v) := by
  obtain ⟨cs, hu⟩ := hu
  obtain ⟨ds, hv⟩ := hv
  exact ⟨_, hu.append hv⟩

theorem Quiet.scans {u : List Char} (h : Quiet u) : Scans u := ⟨_, h.scan⟩

theorem Blank.scans {b : List Char} (h : Blank b) : Scans b := by
  induction h with
  | nil => exact scans_nil
  | space hc _ ih =>
    obtain ⟨cs, ih⟩ := ih
    refine ⟨cs, .char ?_ ?_ ih⟩
    · rintro rfl; exact absurd hc (by decide)
    · rintro rfl; exact absurd hc (by decide)
  | comment ht hc _ ih =>
    obtain ⟨cs, ih⟩ := ih
    exact ⟨_, .comment ht hc ih⟩

theorem tok_scans' {t u : List Char} (h : Tok t u) (ht : Scans t) : Scans u := by
  cases h with
  | mk hb => exact hb.scans.append ht

theorem tok_scans {t u : List Char} (h : Tok t u) (ht : Quiet t) : Scans u := tok_scans' h ht.scans

theorem NameText.scans {x u : List Char} (h : NameText x u) : Scans u := by
  cases h with
  | mk hx hu => exact tok_scans hu hx.quiet

theorem QualifiedText.scans {x u : List Char} (h : QualifiedText x u) : Scans u := by
  cases h with
  | mk hx hu => exact tok_scans hu hx.quiet

theorem StringText.scans {x u : List Char} (h : StringText x u) : Scans u := by
  cases h with
  | mk hx hu => exact tok_scans' hu ⟨_, .string hx .nil⟩

theorem TypeText.scans {l : TypeLevel} {t : Ty} {u : List Char} (h : TypeText l t u) : Scans u := by
  refine TypeText.rec (motive_1 := fun _ _ u _ => Scans u) (motive_2 := fun _ u _ => Scans u)
    (motive_3 := fun _ u _ => Scans u) (motive_4 := fun _ u _ => Scans u)
    ?_ ?_ ?_ ?_ ?_ ?_ ?_ ?_ ?_ ?_ ?_ ?_ ?_ ?_ h
  all_goals intros
  all_goals repeat' first
    | assumption
    | exact scans_nil
    | (exact QualifiedText.scans (by assumption))
    | (exact tok_scans (by assumption) (by decide))
    | apply Scans.append

theorem NumberText.scans {n : Number} {u : List Char} (h : NumberText n u) : Scans u := by
  cases h with
  | binary hn hu => exact tok_scans hu (number_quiet hn)
  | hexadecimal _ hd hu =>
    refine tok_scans hu (quiet_append (a := ['0', 'x']) (by decide) ?_)
    intro c hc
    have := hd c hc
    refine ⟨?_, ?_⟩
    · rintro rfl; exact absurd this (by decide)
    · rintro rfl; exact absurd this (by decide)
  | decimal hn hu => exact tok_scans hu (number_quiet hn)

theorem TypedText.scans {x : Name × Ty} {u : List Char} (h : TypedText x u) : Scans u := by
  cases h with
  | mk hx ht => exact hx.scans.append ht.scans

theorem repeated_scans {α : Type} {W : α → List Char → Prop} (hW : ∀ a u, W a u → Scans u)
    {as : List α} {u : List Char} (h : Repeated W as u) : Scans u := by
  induction h with
  | nil => exact scans_nil
  | cons h _ ih => exact (hW _ _ h).append ih

theorem tail_scans {α : Type} {W : α → List Char → Prop} (hW : ∀ a u, W a u → Scans u)
    {as : List α} {u : List Char} (h : Tail [','] W as u) : Scans u := by
  induction h with
  | nil => exact scans_nil
  | cons h h' _ ih => exact (tok_scans h (by decide)).append ((hW _ _ h').append ih)

theorem elements1_scans {α : Type} {W : α → List Char → Prop} (hW : ∀ a u, W a u → Scans u)
    {as : List α} {u : List Char} (h : Elements1 W as u) : Scans u := by
  cases h with
  | mk h h' => exact (hW _ _ h).append (tail_scans hW h')
  | trailing h h' h'' =>
    exact (hW _ _ h).append ((tail_scans hW h').append (tok_scans h'' (by decide)))

theorem elements_scans {α : Type} {W : α → List Char → Prop} (hW : ∀ a u, W a u → Scans u)
    {as : List α} {u : List Char} (h : Elements W as u) : Scans u := by
  cases h with
  | none => exact scans_nil
  | some h => exact elements1_scans hW h

theorem typeds_scans {as : List (Name × Ty)} {u : List Char} (h : Elements TypedText as u) :
    Scans u := elements_scans (fun _ _ => TypedText.scans) h

theorem names_scans {as : List Name} {u : List Char} (h : Elements1 NameText as u) :
    Scans u := elements1_scans (fun _ _ => NameText.scans) h

set_option maxHeartbeats 1000000 in
theorem BlockText.scans {k : Block} {u : List Char} (h : BlockText k u) : Scans u := by
  refine BlockText.rec (motive_1 := fun _ _ u _ => Scans u)
    (motive_2 := fun _ u _ => Scans u)
    (motive_3 := fun _ u _ => Scans u)
    (motive_4 := fun _ u _ => Scans u)
    (motive_5 := fun _ u _ => Scans u)
    (motive_6 := fun _ u _ => Scans u)
    (motive_7 := fun _ u _ => Scans u)
    (motive_8 := fun _ u _ => Scans u)
    (motive_9 := fun _ u _ => Scans u)
    (motive_10 := fun _ u _ => Scans u)
    (motive_11 := fun _ u _ => Scans u)
    (motive_12 := fun _ u _ => Scans u)
    (motive_13 := fun _ u _ => Scans u)
    (motive_14 := fun _ u _ => Scans u)
    (motive_15 := fun _ u _ => Scans u)
    (motive_16 := fun _ u _ => Scans u)
    (motive_17 := fun _ u _ => Scans u)
    (motive_18 := fun _ u _ => Scans u)
    (motive_19 := fun _ u _ => Scans u)
    (motive_20 := fun _ u _ => Scans u)
    (motive_21 := fun _ u _ => Scans u)
    (motive_22 := fun _ u _ => Scans u)
    (motive_23 := fun _ u _ => Scans u)
    (motive_24 := fun _ u _ => Scans u)
    (motive_25 := fun _ u _ => Scans u)
    (motive_26 := fun _ u _ => Scans u)
    (motive_27 := fun _ u _ => Scans u)
    (motive_28 := fun _ u _ => Scans u)
    (motive_29 := fun _ u _ => Scans u)
    (motive_30 := fun _ u _ => Scans u)
    (motive_31 := fun _ u _ => Scans u)
    ?_ ?_ ?_ ?_ ?_ ?_ ?_ ?_ ?_ ?_ ?_ ?_ ?_ ?_ ?_ ?_ ?_ ?_ ?_ ?_ ?_ ?_ ?_ ?_ ?_ ?_ ?_ ?_ ?_ ?_ ?_ ?_ ?_ ?_ ?_ ?_ ?_
    ?_ ?_ ?_ ?_ ?_ ?_ ?_ ?_ ?_ ?_ ?_ ?_ ?_ ?_ ?_ ?_ ?_ ?_ ?_ ?_ ?_ ?_ ?_ ?_ ?_ ?_ ?_ ?_ ?_ ?_ ?_ ?_ ?_ ?_ ?_ ?_ ?_ h
  all_goals intros
  all_goals repeat' first
    | assumption
    | exact scans_nil
    | exact TypeText.scans (by assumption)
    | exact NameText.scans (by assumption)
    | exact QualifiedText.scans (by assumption)
    | exact NumberText.scans (by assumption)
    | exact StringText.scans (by assumption)
    | exact typeds_scans (by assumption)
    | exact names_scans (by assumption)
    | exact tok_scans (by assumption) (by decide)
    | exact tok_scans (by assumption) (operator_quiet _)
    | exact Quiet.scans (by decide)
    | apply Scans.append

/-! ## Modules -/

theorem component_scans {x : Name} {u : List Char} (h : ComponentText x u) : Scans u := by
  cases h with
  | mk h => exact (Quiet.scans (by decide)).append h.scans

theorem PathText.scans {p : ModulePath} {u : List Char} (h : PathText p u) : Scans u := by
  cases h with
  | external hb hp hc _ hcs =>
    exact hb.scans.append (hp.scans.append ((component_scans hc).append
      (repeated_scans (fun _ _ => component_scans) hcs)))
  | internal hb hc hcs =>
    exact hb.scans.append ((component_scans hc).append
      (repeated_scans (fun _ _ => component_scans) hcs))

theorem optional_scans {α : Type} {W : α → List Char → Prop} (hW : ∀ a u, W a u → Scans u)
    {a : Option α} {u : List Char} (h : Optional W a u) : Scans u := by
  cases h with
  | none => exact scans_nil
  | some h => exact hW _ _ h

theorem ImportText.scans {i : Import} {u : List Char} (h : ImportText i u) : Scans u := by
  cases h with
  | mk h1 h2 h3 h4 =>
    refine (tok_scans h1 (by decide)).append (h2.scans.append ((optional_scans ?_ h3).append ?_))
    · rintro x u ⟨h, h'⟩
      exact (tok_scans h (by decide)).append h'.scans
    · cases h4 with
      | none => exact scans_nil
      | some h h' h'' =>
        exact (tok_scans h (by decide)).append ((names_scans h').append (tok_scans h'' (by decide)))

theorem ConventionText.scans {c : CallingConvention} {u : List Char} (h : ConventionText c u) :
    Scans u := by
  cases h with
  | native => exact scans_nil
  | c h =>
    exact tok_scans' h ⟨_, Scan.string (t := ['c']) (s := []) ⟨[['c']], rfl, by simp [IsStringPiece]⟩
      .nil⟩

theorem ForeignImportText.scans {i : ForeignImport} {u : List Char} (h : ForeignImportText i u) :
    Scans u := by
  cases h with
  | mk h1 h2 h3 h4 h5 =>
    exact (tok_scans h1 (by decide)).append ((tok_scans h2 (by decide)).append
      (h3.scans.append (h4.scans.append h5.scans)))

theorem TypeDefinitionText.scans {d : TypeDefinition} {u : List Char}
    (h : TypeDefinitionText d u) : Scans u := by
  cases h with
  | record h1 h2 h3 h4 h5 =>
    exact (tok_scans h1 (by decide)).append (h2.scans.append ((tok_scans h3 (by decide)).append
      ((repeated_scans (fun _ _ => TypedText.scans) h4).append (tok_scans h5 (by decide)))))
  | alias_ h1 h2 h3 h4 =>
    exact (tok_scans h1 (by decide)).append (h2.scans.append ((tok_scans h3 (by decide)).append
      h4.scans))

theorem FunctionText.scans {d : FunctionDefinition} {u : List Char} (h : FunctionText d u) :
    Scans u := by
  cases h with
  | mk h1 h2 h3 h4 =>
    refine (optional_scans ?_ h1).append (h2.scans.append ((tok_scans h3 (by decide)).append ?_))
    · rintro x u ⟨h, h'⟩
      exact (tok_scans h (by decide)).append h'.scans
    · cases h4 with
      | mk i1 i2 i3 i4 i5 =>
        exact (tok_scans i1 (by decide)).append ((typeds_scans i2).append
          ((tok_scans i3 (by decide)).append (i4.scans.append i5.scans)))

theorem CommentsOf.after {a s : List Char} {cs : List (List Char)} (ha : Scans a)
    (h : CommentsOf s cs) : ∃ ds, CommentsOf (a ++ s) ds := by
  obtain ⟨xs, ha⟩ := ha
  cases h with
  | scan h => exact ⟨_, .scan (ha.append h)⟩
  | last h ht =>
    rw [← List.append_assoc]
    exact ⟨_, .last (ha.append h) ht⟩

/-- Every text of a module has comments. -/
theorem ModuleText.comments {m : Module} {u : List Char} (h : ModuleText m u) :
    ∃ cs, CommentsOf u cs := by
  cases h with
  | @mk _ _ _ _ _ _ _ _ e h1 h2 h3 h4 h5 =>
    have he : ∃ cs, CommentsOf e cs := by
      cases h5 with
      | blank h =>
        obtain ⟨cs, h⟩ := h.scans
        exact ⟨cs, .scan h⟩
      | comment h ht =>
        obtain ⟨cs, h⟩ := h.scans
        exact ⟨_, .last h ht⟩
    obtain ⟨cs, he⟩ := he
    have := CommentsOf.after ((repeated_scans (fun _ _ => ImportText.scans) h1).append
      ((repeated_scans (fun _ _ => ForeignImportText.scans) h2).append
      ((repeated_scans (fun _ _ => TypeDefinitionText.scans) h3).append
      (repeated_scans (fun _ _ => FunctionText.scans) h4)))) he
    simpa using this

end Verif.Grammar
