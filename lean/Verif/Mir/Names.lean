import Verif.Mir.Alpha
import Std.Data.String.ToNat

/- Facts about names that compiler passes generate. -/
namespace Verif.Mir

/-- A name that alpha conversion does not generate: not of the form `name:number`. Local names in source code have no
colons at all (lib/parse/src/parsers.rs, `identifier`). -/
def SourceName (x : Name) : Prop := ∀ (y : Name) (k : Nat), x ≠ y ++ ":" ++ toString k

theorem colon_split {a b d e : List Char} (hd : ':' ∉ d) (he : ':' ∉ e) (h : a ++ ':' :: d = b ++ ':' :: e) :
    a = b ∧ d = e := by
  rcases List.append_eq_append_iff.mp h with ⟨c, h1, h2⟩ | ⟨c, h1, h2⟩
  · cases c with
    | nil => simp at h1 h2; exact ⟨h1.symm, h2⟩
    | cons x c =>
      simp only [List.cons_append, List.cons.injEq] at h2
      exact absurd (h2.2 ▸ by simp) hd
  · cases c with
    | nil => simp at h1 h2; exact ⟨h1, h2.symm⟩
    | cons x c =>
      simp only [List.cons_append, List.cons.injEq] at h2
      exact absurd (h2.2 ▸ by simp) he

theorem colon_not_in_digits (k : Nat) : ':' ∉ (toString k).toList := by
  intro h
  simp only [Nat.toString_eq_repr, Nat.toList_repr] at h
  have := Nat.isDigit_of_mem_toDigits (by decide) (by decide) h
  simp at this

theorem numbered_inj {x y : Name} {k l : Nat} (h : x ++ ":" ++ toString k = y ++ ":" ++ toString l) : x = y ∧ k = l := by
  have h1 := congrArg String.toList h
  simp only [String.toList_append, List.append_assoc] at h1
  obtain ⟨h2, h3⟩ := colon_split (colon_not_in_digits k) (colon_not_in_digits l) h1
  exact ⟨String.toList_injective h2, Nat.repr_injective (String.toList_injective h3)⟩

theorem alphaName_inj {x y : Name} (hx : SourceName x) (hy : SourceName y) {k l : Nat}
    (h : alphaName x k = alphaName y l) : x = y ∧ k = l := by
  unfold alphaName at h
  split at h <;> split at h
  · subst_vars; exact ⟨rfl, rfl⟩
  · exact absurd h (hx y l)
  · exact absurd h.symm (hy x k)
  · exact numbered_inj h

theorem alphaName_source {x y : Name} (hy : SourceName y) {k : Nat} (h : y = alphaName x k) : y = x ∧ k = 0 := by
  unfold alphaName at h
  split at h
  · exact ⟨h, by assumption⟩
  · exact absurd h (hy x k)

theorem sourceName_of_no_colon {x : Name} (h : ':' ∉ x.toList) : SourceName x := by
  rintro y k rfl
  simp at h

end Verif.Mir
