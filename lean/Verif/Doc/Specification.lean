import Verif.Grammar.Comments

/-
What the documentation of a package is to show (C71).
-/

namespace Verif.Doc

open Verif.Grammar

/-- Comments on consecutive lines, from a first one. -/
def OnLinesFrom (first : Nat) : List Comment → Prop
  | [] => True
  | c :: cs => c.line = first ∧ OnLinesFrom (first + 1) cs

/-- `ds` is the block of comments right before a line: one comment on each of the lines from a first one to the
one before the line, and as many of them as there are. -/
def IsBlockBefore (cs : List Comment) (line : Nat) (ds : List Comment) : Prop :=
  ∃ before after, cs = before ++ ds ++ after ∧ ds ≠ [] ∧
    ∃ first, 1 ≤ first ∧ OnLinesFrom first ds ∧ first + ds.length = line ∧
      (∀ c ∈ after, line ≤ c.line) ∧ ∀ c, before.getLast? = some c → c.line + 1 ≠ first

/-- `ds` is the block of comments at the start of a text: one comment on each of the lines from the first one on, and
as many of them as there are. -/
def IsFirstBlock (cs ds : List Comment) : Prop :=
  ∃ after, cs = ds ++ after ∧ ds ≠ [] ∧ OnLinesFrom 1 ds ∧ ∀ c, after.head? = some c → c.line ≠ 1 + ds.length

/-- The lines of comments, as they are counted in texts. -/
structure Counted (cs : List Comment) : Prop where
  positive : ∀ c ∈ cs, 1 ≤ c.line
  sorted : cs.Pairwise fun c d => c.line ≤ d.line

/-- Names of public definitions and modules: those that start with an upper-case letter of ASCII. -/
def IsPublicName (x : Name) : Prop := ∃ c cs, x = c :: cs ∧ 'A' ≤ c ∧ c ≤ 'Z'

end Verif.Doc
