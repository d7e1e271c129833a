import Verif.Grammar.Termination
import Verif.Grammar.Properties

/-
C58: the parser accepts only texts of the grammar, and makes trees of which they are writings.
C59: the parser ends for every text.

`ModuleText m s` (`Language.lean`) is the grammar: it relates a module to its writings, and knows
nothing of the parser.
-/

namespace Verif.Grammar

/-- A text that is parsed is, from its beginning to its end, a writing of the module that it is
parsed to: nothing in it is skipped but white space and comments, nothing in the module is made up,
operators are grouped by priority and to the left. -/
theorem c58_parsed_texts_are_in_the_grammar {s : List Char} {m : Module} (h : parse s = some m) :
    ModuleText m s := parse_sound h

/-- A text that is not in the grammar is rejected. -/
theorem c58_other_texts_are_rejected {s : List Char} (h : ∀ m, ¬ ModuleText m s) : parse s = none := by
  cases e : parse s with
  | none => rfl
  | some m => exact absurd (parse_sound e) (h m)

/-- All formattings of a module (without the shapes of C57) are in the grammar. -/
theorem c58_formatted_texts_are_in_the_grammar_partial {m : Module} (hm : m.Plain) {s : List Char}
    (h : Formatted m s) : ModuleText m.sorted s := parse_sound (parse_ok hm h)

/-- The hypotheses can be met. -/
example : ∃ m, parse exampleSource = some m ∧ ModuleText m exampleSource := by
  obtain ⟨m, h, _⟩ := example_safe
  exact ⟨m, h, c58_parsed_texts_are_in_the_grammar h⟩

/-- There are texts that are not in the grammar: a module is empty if its text is. -/
theorem moduleText_nil {m : Module} (h : ModuleText m []) : m = ⟨[], [], [], []⟩ := by
  have hr : ∀ {α : Type} {W : α → List Char → Prop}, (∀ a u, W a u → u ≠ []) →
      ∀ {as : List α} {u : List Char}, Repeated W as u → u = [] → as = [] := by
    intro α W hW as u h e
    cases h with
    | nil => rfl
    | cons h _ => exact absurd (List.append_eq_nil_iff.1 e).1 (hW _ _ h)
  generalize e : ([] : List Char) = s at h
  cases h with
  | mk h1 h2 h3 h4 h5 =>
    have e := e.symm
    simp only [List.append_eq_nil_iff] at e
    obtain ⟨e1, e2, e3, e4, _⟩ := e
    rw [hr ?_ h1 e1, hr ?_ h2 e2, hr ?_ h3 e3, hr ?_ h4 e4]
    · intro a u h
      cases h with
      | mk _ h2 _ _ => have := h2.ne_nil; simp [this]
    · intro a u h
      cases h with
      | record h1 => have := h1.ne_nil (by decide); simp [this]
      | alias_ h1 => have := h1.ne_nil (by decide); simp [this]
    · intro a u h
      cases h with
      | mk h1 => have := h1.ne_nil (by decide); simp [this]
    · intro a u h
      cases h with
      | mk h1 => have := h1.ne_nil (by decide); simp [this]

example : ¬ ModuleText smallModule [] := fun h => by cases moduleText_nil h

/-- Parsing ends: for every text there is a number of nested calls of the nonterminals of the
grammar (the length of the text) that is enough for an answer, and the answer is the same for all
larger numbers. -/
theorem c59_parsing_ends (s : List Char) : ∃ r, r ≠ .fuel ∧
    ∀ n, s.length < n → module_ (grammar n) s = r :=
  ⟨module_ (grammar (s.length + 1)) s, (parse_total s (Nat.lt_succ_self _)).2,
    fun _ h => (parse_total s h).1⟩

/-- `parse` has the answer of every larger bound. -/
theorem c59_bound_does_not_matter (s : List Char) {n : Nat} (h : s.length < n) :
    parse s = match module_ (grammar n) s with
      | .ok m r => if (blank r).isEmpty then some m else none
      | _ => none := by
  rw [(parse_total s h).1]
  rfl

end Verif.Grammar
