import Verif.Grammar.TellsOrder
import Verif.Grammar.CommentsSources
import Verif.Grammar.Properties

/-
C67: the formatter keeps the program and the comments.

`formatSource l s` is the formatter on characters, with layout and comments: `parse`, `parseComments`
and `formatModule`.  The lines of the nodes are given by the layout `l`, and so is what `flatten_if`
does when it does not flatten; every statement is for all layouts, of which one is the layout of the
source.  What the comments of a text are is said by `CommentsOf`, which knows nothing of the parsers.
-/

namespace Verif.Grammar

/-! ## The document of a module -/

theorem compileModule_done (l : Layout) (m : Module) (cs : List Comment) :
    ((compileModule l m) cs).2 = [] := rfl

theorem format_facts (l : Layout) {m : Module} (hm : m.Made) {cs : List Comment} (hc : Clean cs) :
    Formatted m (formatModule l m cs) ∧
      (formatModule l m cs = [] ∨ ∃ u, formatModule l m cs = u ++ ['\n']) ∧ ∃ gs : List (List (List Char)),
      Scan (formatModule l m cs) (gs.map glue) ∧ (∀ g ∈ gs, g ≠ []) ∧
      gs.flatten.Perm (cs.map Comment.kept) ∧
      (Spread l m → gs.flatten = cs.map Comment.kept) ∧
      (NotBeside l cs → gs = (cs.map Comment.kept).map fun x => [x]) := by
  obtain ⟨used, h1, ps, h2, h3⟩ := compileModule_runs l hm cs
  rw [compileModule_done, List.append_nil] at h1
  subst h1
  have hone := hc.kept
  have ht := fun h : Spread l m => ((tidyRules l).compileModule (m := m) h cs trivial).2
  have hn := fun h : NotBeside l cs =>
    ((apartRules l).compileModule (m := m) (fun _ _ => trivial) cs h).2
  unfold formatModule Doc.format
  generalize (compileModule l m cs).1 = d at h3 ht hn
  generalize cs.map Comment.kept = xs at h3 hone
  cases h3 with
  | empty => exact ⟨h2 _ rfl, .inl rfl, [], .nil, by simp, by simp, by simp, by simp⟩
  | some h =>
    obtain ⟨gs, pend, g1, g2, g3, g4, g5, g6, g7⟩ := h.tells true 0 ⟨[], true⟩ [] rfl (by simpa using hone)
    have hf := h.flushes 0 ⟨[], true⟩
    rw [hf] at g1
    have hp : pend = [] := by simpa using g1
    subst hp
    rw [hf, List.flatten_nil, List.append_nil]
    refine ⟨h2 _ ?_, .inr (h.ends 0 ⟨[], true⟩), gs, g3, g4, by simpa using g5, fun hs => ?_, fun hs => (g7 rfl (hn hs)).2⟩
    · obtain ⟨k, rest, e, _, hr, _⟩ := g2
      obtain ⟨qs, rfl⟩ := h.soft
      rw [e]
      obtain ⟨u, v, rfl, hu, hv⟩ := hr
      exact ⟨spaces k ++ u, v, by simp, blank_app (spaces_blank k) hu, hv⟩
    · have := g6 (fun _ => ⟨rfl, fun _ => rfl⟩) (ht hs)
      simpa using this

theorem parseComments_clean {s : List Char} {cs : List Comment} (h : parseComments s = some cs) :
    Clean cs := fun c hc =>
  (parseComments_sound h).1.oneLine _ (List.mem_map.mpr ⟨c, hc, rfl⟩)

theorem kept_texts (cs : List Comment) :
    cs.map Comment.kept = (cs.map Comment.text).map trimEnd := by
  rw [List.map_map]
  rfl

theorem formatSource_some {l : Layout} {s t : List Char} (h : formatSource l s = some t) :
    ∃ m cs, parse s = some m ∧ parseComments s = some cs ∧ t = formatModule l m cs := by
  unfold formatSource at h
  split at h
  · cases h
  · rename_i m hm
    split at h
    · cases h
    · rename_i cs hcs
      cases h
      exact ⟨m, cs, hm, hcs, rfl⟩

/-! ## The program -/

/-- The formatter accepts what the parser accepts, except for sources of nothing but white space. -/
theorem c67_sources_that_are_formatted {l : Layout} {s : List Char} :
    (∃ t, formatSource l s = some t) ↔ (∃ m, parse s = some m) ∧ ¬ OnlySpaces s := by
  constructor
  · rintro ⟨t, h⟩
    obtain ⟨m, cs, h1, h2, _⟩ := formatSource_some h
    refine ⟨⟨m, h1⟩, fun hs => ?_⟩
    rw [parseComments_spaces hs] at h2
    cases h2
  · rintro ⟨⟨m, hm⟩, hs⟩
    obtain ⟨xs, hx⟩ := (parse_sound hm).comments
    obtain ⟨cs, hc, _⟩ := parseComments_complete hx hs
    exact ⟨_, by unfold formatSource; rw [hm]; simp only; rw [hc]⟩

/-- What the formatter writes is a rendering of the module that it has read. -/
theorem c67_output_is_a_rendering {l : Layout} {s t : List Char} (h : formatSource l s = some t) :
    ∃ m, parse s = some m ∧ Formatted m t := by
  obtain ⟨m, cs, h1, h2, rfl⟩ := formatSource_some h
  exact ⟨m, h1, (format_facts l (parse_made h1) (parseComments_clean h2)).1⟩

/-- What the formatter writes is empty, or ends with a line break. -/
theorem c67_output_ends_with_a_line_break {l : Layout} {s t : List Char}
    (h : formatSource l s = some t) : t = [] ∨ ∃ u, t = u ++ ['\n'] := by
  obtain ⟨m, cs, h1, h2, rfl⟩ := formatSource_some h
  exact (format_facts l (parse_made h1) (parseComments_clean h2)).2.1

/-- What the formatter writes is parsed to the module that it has read, up to the order of imports.
(Missing: the shapes that `Module.Safe` excludes, for which this is false, see C57.) -/
theorem c67_program_is_kept_partial {l : Layout} {s t : List Char} {m : Module}
    (h : formatSource l s = some t) (hm : parse s = some m) (hs : m.Safe) :
    ∃ m', parse t = some m' ∧ SameModule m m' := by
  obtain ⟨m', h1, h2⟩ := c67_output_is_a_rendering h
  rw [hm] at h1
  cases h1
  exact c57_format_then_parse_partial hm hs h2

/-! ## Comments -/

/-- The parser of comments finds the comments of a text, in order. -/
theorem c67_comments_are_found {s : List Char} {cs : List Comment} (h : parseComments s = some cs) :
    CommentsOf s (cs.map Comment.text) ∧ cs.Pairwise fun c d => c.line ≤ d.line :=
  parseComments_sound h

/-- A text has no other comments than those that `CommentsOf` says. -/
theorem c67_comments_of_a_text_are_unique {s : List Char} {xs ys : List (List Char)}
    (h : CommentsOf s xs) (h' : CommentsOf s ys) : xs = ys := h.unique h'

/-- Every comment is written once: the comments that are written are made of those of the source,
without white space at their ends, some of which are written on the same line. -/
theorem c67_every_comment_is_written_once {l : Layout} {s t : List Char} {xs : List (List Char)}
    (h : formatSource l s = some t) (hx : CommentsOf s xs) :
    ∃ gs : List (List (List Char)), CommentsOf t (gs.map glue) ∧ (∀ g ∈ gs, g ≠ []) ∧
      gs.flatten.Perm (xs.map trimEnd) := by
  obtain ⟨m, cs, h1, h2, rfl⟩ := formatSource_some h
  obtain ⟨_, _, gs, g1, g2, g3, _⟩ := format_facts l (parse_made h1) (parseComments_clean h2)
  rw [kept_texts, (parseComments_sound h2).1.unique hx] at g3
  exact ⟨gs, .scan g1, g2, g3⟩

theorem glue_infix {g : List (List Char)} {x : List Char} (hx : x ∈ g) : ∃ a b, glue g = a ++ x ++ b := by
  cases g with
  | nil => cases hx
  | cons y g =>
    rcases List.mem_cons.mp hx with rfl | hx
    · exact ⟨[], _, rfl⟩
    · obtain ⟨a, b, rfl⟩ := List.append_of_mem hx
      refine ⟨y ++ (a.map enc).flatten ++ [' ', '#'], (b.map enc).flatten, ?_⟩
      simp [glue, enc]

/-- The text of every comment is in a comment that is written. -/
theorem c67_no_comment_is_lost {l : Layout} {s t : List Char} {xs ys : List (List Char)}
    (h : formatSource l s = some t) (hx : CommentsOf s xs) (hy : CommentsOf t ys) :
    ∀ x ∈ xs, ∃ y ∈ ys, ∃ a b, y = a ++ trimEnd x ++ b := by
  obtain ⟨gs, g1, _, g3⟩ := c67_every_comment_is_written_once h hx
  rw [hy.unique g1]
  intro x hxs
  have := g3.mem_iff.mpr (List.mem_map.mpr ⟨x, hxs, rfl⟩)
  obtain ⟨g, hg, hxg⟩ := List.mem_flatten.mp this
  obtain ⟨a, b, e⟩ := glue_infix hxg
  exact ⟨_, List.mem_map.mpr ⟨g, hg, rfl⟩, a, b, e⟩

/-- There are comments in what is written if and only if there are some in the source. -/
theorem c67_no_comment_is_made_up {l : Layout} {s t : List Char} {xs ys : List (List Char)}
    (h : formatSource l s = some t) (hx : CommentsOf s xs) (hy : CommentsOf t ys) :
    ys.length ≤ xs.length ∧ (ys = [] ↔ xs = []) := by
  obtain ⟨gs, g1, g2, g3⟩ := c67_every_comment_is_written_once h hx
  have e := hy.unique g1
  have hlen := g3.length_eq
  rw [List.length_map] at hlen
  have hle : gs.length ≤ gs.flatten.length := by
    clear g1 g3 e hlen
    induction gs with
    | nil => simp
    | cons g gs ih =>
      have := ih fun g hg => g2 g (List.mem_cons_of_mem _ hg)
      have := List.length_pos_iff.mpr (g2 g List.mem_cons_self)
      simp only [List.length_cons, List.flatten_cons, List.length_append]
      omega
  subst e
  refine ⟨by rw [List.length_map]; omega, ?_⟩
  constructor
  · intro h
    have : gs = [] := by simpa using h
    subst this
    exact List.length_eq_zero_iff.mp (by simpa using hlen.symm)
  · rintro rfl
    rw [List.length_nil] at hlen
    rw [List.length_eq_zero_iff.mp (by omega : gs.length = 0)]
    rfl

/-- Comments stay in order, although some are written on the same line, if every function literal
with arguments has the first of them on another line than its `\\`.  (Missing: other function
literals, for which this is false, see below.) -/
theorem c67_comments_stay_in_order_partial {l : Layout} {s t : List Char} {m : Module}
    {xs : List (List Char)} (h : formatSource l s = some t) (hm : parse s = some m)
    (hx : CommentsOf s xs) (hs : Spread l m) :
    ∃ gs : List (List (List Char)), CommentsOf t (gs.map glue) ∧ (∀ g ∈ gs, g ≠ []) ∧
      gs.flatten = xs.map trimEnd := by
  obtain ⟨m', cs, h1, h2, rfl⟩ := formatSource_some h
  rw [hm] at h1
  cases h1
  obtain ⟨_, _, gs, g1, g2, _, g4, _⟩ := format_facts l (parse_made hm) (parseComments_clean h2)
  have := g4 hs
  rw [kept_texts, (parseComments_sound h2).1.unique hx] at this
  exact ⟨gs, .scan g1, g2, this⟩

/-- If no comment is on the line of a node, then the comments that are written are those of the
source, in order.  (Missing: comments at ends of lines, for which this is false, see below.) -/
theorem c67_comments_on_their_own_lines_are_kept_partial {l : Layout} {s t : List Char}
    {xs : List (List Char)} (h : formatSource l s = some t) (hx : CommentsOf s xs)
    (hs : ∀ cs, parseComments s = some cs → ∀ c ∈ cs, ∀ p, l.line p ≠ c.line) :
    CommentsOf t (xs.map trimEnd) := by
  obtain ⟨m, cs, h1, h2, rfl⟩ := formatSource_some h
  obtain ⟨_, _, gs, g1, _, _, _, g5⟩ := format_facts l (parse_made h1) (parseComments_clean h2)
  have := g5 ⟨(parseComments_sound h2).2, hs cs h2⟩
  rw [kept_texts, (parseComments_sound h2).1.unique hx] at this
  rw [this, List.map_map] at g1
  have e : (List.map (glue ∘ fun x => [x]) (xs.map trimEnd)) = xs.map trimEnd := by
    conv_rhs => rw [← List.map_id (xs.map trimEnd)]
    refine List.map_congr_left fun x _ => ?_
    simp [glue]
  rw [e] at g1
  exact .scan g1

/-! ## Again -/

theorem dropWhile_twice (f : Char → Bool) (s : List Char) :
    (s.dropWhile f).dropWhile f = s.dropWhile f := by
  cases h : s.dropWhile f with
  | nil => rfl
  | cons c r => exact List.dropWhile_cons_of_neg (by simp [dropWhile_head h])

theorem trimEnd_trimEnd (t : List Char) : trimEnd (trimEnd t) = trimEnd t := by
  unfold trimEnd
  rw [List.reverse_reverse, dropWhile_twice]

theorem dropWhile_stop {f : Char → Bool} {c : Char} (hc : f c = false) (v : List Char) :
    ∀ u : List Char, (u ++ c :: v).dropWhile f = u.dropWhile f ++ c :: v
  | [] => by simp [hc]
  | d :: u => by
    by_cases hd : f d = true
    · simp [hd, dropWhile_stop hc v u]
    · simp [hd]

theorem trimEnd_hash (a x : List Char) : trimEnd (a ++ '#' :: x) = a ++ '#' :: trimEnd x := by
  unfold trimEnd
  have : (a ++ '#' :: x).reverse = x.reverse ++ '#' :: a.reverse := by simp
  rw [this, dropWhile_stop (by decide)]
  simp

theorem trimEnd_glue {g : List (List Char)} (h : ∀ x ∈ g, trimEnd x = x) :
    trimEnd (glue g) = glue g := by
  cases g with
  | nil => rfl
  | cons t ts =>
    rcases List.eq_nil_or_concat ts with rfl | ⟨us, x, rfl⟩
    · simpa [glue] using h t List.mem_cons_self
    · have e : glue (t :: (us ++ [x])) = (t ++ (us.map enc).flatten ++ [' ']) ++ '#' :: x := by
        simp [glue, enc]
      rw [List.concat_eq_append] at h ⊢
      rw [e, trimEnd_hash, h x (by simp)]

/-- The comments that are written have no white space at their ends. -/
theorem c67_written_comments_are_trimmed {l : Layout} {s t : List Char} {ys : List (List Char)}
    (h : formatSource l s = some t) (hy : CommentsOf t ys) : ∀ y ∈ ys, trimEnd y = y := by
  obtain ⟨m, cs, h1, h2, rfl⟩ := formatSource_some h
  obtain ⟨_, _, gs, g1, g2, g3, _⟩ := format_facts l (parse_made h1) (parseComments_clean h2)
  rw [hy.unique (.scan g1)]
  intro y hy
  obtain ⟨g, hg, rfl⟩ := List.mem_map.mp hy
  refine trimEnd_glue fun x hx => ?_
  have := g3.mem_iff.mp (List.mem_flatten.mpr ⟨g, hg, hx⟩)
  obtain ⟨c, _, rfl⟩ := List.mem_map.mp this
  exact trimEnd_trimEnd c.text

theorem spaces_blank_text {s : List Char} (h : ∀ c ∈ s, isSpace c = true) : Blank s := by
  induction s with
  | nil => exact .nil
  | cons c s ih =>
    exact .space (h c List.mem_cons_self) (ih fun d hd => h d (List.mem_cons_of_mem _ hd))

/-- The module without definitions. -/
def noDefinitions : Module := ⟨[], [], [], []⟩

theorem parse_spaces {s : List Char} (h : ∀ c ∈ s, isSpace c = true) :
    parse s = some noDefinitions := by
  have hp : noDefinitions.Plain := ⟨by simp [noDefinitions], by simp [noDefinitions],
    by simp [noDefinitions], by simp [noDefinitions]⟩
  have hf : Formatted noDefinitions s := by
    show Fills (printModule noDefinitions) s
    have : printModule noDefinitions = [.soft] := by
      simp [printModule, noDefinitions, orderedImports, sortImports]
    rw [this]
    exact fills_one.mpr (spaces_blank_text h)
  rw [c57_formatted_module_is_parsed_back_partial hp hf]
  simp [Module.sorted, noDefinitions, orderedImports, sortImports]

theorem format_nothing (l : Layout) : formatModule l noDefinitions [] = [] := by
  have h : ∀ cs : List Comment, (importsDoc l []) cs = (.cat [], cs) := by
    intro cs
    simp only [importsDoc, List.mergeSort_nil]
    rfl
  simp only [formatModule, compileModule, noDefinitions, numbered, List.filter_nil]
  show (Doc.format _) = _
  simp only [bind, StateT.bind, h, mapDocs, pure, StateT.pure, remainingComment, allComments,
    Doc.intersperse, Doc.cat]
  rfl

/-- What the formatter has written can be formatted again, in every layout.  (Missing: the shapes
that `Module.Safe` excludes.) -/
theorem c67_can_be_formatted_again_partial {l : Layout} {s t : List Char} {m : Module}
    (h : formatSource l s = some t) (hm : parse s = some m) (hs : m.Safe) (l' : Layout) :
    ∃ u, formatSource l' t = some u := by
  obtain ⟨m', h1, h2⟩ := c67_output_is_a_rendering h
  rw [hm] at h1
  cases h1
  have hp := c57_formatted_module_is_parsed_back_partial ((parse_made hm).plain hs) h2
  refine c67_sources_that_are_formatted.mpr ⟨⟨_, hp⟩, fun ho => ho.1 ?_⟩
  rw [parse_spaces ho.2] at hp
  have e := Option.some.inj hp
  have hi : m.imports = [] := by
    have := congrArg Module.imports e
    rw [sorted_imports] at this
    have : orderedImports m.imports = [] := by simpa [noDefinitions] using this.symm
    have := (orderedImports_perm m.imports).length_eq
    rw [‹orderedImports m.imports = []›] at this
    exact List.length_eq_zero_iff.mp this.symm
  have hf : m.foreignImports = [] := (congrArg Module.foreignImports e).symm
  have ht : m.types = [] := (congrArg Module.types e).symm
  have hd : m.functions = [] := (congrArg Module.functions e).symm
  have hm0 : m = noDefinitions := by
    cases m
    simp only at hi hf ht hd
    subst hi hf ht hd
    rfl
  obtain ⟨m', cs, h1, h3, ht⟩ := formatSource_some h
  rw [hm] at h1
  cases h1
  have hc : cs.map Comment.text = [] := by
    have hy : CommentsOf t [] := by
      have : CommentsOf ([] : List Char) [] := .scan .nil
      have := this.spaces ho.2
      simpa using this
    exact (c67_no_comment_is_made_up h (parseComments_sound h3).1 hy).2.mp rfl
  have hcs : cs = [] := by simpa using hc
  rw [ht, hm0, hcs]
  exact format_nothing l

/-- Formatting again keeps comments as they are if none of them is on the line of a node. -/
theorem c67_comments_are_kept_again_partial {l l' : Layout} {s t u : List Char}
    {ys : List (List Char)} (h : formatSource l s = some t) (h' : formatSource l' t = some u)
    (hy : CommentsOf t ys)
    (hs : ∀ cs, parseComments t = some cs → ∀ c ∈ cs, ∀ p, l'.line p ≠ c.line) :
    CommentsOf u ys := by
  have := c67_comments_on_their_own_lines_are_kept_partial h' hy hs
  have e : ys.map trimEnd = ys := by
    conv_rhs => rw [← List.map_id ys]
    exact List.map_congr_left (c67_written_comments_are_trimmed h hy)
  rwa [e] at this

/-! ## What can go wrong -/

/-- White space alone is a module, but it is not formatted. -/
theorem c67_white_space_is_not_formatted (l : Layout) :
    parse ['\n'] = some noDefinitions ∧ formatSource l ['\n'] = none := by
  have h : OnlySpaces ['\n'] := ⟨by simp, by decide⟩
  refine ⟨parse_spaces h.2, ?_⟩
  cases hf : formatSource l ['\n'] with
  | none => rfl
  | some t => exact absurd h (c67_sources_that_are_formatted.mp ⟨t, hf⟩).2

end Verif.Grammar
