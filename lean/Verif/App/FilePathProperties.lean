import Verif.App.FilePath

/-!
# C40: paths

`relative_to` inverts `join`; replacing an extension yields a path with that extension and the
same stem; the path of a module is found from its source file and back.
-/

namespace Verif.App

/-- **C40**: what is joined to a base is found relative to the base. -/
theorem c40_relative_join (base path : Path) : relativeTo (join base path) base = some path := by
  unfold relativeTo join
  have h : ((base ++ path).zip base).all (fun (one, other) => decide (one = other)) = true := by
    induction base with
    | nil => simp
    | cons b base ih => simpa using ih
  simp [h]

example : relativeTo (join [['a'], ['b']] [['c']]) [['a'], ['b']] = some [['c']] := by decide

/-- **C40 (partial)**: a relative path joined to the base gives the path back, provided that the
base is not longer than the path.  Missing: longer bases, see `c40_longer_base`. -/
theorem c40_relative_sound_partial (path base relative : Path)
    (h : relativeTo path base = some relative) (hl : base.length ≤ path.length) :
    join base relative = path := by
  unfold relativeTo at h
  split at h
  · rename_i ha
    cases h
    unfold join
    induction base generalizing path with
    | nil => simp
    | cons b base ih =>
      cases path with
      | nil => simp at hl
      | cons p path =>
        simp only [List.zip_cons_cons, List.all_cons, Bool.and_eq_true, decide_eq_true_eq] at ha
        simp only [List.length_cons, List.drop_succ_cons, List.cons_append, List.cons.injEq]
        exact ⟨ha.1.symm, ih path (by simpa using hl) ha.2⟩
  · cases h

example : relativeTo [['a'], ['b'], ['c']] [['a']] = some [['b'], ['c']] := by decide

/-- A base that is longer than the path is accepted although the path is not inside of it: `a` is
considered to be the empty path relative to `a/b`. -/
theorem c40_longer_base : relativeTo [['a']] [['a'], ['b']] = some [] := by decide

/-- The part of a file name before the first period. -/
def stem (name : List Char) : List Char := name.takeWhile (· ≠ '.')

theorem replaceExtension_stem (replacement name : List Char) (h : '\n' ∉ name) :
    replaceExtension replacement name = stem name ++ replacement := by
  induction name with
  | nil => rfl
  | cons c s ih =>
    simp only [List.mem_cons, not_or] at h
    unfold replaceExtension stem
    by_cases hc : c = '.'
    · simp [hc, h.2]
    · simp only [hc, false_and, if_false]
      rw [ih h.2]
      simp [stem, hc]

/-- **C40**: replacing an extension changes nothing but what follows the first period of the file
name. -/
theorem c40_extension_stem (directory : Path) (name extension : List Char) (h : '\n' ∉ name) :
    withExtension (directory ++ [name]) extension =
      directory ++ [stem name ++ if extension.isEmpty then [] else '.' :: extension] := by
  simp [withExtension, replaceExtension_stem _ _ h]

theorem splitOnce_stem (name rest : List Char) :
    splitOnce (stem name ++ '.' :: rest) = some (stem name, rest) := by
  unfold stem
  induction name with
  | nil => simp [splitOnce]
  | cons c s ih =>
    by_cases hc : c = '.'
    · simp [hc, splitOnce]
    · simp only [ne_eq, hc, not_false_eq_true, decide_true, List.takeWhile_cons_of_pos,
        List.cons_append]
      simp only [splitOnce, hc, if_false]
      rw [ih]
      rfl

theorem splitOnce_none (name : List Char) : splitOnce (stem name) = none := by
  unfold stem
  induction name with
  | nil => rfl
  | cons c s ih =>
    by_cases hc : c = '.'
    · simp [hc, splitOnce]
    · simp only [ne_eq, hc, not_false_eq_true, decide_true, List.takeWhile_cons_of_pos]
      simp only [splitOnce, hc, if_false]
      rw [ih]
      rfl

/-- **C40**: a path has the extension it was given. -/
theorem c40_has_extension (directory : Path) (name extension : List Char) (h : '\n' ∉ name) :
    hasExtension (withExtension (directory ++ [name]) extension) extension = true := by
  rw [c40_extension_stem directory name extension h]
  unfold hasExtension
  simp only [List.getLast?_append, List.getLast?_singleton, Option.some_or]
  cases extension with
  | nil => simp [splitOnce_none]
  | cons c s =>
    simp only [List.isEmpty_cons, Bool.false_eq_true, if_false, splitOnce_stem, Option.getD_some]
    split
    · rename_i he
      have := congrArg List.length he
      simp at this
      omega
    · simp

/-- … and no other extension. -/
theorem c40_extension_unique (directory : Path) (name extension other : List Char)
    (h : '\n' ∉ name)
    (ho : hasExtension (withExtension (directory ++ [name]) extension) other = true) :
    other = extension := by
  rw [c40_extension_stem directory name extension h] at ho
  unfold hasExtension at ho
  simp only [List.getLast?_append, List.getLast?_singleton, Option.some_or] at ho
  cases extension with
  | nil =>
    simp only [List.isEmpty_nil, if_true, List.append_nil, splitOnce_none, Option.getD_none] at ho
    split at ho
    · simpa using ho
    · simpa using (of_decide_eq_true ho).symm
  | cons c s =>
    simp only [List.isEmpty_cons, Bool.false_eq_true, if_false, splitOnce_stem,
      Option.getD_some] at ho
    split at ho
    · rename_i he
      have := congrArg List.length he
      simp at this
      omega
    · exact (of_decide_eq_true ho).symm

example : withExtension [['a'], ['b', '.', 't', '.', 'p']] ['o'] = [['a'], ['b', '.', 'o']] := by
  decide

theorem stem_of_no_period (name : List Char) (h : '.' ∉ name) : stem name = name := by
  unfold stem
  induction name with
  | nil => rfl
  | cons c s ih =>
    simp only [List.mem_cons, not_or] at h
    have hc : c ≠ '.' := fun e => h.1 e.symm
    simp [hc] at ih ⊢
    exact ih h.2

theorem stem_stem (name rest : List Char) : stem (stem name ++ '.' :: rest) = stem name := by
  unfold stem
  induction name with
  | nil => simp
  | cons c s ih =>
    by_cases hc : c = '.'
    · simp [hc]
    · simp [hc] at ih ⊢
      exact ih

/-- **C40**: a module is found under its own path: the components of a module path are recovered
from its source file, for components without periods and line breaks (module paths consist of
identifiers). -/
theorem c40_module_path (directory : Path) (components : List (List Char)) (name extension : List Char)
    (h : '.' ∉ name) (hn : '\n' ∉ name) (he : '\n' ∉ extension) :
    resolveModulePath directory (resolveSourceFile directory (components ++ [name]) extension) =
      some (components ++ [name]) := by
  have h1 : resolveSourceFile directory (components ++ [name]) extension =
      join directory (components ++ [name ++ if extension.isEmpty then [] else '.' :: extension]) := by
    have := c40_extension_stem (directory ++ components) name extension hn
    rw [stem_of_no_period _ h] at this
    simpa [resolveSourceFile, join] using this
  rw [h1, resolveModulePath, c40_relative_join]
  simp only [Option.map_some, Option.some.injEq]
  have h2 := c40_extension_stem components
    (name ++ if extension.isEmpty then [] else '.' :: extension) []
    (by
      cases extension with
      | nil => simpa using hn
      | cons c s => simp at he ⊢; exact ⟨hn, he⟩)
  rw [h2]
  cases extension with
  | nil => simp [stem_of_no_period _ h]
  | cons c s =>
    have h3 := stem_stem name (c :: s)
    rw [stem_of_no_period _ h] at h3
    simp [h3]

example : resolveModulePath [['p']] (resolveSourceFile [['p']] [['A'], ['B']] ['p', 'e', 'n']) =
    some [['A'], ['B']] := by decide

/-- Different modules of a package have different source files. -/
theorem c40_module_files_distinct (directory : Path) (cs ds : List (List Char))
    (n m extension : List Char) (hn : '.' ∉ n ∧ '\n' ∉ n) (hm : '.' ∉ m ∧ '\n' ∉ m)
    (he : '\n' ∉ extension)
    (h : resolveSourceFile directory (cs ++ [n]) extension =
      resolveSourceFile directory (ds ++ [m]) extension) :
    cs ++ [n] = ds ++ [m] := by
  have h1 := c40_module_path directory cs n extension hn.1 hn.2 he
  have h2 := c40_module_path directory ds m extension hm.1 hm.2 he
  rw [h] at h1
  rw [h1] at h2
  exact Option.some.inj h2

/-! ## C45: external packages are kept apart -/

/-- The identifier of a package, which names its directory, archive and build script, contains no
path separators. -/
theorem c45_no_separator (url : List Char) : ∀ c ∈ packageId url, isSeparator c = false := by
  suffices h : ∀ inside, ∀ c ∈ packageIdFrom inside url, isSeparator c = false from h false
  induction url with
  | nil => simp [packageIdFrom]
  | cons d s ih =>
    intro inside c hc
    unfold packageIdFrom at hc
    split at hc
    · split at hc
      · exact ih true c hc
      · rcases List.mem_cons.1 hc with rfl | hc
        · rfl
        · exact ih true c hc
    · rename_i hd
      rcases List.mem_cons.1 hc with rfl | hc
      · simpa using hd
      · exact ih false c hc

/-- **C45 is violated**: the packages `https://a.b/c` and `https://a/b/c` share an identifier, and
so their directories. -/
theorem c45_collision :
    packageId "https://a.b/c".toList = packageId "https://a/b/c".toList ∧
      "https://a.b/c".toList ≠ "https://a/b/c".toList := by
  constructor <;> decide

/-- What separates the components of a URL: all runs of separators are taken for the same, and for
an underscore.  URLs that have neither runs nor underscores, and whose separators are all slashes,
are kept apart. -/
def plainUrl (url : List Char) : Prop :=
  (∀ c ∈ url, isSeparator c = true → c = '/') ∧ '_' ∉ url ∧
  ∀ a b, url ≠ a ++ '/' :: '/' :: b

theorem packageIdFrom_plain (url : List Char) (h : plainUrl url) (inside : Bool)
    (hi : inside = true → ∀ s, url ≠ '/' :: s) :
    packageIdFrom inside url = url.map fun c => if c = '/' then '_' else c := by
  induction url generalizing inside with
  | nil => rfl
  | cons c s ih =>
    obtain ⟨h1, h2, h3⟩ := h
    have hs : plainUrl s := ⟨fun c hc => h1 c (List.mem_cons_of_mem _ hc),
      fun hc => h2 (List.mem_cons_of_mem _ hc), fun a b e => h3 (c :: a) b (by rw [e]; rfl)⟩
    unfold packageIdFrom
    by_cases hc : isSeparator c = true
    · have hcs := h1 c List.mem_cons_self hc
      subst hcs
      rw [if_pos hc]
      cases inside with
      | true => exact absurd rfl (hi rfl s)
      | false =>
        simp only [Bool.false_eq_true, if_false, List.map_cons, if_true, List.cons.injEq, true_and]
        exact ih hs true fun _ t e => h3 [] t (by rw [e]; rfl)
    · rw [if_neg hc]
      have hne : c ≠ '/' := by rintro rfl; exact hc rfl
      simp only [List.map_cons, hne, if_false, List.cons.injEq, true_and]
      exact ih hs false fun e => by cases e

/-- **C45 (partial)**: different packages have different identifiers, if their URLs use no
separators but single slashes, and no underscores.  Missing: all other URLs, for which it is false
in general, see `c45_collision`. -/
theorem c45_distinct_partial (url url' : List Char) (h : plainUrl url) (h' : plainUrl url')
    (he : packageId url = packageId url') : url = url' := by
  unfold packageId at he
  rw [packageIdFrom_plain url h false (fun e => by cases e),
    packageIdFrom_plain url' h' false (fun e => by cases e)] at he
  have h2 := h.2.1
  have h2' := h'.2.1
  clear h h'
  induction url generalizing url' with
  | nil => cases url' with
    | nil => rfl
    | cons c s => simp at he
  | cons c s ih =>
    cases url' with
    | nil => simp at he
    | cons d t =>
      simp only [List.map_cons, List.cons.injEq] at he
      simp only [List.mem_cons, not_or] at h2 h2'
      rw [ih t he.2 h2.2 h2'.2]
      congr 1
      obtain ⟨he, _⟩ := he
      split at he <;> split at he <;> simp_all

example : plainUrl "host/a/b".toList ∧ plainUrl "host/ab".toList ∧
    packageId "host/a/b".toList ≠ packageId "host/ab".toList := by
  refine ⟨⟨by decide, by decide, ?_⟩, ⟨by decide, by decide, ?_⟩, by decide⟩
  · intro a b e
    match a, e with
    | [], e => simp at e
    | [_], e => simp at e
    | [_, _], e => simp at e
    | [_, _, _], e => simp at e
    | [_, _, _, _], e => simp at e
    | [_, _, _, _, _], e => simp at e
    | [_, _, _, _, _, _], e => simp at e
    | [_, _, _, _, _, _, _], e => simp at e
    | _ :: _ :: _ :: _ :: _ :: _ :: _ :: _ :: a, e =>
      have := congrArg List.length e
      simp at this
  · intro a b e
    match a, e with
    | [], e => simp at e
    | [_], e => simp at e
    | [_, _], e => simp at e
    | [_, _, _], e => simp at e
    | [_, _, _, _], e => simp at e
    | [_, _, _, _, _], e => simp at e
    | [_, _, _, _, _, _], e => simp at e
    | _ :: _ :: _ :: _ :: _ :: _ :: _ :: a, e =>
      have := congrArg List.length e
      simp at this

end Verif.App
