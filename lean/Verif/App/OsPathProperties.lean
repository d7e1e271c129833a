import Verif.App.OsPath
import Mathlib.Data.List.Induction
/-
C77: files of packages are files of the operating system.
-/
namespace Verif.App.OsPath

open Verif.App (Path)

/-! ### Specification -/

/-- Where a path leads when nothing is a symbolic link: the names from the root. -/
def resolve (path : OsPath) : List (List Char) :=
  path.foldl (fun names c => match c with
    | .root => []
    | .current => names
    | .parent => names.dropLast
    | .normal name => names ++ [name]) []

/-- Names as files of packages have: not empty, not one of the special directories, and without separators. -/
def Plain (name : List Char) : Prop :=
  name ≠ [] ∧ name ≠ ['.'] ∧ name ≠ ['.', '.'] ∧ '/' ∉ name ∧ '\\' ∉ name

instance (name : List Char) : Decidable (Plain name) := by unfold Plain; infer_instance

/-- Paths from the root, as current directories are. -/
def Absolute (path : OsPath) : Prop := path.head? = some .root

instance (path : OsPath) : Decidable (Absolute path) := by unfold Absolute; infer_instance

/-! ### Names -/

theorem sanitize_plain {name : List Char} (h1 : '/' ∉ name) (h2 : '\\' ∉ name) : sanitize name = name := by
  unfold sanitize
  conv => rhs; rw [← List.map_id name]
  apply List.map_congr_left
  intro c hc
  have : ¬(c = '/' ∨ c = '\\') := by
    rintro (rfl | rfl)
    · exact h1 hc
    · exact h2 hc
  simp [this]

theorem component_plain {name : List Char} (h : Plain name) : component (sanitize name) = [.normal name] := by
  rw [sanitize_plain h.2.2.2.1 h.2.2.2.2]
  simp [component, h.1, h.2.1, h.2.2.1]

theorem component_no_root (name : List Char) : Component.root ∉ component name := by
  unfold component
  split
  · simp
  · split
    · simp
    · split <;> simp

theorem osJoin_no_root {base path : OsPath} (h : Component.root ∉ path) :
    osJoin base path = if base = [] then path else base ++ dropCurrent path := by
  unfold osJoin
  split
  · simp at h
  · rfl

theorem osJoin_absolute {base path : OsPath} (hb : Absolute base) (h : Component.root ∉ path) :
    osJoin base path = base ++ dropCurrent path := by
  rw [osJoin_no_root h, if_neg]
  rintro rfl
  simp [Absolute] at hb

theorem dropCurrent_append (a b : OsPath) : dropCurrent (a ++ b) = dropCurrent a ++ dropCurrent b := by
  simp [dropCurrent]

theorem dropCurrent_idem (a : OsPath) : dropCurrent (dropCurrent a) = dropCurrent a := by
  simp [dropCurrent]

theorem dropCurrent_osJoin {base path : OsPath} (h : Component.root ∉ path) :
    dropCurrent (osJoin base path) = dropCurrent base ++ dropCurrent path := by
  rw [osJoin_no_root h]
  split
  · rename_i hb; subst hb; simp [dropCurrent]
  · rw [dropCurrent_append, dropCurrent_idem]

theorem osJoin_root {base path : OsPath} (hb : Component.root ∉ base) (h : Component.root ∉ path) :
    Component.root ∉ osJoin base path := by
  rw [osJoin_no_root h]
  split
  · exact h
  · rw [List.mem_append]
    rintro (h1 | h1)
    · exact hb h1
    · exact h (List.mem_filter.mp h1).1

/-- The components of the names of a path. -/
def pieces (path : Path) : OsPath := dropCurrent (path.flatMap fun name => component (sanitize name))

theorem collect_spec (path : Path) (os : OsPath) (h : Component.root ∉ os) :
    Component.root ∉ path.foldl (fun os name => osJoin os (component (sanitize name))) os ∧
    dropCurrent (path.foldl (fun os name => osJoin os (component (sanitize name))) os) = dropCurrent os ++ pieces path := by
  induction path generalizing os with
  | nil => exact ⟨h, by simp [pieces, dropCurrent]⟩
  | cons name path ih =>
    obtain ⟨h1, h2⟩ := ih (osJoin os (component (sanitize name))) (osJoin_root h (component_no_root _))
    refine ⟨h1, ?_⟩
    rw [List.foldl_cons, h2, dropCurrent_osJoin (component_no_root _)]
    simp [pieces, dropCurrent_append]

theorem convertToOsPath_absolute {base : OsPath} (hb : Absolute base) (path : Path) :
    convertToOsPath base path = base ++ pieces path := by
  obtain ⟨h1, h2⟩ := collect_spec path [] (by simp)
  unfold convertToOsPath
  rw [osJoin_absolute hb h1, h2]
  simp [dropCurrent]

theorem pieces_plain {path : Path} (h : ∀ name ∈ path, Plain name) : pieces path = path.map .normal := by
  induction path with
  | nil => rfl
  | cons name path ih =>
    have h1 := component_plain (h name (List.mem_cons_self ..))
    have h2 := ih fun n hn => h n (List.mem_cons_of_mem _ hn)
    unfold pieces at h2 ⊢
    rw [List.flatMap_cons, h1, dropCurrent_append, h2]
    rfl

/-! ### Paths of files -/

/-- A file of a package is the file of the operating system in the directory of the package with the same names. -/
theorem c77_names {base : OsPath} (hb : Absolute base) {path : Path} (hp : ∀ name ∈ path, Plain name) :
    convertToOsPath base path = base ++ path.map .normal := by
  rw [convertToOsPath_absolute hb, pieces_plain hp]

theorem resolve_append (a b : OsPath) (hb : ∀ c ∈ b, ∃ name, c = .normal name) :
    resolve (a ++ b) = resolve a ++ convertComponents b := by
  unfold resolve
  rw [List.foldl_append]
  generalize List.foldl _ [] a = names
  induction b generalizing names with
  | nil => simp [convertComponents]
  | cons c b ih =>
    obtain ⟨name, rfl⟩ := hb c (List.mem_cons_self ..)
    rw [List.foldl_cons, ih (fun c hc => hb c (List.mem_cons_of_mem _ hc))]
    simp [convertComponents]

theorem sanitize_eq_dots {name : List Char} {dots : List Char} (hd : ∀ c ∈ dots, c = '.') (h : sanitize name = dots) :
    name = dots := by
  unfold sanitize at h
  subst h
  conv => lhs; rw [← List.map_id name]
  apply List.map_congr_left
  intro c hc
  have := hd _ (List.mem_map.mpr ⟨c, hc, rfl⟩)
  by_cases h : c = '/' ∨ c = '\\'
  · rw [if_pos h] at this; exact absurd this (by decide)
  · simp [h]

/-- No file of a package is outside its directory, whatever its names are, if none is that of the parent directory:
it has the names without the empty name and the current directory, and with underscores for separators. -/
theorem c77_files_are_inside {base : OsPath} (hb : Absolute base) {path : Path} (hp : ['.', '.'] ∉ path) :
    resolve (convertToOsPath base path) =
      resolve base ++ (path.filter fun name => name ≠ [] ∧ name ≠ ['.']).map sanitize := by
  rw [convertToOsPath_absolute hb]
  have key : ∀ p : Path, ['.', '.'] ∉ p →
      pieces p = ((p.filter fun name => name ≠ [] ∧ name ≠ ['.']).map sanitize).map .normal := by
    intro p hp
    induction p with
    | nil => rfl
    | cons name p ih =>
      simp only [List.mem_cons, not_or] at hp
      have h2 := ih hp.2
      unfold pieces at h2 ⊢
      rw [List.flatMap_cons, dropCurrent_append, h2, List.filter_cons]
      have e0 : sanitize name = [] ↔ name = [] := by simp [sanitize]
      have e1 : sanitize name = ['.'] ↔ name = ['.'] :=
        ⟨sanitize_eq_dots (by simp), fun h => by rw [h]; rfl⟩
      have e2 : sanitize name ≠ ['.', '.'] := fun h => hp.1 (sanitize_eq_dots (by simp) h).symm
      by_cases h0 : name = []
      · subst h0; simp [sanitize, component, dropCurrent]
      by_cases h1 : name = ['.']
      · subst h1; simp [sanitize, component, dropCurrent]
      have hc : component (sanitize name) = [.normal (sanitize name)] := by
        simp [component, e0, e1, e2, h0, h1]
      rw [hc]
      simp [h0, h1, dropCurrent]
  rw [key path hp, resolve_append _ _ (by
    intro c hc
    obtain ⟨n, _, rfl⟩ := List.mem_map.mp hc
    exact ⟨n, rfl⟩)]
  congr 1
  simp [convertComponents, List.filterMap_map, Function.comp_def]

theorem stripPrefix_append (base path : OsPath) : stripPrefix (base ++ path) base = some path := by
  induction base with
  | nil => unfold stripPrefix; rfl
  | cons c base ih => simp [stripPrefix, ih]

theorem stripPrefix_some {path base rest : OsPath} : stripPrefix path base = some rest ↔ path = base ++ rest := by
  constructor
  · intro h
    induction base generalizing path with
    | nil => unfold stripPrefix at h; simpa using h
    | cons d base ih =>
      cases path with
      | nil => simp [stripPrefix] at h
      | cons c path =>
        unfold stripPrefix at h
        split at h
        · rename_i hc; rw [ih h, hc]; rfl
        · simp at h
  · rintro rfl; exact stripPrefix_append base rest

theorem convertComponents_normal (path : Path) : convertComponents (path.map .normal) = path := by
  simp [convertComponents, List.filterMap_map, Function.comp_def]

theorem absolute_append {base : OsPath} (hb : Absolute base) (rest : OsPath) : Absolute (base ++ rest) := by
  unfold Absolute at *
  cases base with
  | nil => simp at hb
  | cons c base => simpa using hb

/-- The file of the operating system of a file of a package is that file. -/
theorem c77_there_and_back {base : OsPath} (hb : Absolute base) {path : Path} (hp : ∀ name ∈ path, Plain name) :
    convertToFilePath base (convertToOsPath base path) = some path := by
  have h := absolute_append hb (path.map Component.normal)
  unfold Absolute at h
  rw [c77_names hb hp, convertToFilePath, if_pos h, stripPrefix_append]
  simp [convertComponents_normal]

/-- Different files of a package are different files of the operating system. -/
theorem c77_different_files {base : OsPath} (hb : Absolute base) {p q : Path} (hp : ∀ name ∈ p, Plain name)
    (hq : ∀ name ∈ q, Plain name) (h : resolve (convertToOsPath base p) = resolve (convertToOsPath base q)) : p = q := by
  rw [c77_names hb hp, c77_names hb hq, resolve_append _ _ (by simp), resolve_append _ _ (by simp),
    convertComponents_normal, convertComponents_normal] at h
  exact List.append_cancel_left h

/-- A file given from the root is found where it is if it is in the directory of the package, and refused if it is not. -/
theorem c77_given_from_the_root {base path : OsPath} (hb : Absolute base) (ha : Absolute path) :
    (convertToFilePath base path = none ↔ ¬ base <+: path) ∧
    (∀ names : Path, (∀ name ∈ names, Plain name) → path = base ++ names.map .normal →
      (convertToFilePath base path).map (convertToOsPath base) = some path) := by
  constructor
  · unfold Absolute at ha
    rw [convertToFilePath, if_pos ha, Option.map_eq_none_iff]
    constructor
    · rintro h ⟨rest, hr⟩
      rw [stripPrefix_some.mpr hr.symm] at h
      simp at h
    · intro h
      cases hs : stripPrefix path base with
      | none => rfl
      | some rest => exact absurd ⟨rest, (stripPrefix_some.mp hs).symm⟩ h
  · rintro names hn rfl
    rw [← c77_names hb hn, c77_there_and_back hb hn, Option.map_some]

/-- A file given from the directory of the package is found there. -/
theorem c77_given_from_the_package {base : OsPath} (hb : Absolute base) {names : Path} (hn : ∀ name ∈ names, Plain name) :
    (convertToFilePath base (names.map .normal)).map (convertToOsPath base) = some (base ++ names.map .normal) := by
  have : ¬ (names.map Component.normal).head? = some .root := by cases names <;> simp
  rw [convertToFilePath, if_neg this, convertComponents_normal, Option.map_some, c77_names hb hn]

theorem mapM_map {α β : Type} {f : α → Option β} {g : α → β} {l : List α} (h : ∀ a ∈ l, f a = some (g a)) :
    l.mapM f = some (l.map g) := by
  induction l with
  | nil => rfl
  | cons a l ih =>
    rw [List.mapM_cons, h a (List.mem_cons_self ..), ih fun b hb => h b (List.mem_cons_of_mem _ hb)]
    rfl

/-- The files of a directory are its path joined to the names of its entries. -/
theorem c77_directories {base : OsPath} (hb : Absolute base) {path : Path} (hp : ∀ name ∈ path, Plain name)
    (names : List (List Char)) :
    readDirectory base path names = some (names.map fun name => Verif.App.join path [name]) := by
  refine mapM_map fun name _ => ?_
  have ha := absolute_append hb (path.map Component.normal)
  rw [c77_names hb hp, osJoin_absolute ha (by simp), show dropCurrent [Component.normal name] = [.normal name] by rfl,
    List.append_assoc]
  have h := absolute_append hb (path.map Component.normal ++ [.normal name])
  unfold Absolute at h
  rw [convertToFilePath, if_pos h, stripPrefix_append,
    show path.map Component.normal ++ [.normal name] = (path ++ [name]).map .normal by simp, Option.map_some,
    convertComponents_normal]
  rfl

/-! ### The directory of the package -/

theorem parentOf_eq {path parent : OsPath} (h : parentOf path = some parent) : ∃ c, path = parent ++ [c] := by
  rcases List.eq_nil_or_concat path with rfl | ⟨init, c, rfl⟩
  · simp [parentOf] at h
  · unfold parentOf at h
    simp only [List.concat_eq_append] at h ⊢
    rw [List.getLast?_concat, List.dropLast_concat] at h
    split at h
    · simp at h
    · simp at h
    · simp only [Option.some.injEq] at h
      subst h
      exact ⟨c, rfl⟩

/-- The package of a directory is in the nearest of the directory and those it is in that have a configuration. -/
theorem c77_nearest_package {has : OsPath → Bool} {directory found : OsPath}
    (h : findDirectory has directory = some found) :
    has found = true ∧ found <+: directory ∧
      ∀ d : OsPath, found <+: d → d <+: directory → d ≠ found → has d = false := by
  induction hn : directory.length using Nat.strongRecOn generalizing directory with
  | _ n ih =>
    unfold findDirectory at h
    split at h
    · rename_i hh
      simp only [Option.some.injEq] at h
      subst h
      exact ⟨hh, List.prefix_rfl, fun d h1 h2 h3 =>
        absurd (List.IsPrefix.eq_of_length h2 (Nat.le_antisymm h2.length_le h1.length_le)) h3⟩
    · rename_i hh
      split at h
      · simp at h
      · rename_i parent hp
        obtain ⟨c, rfl⟩ := parentOf_eq hp
        obtain ⟨h1, h2, h3⟩ := ih parent.length (by subst hn; simp) h rfl
        refine ⟨h1, h2.trans (List.prefix_append _ _), fun d h4 h5 h6 => ?_⟩
        rcases List.prefix_concat_iff.mp (by simpa using h5) with h7 | h7
        · subst h7; simpa using hh
        · exact h3 d h4 h7 h6

/-- If there is one, it is found. -/
theorem c77_packages_are_found {has : OsPath → Bool} {base : OsPath} (hb : has (.root :: base) = true) (rest : Path) :
    (findDirectory has (.root :: base ++ rest.map .normal)).isSome = true := by
  induction rest using List.reverseRecOn with
  | nil => unfold findDirectory; simp [hb]
  | append_singleton rest name ih =>
    unfold findDirectory
    split
    · rfl
    · have : parentOf (.root :: base ++ (rest ++ [name]).map .normal) = some (.root :: base ++ rest.map .normal) := by
        unfold parentOf
        rw [show (Component.root :: base ++ (rest ++ [name]).map .normal : OsPath) =
          (.root :: base ++ rest.map .normal) ++ [.normal name] by simp]
        rw [List.getLast?_concat, List.dropLast_concat]
      split
      · rename_i h; rw [this] at h; simp at h
      · rename_i parent h
        rw [this, Option.some.injEq] at h
        subst h
        exact ih

theorem convertToOsPath_empty {path : Path} (hp : ∀ name ∈ path, Plain name) :
    convertToOsPath [] path = path.map .normal := by
  obtain ⟨h1, h2⟩ := collect_spec path [] (by simp)
  have key : ∀ (p : Path) (os : OsPath), (∀ name ∈ p, Plain name) →
      p.foldl (fun os name => osJoin os (component (sanitize name))) os = os ++ p.map .normal := by
    intro p
    induction p with
    | nil => intro os _; simp
    | cons name p ih =>
      intro os hp
      rw [List.foldl_cons, component_plain (hp name (List.mem_cons_self ..)), osJoin_no_root (by simp),
        ih _ fun n hn => hp n (List.mem_cons_of_mem _ hn)]
      split
      · rename_i h; subst h; simp
      · simp [dropCurrent]
  unfold convertToOsPath
  rw [key path [] hp, List.nil_append, osJoin_no_root (by simp), if_pos rfl]

/-- A package given from the root is created there. -/
theorem c77_created_from_the_root {base : OsPath} (hb : Absolute base) {name : List Char} (hn : Plain name) :
    createdDirectory (base ++ [.normal name]) = some (base ++ [.normal name]) := by
  have hp : parentOf (base ++ [.normal name]) = some base := by
    unfold parentOf
    rw [List.getLast?_concat, List.dropLast_concat]
  rw [createdDirectory, hp, Option.bind_some]
  have := (c77_given_from_the_root hb (absolute_append hb [.normal name])).2 [name] (by simpa using hn) rfl
  exact this

/-- A package given by its name is created in the current directory; one in a directory of it is not created there: the
directory is joined to it again. -/
theorem c77_created_from_the_current_directory (directory : Path) (hd : ∀ n ∈ directory, Plain n) {name : List Char}
    (hn : Plain name) :
    createdDirectory ((directory ++ [name]).map .normal) = some ((directory ++ directory ++ [name]).map .normal) := by
  have hp : parentOf ((directory ++ [name]).map .normal) = some (directory.map .normal) := by
    unfold parentOf
    rw [List.map_append, List.map_singleton, List.getLast?_concat, List.dropLast_concat]
  have hr : ¬ ((directory ++ [name]).map Component.normal).head? = some .root := by cases directory <;> simp
  have hpl : ∀ n ∈ directory ++ [name], Plain n := by
    intro n h
    rcases List.mem_append.mp h with h | h
    · exact hd n h
    · rw [List.mem_singleton.mp h]; exact hn
  rw [createdDirectory, hp, Option.bind_some, convertToFilePath, if_neg hr, convertComponents_normal, Option.map_some]
  congr 1
  cases hdir : directory with
  | nil => subst hdir; exact convertToOsPath_empty hpl
  | cons d ds =>
    rw [← hdir]
    obtain ⟨h1, h2⟩ := collect_spec (directory ++ [name]) [] (by simp)
    unfold convertToOsPath
    rw [osJoin_no_root h1, if_neg (by rw [hdir]; simp), h2, pieces_plain hpl]
    simp [dropCurrent]

/-! ### Counterexamples and examples -/

/-- `pen create foo/bar` creates a package in `foo/foo/bar`. -/
theorem c77_nested_packages_are_misplaced :
    createdDirectory (parse "foo/bar".toList) = some (parse "foo/foo/bar".toList) := by decide +kernel

/-- `pen create ..` creates a package in the current directory. -/
theorem c77_parent_is_not_created : createdDirectory (parse "..".toList) = some [] := by decide +kernel

/-- Files given with parent directories are other files. -/
theorem c77_parents_are_dropped :
    (convertToFilePath (parse "/p".toList) (parse "foo/../bar".toList)).map (convertToOsPath (parse "/p".toList)) =
      some (parse "/p/foo/bar".toList) := by decide +kernel

/-- A path with the name of the parent directory is outside the package. -/
theorem c77_parents_escape :
    resolve (convertToOsPath (parse "/p".toList) [['.', '.'], ['x']]) = [['x']] := by decide +kernel

/-- Names with separators have the file of another name. -/
theorem c77_separators_collide :
    convertToOsPath (parse "/p".toList) ["a/b".toList] = convertToOsPath (parse "/p".toList) ["a_b".toList] := by
  decide +kernel

/-- A file with a backslash in its name is listed by its directory, and is then not the file that is read. -/
theorem c77_backslashes_are_lost :
    (readDirectory (parse "/p".toList) [] ["a\\b".toList]).map (·.map (convertToOsPath (parse "/p".toList))) =
      some [parse "/p/a_b".toList] := by decide +kernel

example : parse "/foo/./bar//baz/..".toList =
    [.root, .normal "foo".toList, .normal "bar".toList, .normal "baz".toList, .parent] := by decide +kernel

example : parse "./a".toList = [.current, .normal ['a']] ∧ parse "a/.".toList = [.normal ['a']] := by decide +kernel

/-- The tests of the converter. -/
example : convertToOsPath (parse "/d".toList) [] = parse "/d".toList ∧
    convertToOsPath (parse "/d".toList) ["foo".toList] = parse "/d/foo".toList ∧
    convertToOsPath (parse "/d".toList) ["foo/bar\\baz".toList] = parse "/d/foo_bar_baz".toList := by decide +kernel

example : (∀ name ∈ ["src".toList, "Foo.pen".toList], Plain name) ∧ Absolute (parse "/home/p".toList) ∧
    convertToOsPath (parse "/home/p".toList) ["src".toList, "Foo.pen".toList] = parse "/home/p/src/Foo.pen".toList := by
  decide +kernel

example : findDirectory (fun d => d = parse "/p".toList ∨ d = []) (parse "/p/src/a".toList) = some (parse "/p".toList) := by
  decide +kernel

end Verif.App.OsPath
